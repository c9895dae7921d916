import Verif.Meta.AptLemmas
/-! # Properties of the apt source handling: C24, C25, C52, C53 -/

namespace Isar.Apt
open Py Spec

/-- Literal text search as an example of a regular expression engine. -/
def exRe : Regex where
  search p s := startsWith s p
  sub p r s := if startsWith s p then r ++ s.drop p.length else s

def exEntry : Entry :=
  ⟨"deb".toList, "[arch=amd64]".toList, "http://deb.org/debian".toList, "bookworm".toList,
   "main contrib".toList⟩

def exConf : Conf := ⟨false, [], false, "http://deb.org http://mirror\\n".toList⟩

theorem exEntry_wf : Wf exEntry where
  type := Or.inl rfl
  options := Or.inr (Or.inl ⟨"arch=amd64".toList,
    ⟨"arch".toList, "amd64".toList, ⟨by decide, by decide⟩, ⟨by decide, by decide⟩, rfl⟩, rfl⟩)
  source := ⟨⟨by decide, by decide⟩, by decide, by decide, by decide⟩
  suite := Or.inl ⟨⟨by decide, by decide⟩, by decide, by decide⟩
  components := ⟨["main".toList, "contrib".toList], by decide, by decide +kernel, rfl⟩

/-- C24: the generated source list, read again, has exactly the (mirrored) entries of all
configured files.  Each file counts once, in the order in which the files are named first;
within a file the order is kept and nothing is dropped or merged. -/
theorem sources_complete {re : Regex} {c : Conf} {files : Str → Option Str} {var out : Str}
    (h : prepare re c files var = some out)
    (hwf : ∀ n ∈ words var, ∀ t es, files n = some t → entries t = some es →
      ∀ e ∈ es, Wf (mirror re c e)) :
    ∃ names : List Str, names.Nodup ∧ (∀ x, x ∈ names ↔ x ∈ words var) ∧
      names.Pairwise (fun x y => (words var).idxOf x < (words var).idxOf y) ∧
      ∃ ess : List (List Entry), names.map (fun n => (files n).bind entries) = ess.map some ∧
        entries out = some (ess.flatten.map (mirror re c)) := by
  unfold prepare sourcesList at h
  obtain ⟨d1, d2, d3⟩ := dedup_spec (words var)
  simp only at h
  by_cases hall : (dedup (words var)).all (fun n => (files n).isSome) = true
  · rw [if_pos hall, Option.bind_some] at h
    obtain ⟨ess, he⟩ := aggregate_entries h fun n hn => hwf n ((d2 n).1 hn)
    exact ⟨dedup (words var), d1, d2, d3, ess, he⟩
  · rw [if_neg hall] at h
    cases h

example : prepare exRe exConf
    (fun n => if n = "a".toList then
      some "# list\ndeb [arch=amd64] http://deb.org/debian bookworm main  contrib\n".toList
      else none) "a a".toList =
    some "# list\n\ndeb [arch=amd64] http://mirror/debian bookworm main contrib\n\n".toList := by
  decide +kernel

/-- C24: a configured file that does not exist is an error, it is never skipped. -/
theorem missing_source_fatal (re : Regex) (c : Conf) (files : Str → Option Str) (var n : Str)
    (hn : n ∈ words var) (hf : files n = none) : prepare re c files var = none := by
  unfold prepare sourcesList
  have : ¬ (dedup (words var)).all (fun n => (files n).isSome) = true := by
    rw [List.all_eq_true]
    intro h
    have := h n (((dedup_spec (words var)).2.1 n).2 hn)
    rw [hf] at this
    cases this
  simp only [this]
  rfl

example : prepare exRe exConf (fun _ => none) "a".toList = none := by decide

/-- C25: the mirrors are tried in order; the first one whose expression is found in the location
replaces the location, nothing else of type, suite and components changes, and without a match
the entry stays as it is. -/
theorem first_mirror_wins (re : Regex) (c : Conf) (e : Entry) :
    ((∀ m ∈ c.mirrors, re.search m.1 e.source = false) → mirror re c e = e) ∧
    (∀ pre m post, c.mirrors = pre ++ m :: post → (∀ m' ∈ pre, re.search m'.1 e.source = false) →
      re.search m.1 e.source = true →
      (mirror re c e).source = re.sub m.1 m.2 e.source) ∧
    (mirror re c e).type = e.type ∧ (mirror re c e).suite = e.suite ∧
    (mirror re c e).components = e.components := by
  unfold mirror
  generalize c.mirrors = ms
  induction ms with
  | nil =>
    refine ⟨fun _ => rfl, ?_, rfl, rfl, rfl⟩
    intro pre m post h
    simp at h
  | cons m ms ih =>
    obtain ⟨i1, i2, i3⟩ := ih
    obtain ⟨a, b⟩ := m
    refine ⟨?_, ?_, ?_⟩
    · intro h
      rw [applyMirrors, if_neg (by rw [h _ List.mem_cons_self]; decide)]
      exact i1 fun m hm => h m (List.mem_cons_of_mem _ hm)
    · intro pre m post hms hpre hm
      cases pre with
      | nil =>
        rw [List.nil_append] at hms
        obtain ⟨rfl, rfl⟩ := List.cons.inj hms
        rw [applyMirrors, if_pos hm]
      | cons x pre =>
        rw [List.cons_append] at hms
        obtain ⟨rfl, rfl⟩ := List.cons.inj hms
        rw [applyMirrors, if_neg (by rw [hpre _ List.mem_cons_self]; decide)]
        exact i2 pre m post rfl (fun m hm => hpre m (List.mem_cons_of_mem _ hm)) hm
    · by_cases hs : re.search a e.source = true
      · rw [applyMirrors, if_pos hs]; exact ⟨rfl, rfl, rfl⟩
      · rw [applyMirrors, if_neg hs]; exact i3

example : (mirror exRe exConf exEntry).source = "http://mirror/debian".toList := by decide

/-- C25: where the mirrors come from: the local repository if it is used, else the snapshot
mirror if snapshots are used and it is set, else the configured premirrors.  The text is split
at `\n` and entries which do not consist of two words are ignored. -/
theorem mirror_precedence (c : Conf) :
    (c.cachedBaseRepo = true →
      c.mirrors = [("\\S*".toList, "file://${REPO_BASE_DIR}/${BOOTSTRAP_BASE_DISTRO}".toList)]) ∧
    (c.cachedBaseRepo = false → c.useSnapshot = true → c.snapshotMirror ≠ [] →
      c.mirrors = mirrorList c.snapshotMirror) ∧
    (c.cachedBaseRepo = false → (c.useSnapshot = false ∨ c.snapshotMirror = []) →
      c.mirrors = mirrorList c.premirrors) := by
  unfold Conf.mirrors
  refine ⟨fun h => ?_, fun h h2 h3 => ?_, fun h h2 => ?_⟩
  · rw [h, if_pos rfl]; decide +kernel
  · rw [h, h2, if_neg (by decide), if_pos ⟨rfl, h3⟩]
  · rw [h, if_neg (by decide), if_neg]
    rintro ⟨h3, h4⟩
    rcases h2 with h2 | h2
    · rw [h2] at h3; cases h3
    · exact h4 h2

/-- C53, partial: the options of an entry survive unless a mirror matches while snapshots are
used.  Missing: with snapshots they are lost, see `snapshot_drops_options`. -/
theorem options_kept_partial (re : Regex) (c : Conf) (e : Entry)
    (h : c.useSnapshot = false ∨ ∀ m ∈ c.mirrors, re.search m.1 e.source = false) :
    (mirror re c e).options = e.options := by
  unfold mirror
  generalize c.mirrors = ms at h
  induction ms with
  | nil => rfl
  | cons m ms ih =>
    obtain ⟨a, b⟩ := m
    rw [applyMirrors]
    by_cases hs : re.search a e.source = true
    · rw [if_pos hs]
      rcases h with h | h
      · rw [h]; rfl
      · rw [h _ List.mem_cons_self] at hs; cases hs
    · rw [if_neg hs]
      exact ih (h.imp_right fun h m hm => h m (List.mem_cons_of_mem _ hm))

example : (mirror exRe exConf exEntry).options = "[arch=amd64]".toList := by decide

/-- C53, why the full statement is false: with snapshots the mirrored entry has lost its own
options, here the restriction to one architecture. -/
theorem snapshot_drops_options :
    (mirror exRe ⟨true, "http://deb.org http://snap\\n".toList, false, []⟩ exEntry).options =
      "[check-valid-until=no]".toList := by decide

/-- C52: an entry in one-line style with at most two options is read field by field, whatever
whitespace is around it. -/
theorem entry_read_exact_partial {e : Entry} (h : Wf e) (w w' : Str)
    (hw : ∀ c ∈ w, isWs c = true) (hw' : ∀ c ∈ w', isWs c = true) :
    parseLine (w ++ (e.type ++ " ".toList ++ e.options ++ " ".toList ++ e.source ++ " ".toList ++
      e.suite ++ " ".toList ++ e.components) ++ w') = some (some e) := by
  have := parse_render h w w' hw hw'
  rw [render_eq] at this
  rw [← this]
  simp

example : parseLine "  deb [arch=amd64] http://deb.org/debian bookworm main contrib\n".toList =
    some (some exEntry) := by decide +kernel

/-- C52, what is missing: with three options the first option is taken for the location, and a
line with a single word makes the reader fail. -/
theorem entry_misread :
    (∃ e, parseLine "deb [a=1 b=2 c=3] http://x suite main".toList = some (some e) ∧
      e.source = "[a=1".toList ∧ e.suite = "b=2".toList) ∧
    parseLine "word".toList = none ∧ parseLine "deb http://x ./".toList = none := by
  refine ⟨⟨_, rfl, by decide +kernel, by decide +kernel⟩, by decide +kernel, by decide +kernel⟩

/-- C52: comments and blank lines are no entries, and neither are lines with another first
word. -/
theorem no_entry (w s : Str) (hw : ∀ c ∈ w, isWs c = true) :
    parseLine w = some none ∧ parseLine (w ++ '#' :: s) = some none ∧
    ∀ t, IsWord t → t ≠ "deb".toList → t ≠ "deb-src".toList → ∀ u, IsWord u →
      parseLine (w ++ t ++ ' ' :: u) = some none := by
  refine ⟨?_, ?_, ?_⟩
  · have := parse_append_ws [] w hw
    rw [List.nil_append] at this
    rw [this, parse_empty]
  · unfold parseLine
    rw [if_pos]
    right
    have h1 : lstrip (w ++ '#' :: s) = '#' :: s := by
      rw [lstrip_ws hw]; exact lstrip_cons (by decide) s
    have h2 : ∃ t, rstrip ('#' :: s) = '#' :: t := by
      unfold rstrip
      rw [List.reverse_cons, List.dropWhile_append]
      split
      · rename_i h
        exact ⟨[], rfl⟩
      · exact ⟨(s.reverse.dropWhile isWs).reverse, by simp⟩
    obtain ⟨t, ht⟩ := h2
    unfold strip
    rw [h1, ht]
    exact startsWith_iff.2 ⟨t, rfl⟩
  · intro t ht h1 h2 u hu
    have hs := strip_words ht hu [' '] w [] hw (by simp)
    have e : w ++ t ++ ' ' :: u = w ++ (t ++ ([' '] ++ u)) ++ [] := by simp
    unfold parseLine
    simp only [e, hs]
    by_cases h0 : t ++ ([' '] ++ u) = [] ∨ startsWith (t ++ ([' '] ++ u)) "#".toList = true
    · rw [if_pos h0]
    · rw [if_neg h0]
      have : t ++ ([' '] ++ u) = t ++ ' ' :: u := rfl
      rw [this, split1_word ht]
      simp only [Option.bind_eq_bind, Option.bind_some, ne_eq, h1, h2, not_false_eq_true, and_self,
        if_true]

example : parseLine " # deb http://x y z".toList = some none := by decide +kernel

/-- C52: bootstrapping uses location, suite and components of the first `deb` entry of the
configured files, after mirroring. -/
theorem primary_is_first_deb {re : Regex} {c : Conf} (before : List Str) (l : Str)
    (after : List Str) (e : Entry)
    (hb : ∀ b ∈ before, ∃ o, parseLine b = some o ∧ ∀ x, o = some x → x.type ≠ "deb".toList)
    (hl : parseLine l = some (some e)) (he : e.type = "deb".toList) :
    primaryOfLines re c (before ++ l :: after) =
      some ((mirror re c e).source, e.suite, e.components) := by
  have hm := (first_mirror_wins re c e).2.2
  induction before with
  | nil =>
    rw [List.nil_append, primaryOfLines, hl]
    simp only [hm.1, he, if_true, hm.2.1, hm.2.2]
  | cons b bs ih =>
    obtain ⟨o, ho, hx⟩ := hb b List.mem_cons_self
    have ih := ih fun b hb' => hb b (List.mem_cons_of_mem _ hb')
    rw [List.cons_append, primaryOfLines, ho]
    cases o with
    | none => exact ih
    | some x =>
      have hmx := (first_mirror_wins re c x).2.2.1
      simp only [hmx, hx x rfl, if_false]
      exact ih

example : primary exRe exConf
    (fun n => if n = "a".toList then
      some "deb-src http://x s m\ndeb [arch=amd64] http://deb.org/debian bookworm main\n".toList
      else none) "a".toList =
    some ("http://mirror/debian".toList, "bookworm".toList, "main".toList) := by decide +kernel

end Isar.Apt
