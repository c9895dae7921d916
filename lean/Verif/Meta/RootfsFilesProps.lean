import Verif.Meta.RootfsFilesModel
import Verif.Meta.ChangelogProps

/- C161, C162: files that are added to a root file system, and its locales. -/

namespace Meta.RootfsFiles
open Py

/-! ### C161 -/

/-- What is assumed of entries: all have a source that is there, and no file of the host has the name of a destination. -/
structure Fine (w : World) (es : List Entry) : Prop where
  source : ∀ e ∈ es, e.source ≠ [] ∧ w.host e.source ≠ none
  dest : ∀ e ∈ es, w.host e.dest = none

theorem put_same {fs : Files} {p : Str} {c : Option Str} (h : fs p = c) : put fs p c = fs := by
  funext q
  unfold put
  split
  · rename_i e; rw [e, h]
  · rfl

theorem removed_fine {may : Str → Bool} {e : Entry} {w : World} (h : w.host e.dest = none) : removed may e w = some w := by
  unfold removed
  by_cases hr : w.rootfs e.dest ≠ none
  · rw [if_pos hr, if_neg fun hc => hc.1 h, put_same h]
  · rw [if_neg hr]

/-- One entry that is fine. -/
theorem add_cons {may : Str → Bool} {e : Entry} {es : List Entry} {w : World} (hs : e.source ≠ []) {c : Str} (hc : w.host e.source = some c)
    (hd : w.host e.dest = none) : addFiles may (e :: es) w = addFiles may es { w with rootfs := put w.rootfs e.dest (some c) } := by
  conv => lhs; unfold addFiles
  rw [removed_fine hd]
  dsimp only
  rw [if_neg hs]
  unfold copy
  rw [hc]

/-- C161, where it holds: each file is in the root file system as it is on the host, nothing else changes there, and nothing changes on the
host. -/
theorem added_partial {may : Str → Bool} : ∀ {es : List Entry} {w : World}, Fine w es → (es.map (·.dest)).Nodup →
    ∃ w', addFiles may es w = some w' ∧ w'.host = w.host ∧ (∀ e ∈ es, w'.rootfs e.dest = w.host e.source) ∧
      ∀ p, (∀ e ∈ es, p ≠ e.dest) → w'.rootfs p = w.rootfs p
  | [], w, _, _ => ⟨w, rfl, rfl, nofun, fun _ _ => rfl⟩
  | e :: es, w, hf, hn => by
    obtain ⟨hs, hx⟩ := hf.source e List.mem_cons_self
    obtain ⟨c, hc⟩ := Option.ne_none_iff_exists'.1 hx
    rw [List.map_cons, List.nodup_cons] at hn
    obtain ⟨w', h1, h2, h3, h4⟩ := added_partial (may := may) (es := es) (w := { w with rootfs := put w.rootfs e.dest (some c) })
      ⟨fun x hx => hf.source x (List.mem_cons_of_mem _ hx), fun x hx => hf.dest x (List.mem_cons_of_mem _ hx)⟩ hn.2
    refine ⟨w', (add_cons hs hc (hf.dest e List.mem_cons_self)).trans h1, h2, fun x hx => ?_, fun p hp => ?_⟩
    · rcases List.mem_cons.1 hx with rfl | hx
      · rw [h4 x.dest fun y hy e => hn.1 (e ▸ List.mem_map.2 ⟨y, hy, rfl⟩), hc]
        exact if_pos rfl
      · exact h3 x hx
    · rw [h4 p fun x hx => hp x (List.mem_cons_of_mem _ hx)]
      exact if_neg (hp e List.mem_cons_self)

/-- C161: the function is called twice; the second time changes nothing. -/
theorem added_twice {may : Str → Bool} {es : List Entry} {w w' : World} (hf : Fine w es) (hn : (es.map (·.dest)).Nodup) (h : addFiles may es w = some w') :
    addFiles may es w' = some w' := by
  obtain ⟨v, h1, h2, h3, h4⟩ := added_partial (may := may) hf hn
  have e : w' = v := Option.some.inj (h.symm.trans h1)
  subst e
  have hf' : Fine w' es := ⟨fun e he => by rw [h2]; exact hf.source e he, fun e he => by rw [h2]; exact hf.dest e he⟩
  obtain ⟨u, k1, k2, k3, k4⟩ := added_partial (may := may) hf' hn
  rw [k1]
  congr 1
  have : u.rootfs = w'.rootfs := by
    funext p
    by_cases hp : ∀ e ∈ es, p ≠ e.dest
    · exact k4 p hp
    · obtain ⟨e, he⟩ := Classical.not_forall.1 hp
      obtain ⟨he, hpe⟩ := Classical.not_imp.1 he
      rw [Classical.not_not.1 hpe, k3 e he, h3 e he, h2]
  cases u; cases w'
  cases this; cases k2
  rfl

/-- C161: an entry without a source makes an empty file, or leaves the file that is there as it is; and nothing after it is done. -/
theorem empty_source {may : Str → Bool} : ∀ {es : List Entry} {w : World} {e : Entry} (rest : List Entry), Fine w es → (es.map (·.dest)).Nodup → e.source = [] →
    w.host e.dest = none → ∃ w', addFiles may es w = some w' ∧
      addFiles may (es ++ e :: rest) w = some { w' with rootfs := fun p => if p = e.dest then some ((w'.rootfs e.dest).getD []) else w'.rootfs p }
  | [], w, e, rest, _, _, he, hd => by
    refine ⟨w, rfl, ?_⟩
    show addFiles may (e :: rest) w = _
    unfold addFiles
    rw [removed_fine hd]
    dsimp only
    rw [if_pos he]
    rfl
  | x :: es, w, e, rest, hf, hn, he, hd => by
    obtain ⟨hs, hx⟩ := hf.source x List.mem_cons_self
    obtain ⟨c, hc⟩ := Option.ne_none_iff_exists'.1 hx
    rw [List.map_cons, List.nodup_cons] at hn
    have hxd := hf.dest x List.mem_cons_self
    obtain ⟨w', h1, h2⟩ := empty_source (may := may) (es := es) (w := { w with rootfs := put w.rootfs x.dest (some c) }) rest
      ⟨fun y hy => hf.source y (List.mem_cons_of_mem _ hy), fun y hy => hf.dest y (List.mem_cons_of_mem _ hy)⟩ hn.2 he hd
    refine ⟨w', (add_cons hs hc hxd).trans h1, ?_⟩
    rw [List.cons_append, add_cons hs hc hxd]
    exact h2

def exWorld : World := ⟨fun p => if p = "/d/img".toList then some "image".toList else if p = "/etc/x".toList then some "host".toList else none, fun _ => none⟩
def exEntry : Entry := ⟨"/install/img".toList, "/d/img".toList⟩

example : Fine exWorld [exEntry] := by
  refine ⟨fun e he => ?_, fun e he => ?_⟩
  · rw [List.mem_singleton.1 he]; decide +kernel
  · rw [List.mem_singleton.1 he]; decide +kernel

/-- Against C161: a file after an entry without a source is not added. -/
theorem later_not_added : ∃ w, addFiles (fun _ => true) [⟨"/empty".toList, []⟩, exEntry] exWorld = some w ∧ w.rootfs exEntry.dest = none ∧ exWorld.host exEntry.source ≠ none :=
  ⟨_, rfl, by decide +kernel, by decide +kernel⟩

/-- Against C161: a file of the host is removed when the root file system has the destination. -/
theorem host_removed : ∃ w, addFiles (fun _ => true) [⟨"/etc/x".toList, "/d/img".toList⟩] { exWorld with rootfs := fun _ => some [] } = some w ∧
    w.host "/etc/x".toList = none ∧ exWorld.host "/etc/x".toList = some "host".toList :=
  ⟨_, rfl, by decide +kernel, by decide +kernel⟩

/-- Against C161: so the second call fails, where the file must not be removed. -/
theorem second_fails : ∃ w, addFiles (fun _ => false) [⟨"/etc/x".toList, "/d/img".toList⟩] exWorld = some w ∧
    addFiles (fun _ => false) [⟨"/etc/x".toList, "/d/img".toList⟩] w = none :=
  ⟨_, rfl, by
    unfold addFiles removed
    rw [if_pos (by decide +kernel), if_pos (by decide +kernel)]⟩

/-- Against C161: a file that is there does not become empty. -/
theorem not_emptied : ∃ w, addFiles (fun _ => true) [⟨"/empty".toList, []⟩] ⟨fun _ => none, fun _ => some "x".toList⟩ = some w ∧
    w.rootfs "/empty".toList = some "x".toList := ⟨_, rfl, by decide +kernel⟩

/-! ### C162 -/

/-- The separator. -/
def nl : Str := ['\\', 'n']

/-- A text without the separator. -/
def Free (s : Str) : Prop := ∀ a b, s ≠ a ++ nl ++ b

theorem Free.tail {c : Char} {s : Str} (h : Free (c :: s)) : Free s := fun a b e => h (c :: a) b (by rw [e]; rfl)

theorem Free.head {c d : Char} {s : Str} (h : Free (c :: d :: s)) : ¬ (c = '\\' ∧ d = 'n') := fun ⟨h1, h2⟩ => h [] s (by rw [h1, h2]; rfl)

theorem splitNlGo_free : ∀ {s : Str} (cur : Str), Free s → splitNlGo s cur = [cur ++ s]
  | [], cur, _ => by rw [List.append_nil]; rfl
  | [c], cur, _ => rfl
  | c :: d :: s, cur, h => by
    unfold splitNlGo
    rw [if_neg h.head, splitNlGo_free _ h.tail, List.append_assoc]
    rfl

theorem splitNlGo_sep : ∀ {s : Str} (cur t : Str), Free s → splitNlGo (s ++ nl ++ t) cur = (cur ++ s) :: splitNlGo t []
  | [], cur, t, _ => by
    show splitNlGo ('\\' :: 'n' :: t) cur = _
    rw [splitNlGo, if_pos ⟨rfl, rfl⟩, List.append_nil]
  | [c], cur, t, h => by
    show splitNlGo (c :: '\\' :: 'n' :: t) cur = _
    rw [splitNlGo, if_neg fun hc => absurd hc.2 (by decide), splitNlGo, if_pos ⟨rfl, rfl⟩]
  | c :: d :: s, cur, t, h => by
    show splitNlGo (c :: d :: (s ++ nl ++ t)) cur = _
    rw [splitNlGo, if_neg h.head]
    have := splitNlGo_sep (cur ++ [c]) t h.tail
    rw [show (d :: s) ++ nl ++ t = d :: (s ++ nl ++ t) from rfl] at this
    rw [this, List.append_assoc]
    rfl

theorem splitNl_join : ∀ {ps : List Str}, ps ≠ [] → (∀ p ∈ ps, Free p) → splitNl (join nl ps) = ps
  | [], h, _ => absurd rfl h
  | [p], _, h => by
    show splitNlGo p [] = _
    rw [splitNlGo_free _ (h p List.mem_cons_self)]; rfl
  | p :: q :: ps, _, h => by
    have e : join nl (p :: q :: ps) = p ++ nl ++ join nl (q :: ps) := rfl
    rw [e]
    unfold splitNl
    rw [splitNlGo_sep _ _ (h p List.mem_cons_self)]
    have := splitNl_join (ps := q :: ps) nofun fun x hx => h x (List.mem_cons_of_mem _ hx)
    unfold splitNl at this
    rw [this]
    rfl

/-- Every text is made of such parts. -/
theorem splitNl_parts (s : Str) : splitNl s ≠ [] ∧ (∀ p ∈ splitNl s, Free p) ∧ join nl (splitNl s) = s := by
  have key : ∀ (n : Nat) (s cur : Str), s.length ≤ n → Free cur → (∀ c s', s = c :: s' → c = 'n' → ∀ x, cur ≠ x ++ ['\\']) →
      splitNlGo s cur ≠ [] ∧ (∀ p ∈ splitNlGo s cur, Free p) ∧ join nl (splitNlGo s cur) = cur ++ s := by
    have snoc : ∀ {cur : Str} {c : Char}, Free cur → (c = 'n' → ∀ x, cur ≠ x ++ ['\\']) → Free (cur ++ [c]) := by
      intro cur c hf hc a b e
      rcases List.eq_nil_or_concat b with rfl | ⟨b', y, rfl⟩
      · have e : cur ++ [c] = (a ++ ['\\']) ++ ['n'] := by rw [e, List.append_nil, List.append_assoc]; rfl
        obtain ⟨e1, e2⟩ := List.append_inj' e rfl
        exact hc (List.cons.inj e2).1 a e1
      · rw [List.concat_eq_append, ← List.append_assoc] at e
        exact hf a b' (List.append_inj' e rfl).1
    intro n
    induction n with
    | zero =>
      intro s cur hl hf _
      rw [List.length_eq_zero_iff.1 (Nat.le_zero.1 hl)]
      exact ⟨nofun, fun p hp => by rw [List.mem_singleton.1 hp]; exact hf, by rw [List.append_nil]; rfl⟩
    | succ n ih =>
      intro s cur hl hf hc
      match s, hl, hc with
      | [], _, _ => exact ⟨nofun, fun p hp => by rw [List.mem_singleton.1 hp]; exact hf, by rw [List.append_nil]; rfl⟩
      | [c], _, hc =>
        refine ⟨nofun, fun p hp => ?_, rfl⟩
        rw [List.mem_singleton.1 hp]
        exact snoc hf (hc c [] rfl)
      | c :: d :: s, hl, hc =>
        simp only [List.length_cons] at hl
        unfold splitNlGo
        by_cases hx : c = '\\' ∧ d = 'n'
        · rw [if_pos hx]
          obtain ⟨h1, h2, h3⟩ := ih s [] (by omega) (fun a b e => by
            have := congrArg List.length e
            rw [List.length_append, List.length_append] at this
            simp only [List.length_nil] at this
            have : nl.length = 2 := rfl
            omega) (fun _ _ _ _ x e => by cases x <;> cases e)
          refine ⟨nofun, fun p hp => (List.mem_cons.1 hp).elim (fun e => e ▸ hf) (h2 p), ?_⟩
          cases hs : splitNlGo s [] with
          | nil => exact absurd hs h1
          | cons y l =>
            rw [hs] at h3
            show cur ++ nl ++ join nl (y :: l) = _
            rw [h3, hx.1, hx.2, List.append_assoc]
            rfl
        · rw [if_neg hx]
          obtain ⟨h1, h2, h3⟩ := ih (d :: s) (cur ++ [c]) (by simp only [List.length_cons]; omega) (snoc hf (hc c _ rfl)) (by
            intro c' s' e hn x ex
            obtain ⟨e1, _⟩ := List.cons.inj e
            have := (List.cons.inj (List.append_inj' ex rfl).2).1
            exact hx ⟨this, e1.trans hn⟩)
          exact ⟨h1, h2, by rw [h3, List.append_assoc]; rfl⟩
  have := key s.length s [] (Nat.le_refl _) (fun a b e => by
    have := congrArg List.length e
    rw [List.length_append, List.length_append] at this
    simp only [List.length_nil] at this
    have : nl.length = 2 := rfl
    omega) (fun _ _ _ _ x e => by cases x <;> cases e)
  exact this

/-- A part of `LOCALE_GEN`, and the locale in it: white space around it is left out. -/
structure Part (p : Str) (item : Str) : Prop where
  free : Free p
  around : ∃ a b, p = a ++ item ++ b ∧ ∀ c ∈ a ++ b, isWs c = true
  item : item = [] ∨ Meta.Changelog.Trimmed item

theorem strip_item {p item : Str} (h : Part p item) : strip p = item := by
  obtain ⟨a, b, e, hw⟩ := h.around
  have ha : ∀ c ∈ a, isWs c = true := fun c hc => hw c (List.mem_append_left _ hc)
  have hb : ∀ c ∈ b, isWs c = true := fun c hc => hw c (List.mem_append_right _ hc)
  rw [e, List.append_assoc, Meta.Changelog.strip_ws ha]
  rcases h.item with h0 | ht
  · rw [h0, List.nil_append]
    have := Meta.Changelog.strip_ws (w := b) (s := []) hb
    rw [List.append_nil] at this
    rw [this]; rfl
  · have h2 : strip (item ++ b) = item := by
      have := Meta.Changelog.given_strip ht hb
      exact this
    exact h2

/-- C162: `locale.gen` has just the locales that are in the parts of `LOCALE_GEN`, each once, and in order. -/
theorem gen_spec {ps : List (Str × Str)} (hp : ∀ p ∈ ps, Part p.1 p.2) (hne : ps ≠ []) :
    (∀ x, x ∈ genLines (join nl (ps.map (·.1))) ↔ x ≠ [] ∧ ∃ p ∈ ps, p.2 = x) ∧
    (genLines (join nl (ps.map (·.1)))).Nodup ∧ (genLines (join nl (ps.map (·.1)))).Pairwise (fun a b => strLe a b = true) := by
  have e : splitNl (join nl (ps.map (·.1))) = ps.map (·.1) := splitNl_join (fun h => hne (List.map_eq_nil_iff.1 h)) fun x hx => by
    obtain ⟨p, h, rfl⟩ := List.mem_map.1 hx
    exact (hp p h).free
  refine ⟨fun x => ?_, sortSet_nodup _, (sortSet_sorted _).imp fun h => h.1⟩
  unfold genLines
  rw [mem_sortSet, e, List.mem_filter, decide_eq_true_iff, and_comm]
  refine and_congr Iff.rfl ⟨fun h => ?_, fun ⟨p, h1, h2⟩ => ?_⟩
  · rw [List.map_map] at h
    obtain ⟨p, h1, h2⟩ := List.mem_map.1 h
    exact ⟨p, h1, (strip_item (hp p h1)).symm.trans h2⟩
  · rw [List.map_map]
    exact List.mem_map.2 ⟨p, h1, (strip_item (hp p h1)).trans h2⟩

/-- C162: every text is made of such parts. -/
theorem every_gen (v : Str) : ∃ ps : List (Str × Str), ps ≠ [] ∧ (∀ p ∈ ps, Part p.1 p.2) ∧ v = join nl (ps.map (·.1)) := by
  obtain ⟨h1, h2, h3⟩ := splitNl_parts v
  refine ⟨(splitNl v).map fun p => (p, strip p), fun h => h1 (List.map_eq_nil_iff.1 h), fun p hp => ?_, ?_⟩
  · obtain ⟨q, hq, rfl⟩ := List.mem_map.1 hp
    obtain ⟨a, b, e, hw, ht⟩ := Meta.Changelog.strip_spec q
    exact ⟨h2 q hq, ⟨a, b, e, hw⟩, ht⟩
  · rw [List.map_map]
    have : (splitNl v).map ((·.1) ∘ fun p => (p, strip p)) = splitNl v := List.map_id'' (fun _ => rfl) _
    rw [this, h3]

/-- C162: neither order nor repetition nor white space matter: the same locales give the same text. -/
theorem gen_same {ps qs : List (Str × Str)} (hp : ∀ p ∈ ps, Part p.1 p.2) (hq : ∀ p ∈ qs, Part p.1 p.2) (np : ps ≠ []) (nq : qs ≠ [])
    (h : ∀ x, x ≠ [] → ((∃ p ∈ ps, p.2 = x) ↔ ∃ p ∈ qs, p.2 = x)) (sep : Str) :
    localeGen sep (join nl (ps.map (·.1))) = localeGen sep (join nl (qs.map (·.1))) := by
  unfold localeGen
  congr 1
  have e : ∀ x, x ∈ genLines (join nl (ps.map (·.1))) ↔ x ∈ genLines (join nl (qs.map (·.1))) := by
    intro x
    rw [(gen_spec hp np).1 x, (gen_spec hq nq).1 x]
    exact ⟨fun ⟨a, b⟩ => ⟨a, (h x a).1 b⟩, fun ⟨a, b⟩ => ⟨a, (h x a).2 b⟩⟩
  exact sorted_unique (sortSet_sorted _) (sortSet_sorted _) e

/-- The name of a locale: its first word. -/
def NameIs (line name : Str) : Prop := IsWord name ∧ ∃ a b, line = a ++ name ++ b ∧ (∀ c ∈ a, isWs c = true) ∧ ∀ c ∈ b.head?, isWs c = true

theorem words_first {line name : Str} (h : NameIs line name) : (words line).head? = some name := by
  obtain ⟨hw, a, b, e, ha, hb⟩ := h
  have lead : ∀ (a s : Str), (∀ c ∈ a, isWs c = true) → words (a ++ s) = words s := by
    intro a s h
    induction a with
    | nil => rfl
    | cons c a ih => rw [List.cons_append, words_cons_ws _ _ (h c List.mem_cons_self)]; exact ih fun x hx => h x (List.mem_cons_of_mem _ hx)
  rw [e, List.append_assoc, lead a _ ha]
  cases b with
  | nil => rw [List.append_nil, words_word hw]; rfl
  | cons c b => rw [words_append_ws _ _ c (hb c rfl), words_word hw]; rfl

/-- What is before the first such character. -/
def Before (c : Char) (s x : Str) : Prop := c ∉ x ∧ (s = x ∨ ∃ r, s = x ++ c :: r)

theorem firstPart_before {c : Char} {s x : Str} (h : Before c s x) : firstPart c s = x := by
  unfold firstPart
  rcases h.2 with e | ⟨r, e⟩
  · rw [e, splitOn_clean _ _ h.1]; rfl
  · rw [e, splitOn_append, splitOn_clean _ _ h.1]; rfl

theorem strip_word {s : Str} (h : ∀ c ∈ s, isWs c = false) : strip s = s := by
  by_cases e : s = []
  · rw [e]; rfl
  · refine Meta.Changelog.strip_trimmed ⟨e, fun c hc => h c (List.mem_of_mem_head? hc), fun c hc => h c (List.mem_of_mem_getLast? hc)⟩

/-- C162: whatever locale is generated is not purged: its name is kept, what is before the encoding, and the language. -/
theorem kept {v line name lang terr : Str} (h : line ∈ genLines v) (hn : NameIs line name) (hl : Before '_' name lang) (ht : Before '.' name terr) :
    name ∈ nopurgeLines v ∧ lang ∈ nopurgeLines v ∧ terr ∈ nopurgeLines v := by
  unfold genLines at h
  rw [mem_sortSet] at h
  obtain ⟨h1, h2⟩ := List.mem_filter.1 h
  obtain ⟨j, hj, rfl⟩ := List.mem_map.1 h1
  have hname : NameIs j name := by
    obtain ⟨hw, a, b, e, ha, hb⟩ := hn
    obtain ⟨a', b', e', hw', _⟩ := Meta.Changelog.strip_spec j
    refine ⟨hw, a' ++ a, b ++ b', by rw [e', e]; simp only [List.append_assoc], fun c hc => ?_, fun c hc => ?_⟩
    · exact (List.mem_append.1 hc).elim (fun hc => hw' c (List.mem_append_left _ hc)) (ha c)
    · cases b with
      | nil => exact hw' c (List.mem_append_right _ (List.mem_of_mem_head? hc))
      | cons x b => exact hb c hc
  have hk : keepNames j = [lang, terr, name] := by
    unfold keepNames
    rw [words_first hname]
    dsimp only [Option.getD]
    rw [firstPart_before hl, firstPart_before ht]
  have hclean : ∀ x ∈ [lang, terr, name], ∀ c ∈ x, isWs c = false := by
    have sub : ∀ {c : Char} {x : Str}, Before c name x → ∀ y ∈ x, y ∈ name := by
      intro c x hb y hy
      rcases hb.2 with e | ⟨r, e⟩
      · rw [e]; exact hy
      · rw [e]; exact List.mem_append_left _ hy
    intro x hx c hc
    rcases List.mem_cons.1 hx with rfl | hx
    · exact hn.1.2 c (sub hl c hc)
    · rcases List.mem_cons.1 hx with rfl | hx
      · exact hn.1.2 c (sub ht c hc)
      · rw [List.mem_singleton.1 hx] at hc
        exact hn.1.2 c hc
  have hall : ∀ x ∈ [lang, terr, name], x ∈ nopurgeLines v := by
    intro x hx
    unfold nopurgeLines
    rw [mem_sortSet]
    refine List.mem_map.2 ⟨x, List.mem_flatMap.2 ⟨j, List.mem_filter.2 ⟨hj, h2⟩, by rw [hk]; exact hx⟩, strip_word (hclean x hx)⟩
  exact ⟨hall _ (by simp), hall _ (by simp), hall _ (by simp)⟩

/-- C162: and nothing else is kept. -/
theorem kept_only {v x : Str} (h : x ∈ nopurgeLines v) : ∃ line ∈ genLines v, ∃ name, NameIs line name ∧ (x = name ∨ Before '_' name x ∨ Before '.' name x) := by
  unfold nopurgeLines at h
  rw [mem_sortSet] at h
  obtain ⟨y, hy, rfl⟩ := List.mem_map.1 h
  obtain ⟨j, hj, hy⟩ := List.mem_flatMap.1 hy
  obtain ⟨hj, hne⟩ := List.mem_filter.1 hj
  refine ⟨strip j, ?_, ?_⟩
  · unfold genLines
    rw [mem_sortSet]
    exact List.mem_filter.2 ⟨List.mem_map.2 ⟨j, hj, rfl⟩, hne⟩
  · -- the first word of what is left of the line
    have htr : Meta.Changelog.Trimmed (strip j) := by
      obtain ⟨_, _, _, _, h⟩ := Meta.Changelog.strip_spec j
      exact h.resolve_left (of_decide_eq_true hne)
    have hsplit : ∃ name b, strip j = name ++ b ∧ IsWord name ∧ ∀ c ∈ b.head?, isWs c = true := by
      obtain ⟨a, h1, h2, h3⟩ := Meta.Changelog.dropWhile_split (fun c => !isWs c) (strip j)
      refine ⟨a, _, h1, ⟨fun ha => ?_, fun c hc => by simpa using h2 c hc⟩, fun c hc => by simpa using h3 c hc⟩
      rw [ha, List.nil_append] at h1
      cases hs : strip j with
      | nil => exact htr.1 hs
      | cons c s =>
        have h4 := htr.2.1 c (by rw [hs]; rfl)
        have h5 := h3 c (by rw [← h1, hs]; rfl)
        rw [h4] at h5
        cases h5
    obtain ⟨name, b, e, hw, hb⟩ := hsplit
    have hn : NameIs (strip j) name := ⟨hw, [], b, e, nofun, hb⟩
    have hj' : NameIs j name := by
      obtain ⟨a', b', e', hw', _⟩ := Meta.Changelog.strip_spec j
      refine ⟨hw, a', b ++ b', by rw [e', e]; simp only [List.append_assoc], fun c hc => hw' c (List.mem_append_left _ hc), fun c hc => ?_⟩
      cases b with
      | nil => exact hw' c (List.mem_append_right _ (List.mem_of_mem_head? hc))
      | cons x b => exact hb c hc
    refine ⟨name, hn, ?_⟩
    have hfp : ∀ (c : Char), Before c name (firstPart c name) := by
      intro c
      obtain ⟨a, h1, h2, h3⟩ := Meta.Changelog.dropWhile_split (fun x => x != c) name
      have ha : c ∉ a := fun hc => by simpa using h2 c hc
      have : Before c name a := by
        refine ⟨ha, ?_⟩
        cases hd : name.dropWhile (fun x => x != c) with
        | nil => rw [hd, List.append_nil] at h1; exact Or.inl h1
        | cons z r =>
          rw [hd] at h1 h3
          have hz : z = c := by simpa using h3 z rfl
          exact Or.inr ⟨r, by rw [← hz]; exact h1⟩
      rw [firstPart_before this]
      exact this
    have hk : keepNames j = [firstPart '_' name, firstPart '.' name, name] := by
      unfold keepNames
      rw [words_first hj']
      rfl
    rw [hk] at hy
    have hcl : ∀ {c : Char} {x : Str}, Before c name x → ∀ y ∈ x, isWs y = false := by
      intro c x hb y hy
      rcases hb.2 with e | ⟨r, e⟩
      · exact hw.2 y (by rw [e]; exact hy)
      · exact hw.2 y (by rw [e]; exact List.mem_append_left _ hy)
    rcases List.mem_cons.1 hy with rfl | hy
    · rw [strip_word (hcl (hfp '_'))]; exact Or.inr (Or.inl (hfp '_'))
    · rcases List.mem_cons.1 hy with rfl | hy
      · rw [strip_word (hcl (hfp '.'))]; exact Or.inr (Or.inr (hfp '.'))
      · rw [List.mem_singleton.1 hy, strip_word hw.2]; exact Or.inl rfl

example : localeGen ", ".toList "en_US.UTF-8 UTF-8\\n     en_US ISO-8859-1\\n".toList = "en_US ISO-8859-1, en_US.UTF-8 UTF-8".toList ∧
    nopurge "en_US.UTF-8 UTF-8\\n     en_US ISO-8859-1\\n".toList = "en\nen_US\nen_US.UTF-8".toList := by decide +kernel
example : Part "     en_US ISO-8859-1".toList "en_US ISO-8859-1".toList := by
  have h : splitNl "     en_US ISO-8859-1".toList = ["     en_US ISO-8859-1".toList] := by decide +kernel
  refine ⟨?_, ⟨"     ".toList, [], by decide, by decide⟩, Or.inr ⟨by decide, by decide +kernel, by decide +kernel⟩⟩
  exact (splitNl_parts "     en_US ISO-8859-1".toList).2.1 _ (by rw [h]; exact List.mem_cons_self)
example : NameIs "en_US.UTF-8 UTF-8".toList "en_US.UTF-8".toList ∧ Before '_' "en_US.UTF-8".toList "en".toList ∧ Before '.' "en_US.UTF-8".toList "en_US".toList :=
  ⟨⟨⟨by decide, by decide +kernel⟩, [], " UTF-8".toList, by decide, nofun, by decide +kernel⟩, ⟨by decide, Or.inr ⟨"US.UTF-8".toList, by decide⟩⟩,
    ⟨by decide, Or.inr ⟨"UTF-8".toList, by decide⟩⟩⟩

end Meta.RootfsFiles
