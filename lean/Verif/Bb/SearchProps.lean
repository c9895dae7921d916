import Verif.Bb.SearchModel

/-!
C271: the first file in a search path is found.
C272: whether a directory is below another.
C273: the layer of a file.
C274: the environment is put back.
C275: tasks without the flag have no network.
-/

namespace Isar.Bb.Search

open Py

namespace Spec

/-- the order of a search -/
def order (dirs : List Str) : Bool → List Str
  | false => dirs
  | true => dirs.reverse

/-- A line of /etc/passwd is for a user: its third field is their number. -/
def entryFor (uid : Nat) (l : Str) : Prop :=
  ∃ name pw, ':' ∉ name ∧ ':' ∉ pw ∧
    (l = name ++ ':' :: (pw ++ ':' :: dec uid) ∨ ∃ rest, l = name ++ ':' :: (pw ++ ':' :: (dec uid ++ ':' :: rest)))

end Spec

/-! ## C271 -/

theorem whichLoop_skip {cand : Str → Bool} {cwd item : Str} : ∀ {a : List Str} (b h : List Str), (∀ x ∈ a, cand (pathJoin x item) = false) →
    whichLoop cand cwd item (a ++ b) h = whichLoop cand cwd item b (h ++ a.map (pathJoin · item))
  | [], b, h, _ => by simp
  | x :: a, b, h, hx => by
    have h1 := hx x (List.mem_cons_self ..)
    simp only [List.cons_append, whichLoop, h1, Bool.false_eq_true, if_false]
    rw [whichLoop_skip b _ (fun y hy => hx y (List.mem_cons_of_mem _ hy))]
    simp

theorem which_order {cand : Str → Bool} {cwd item : Str} {dirs : List Str} (rev : Bool) (hne : dirs ≠ []) (hd : ∀ d ∈ dirs, ':' ∉ d) :
    which cand cwd (join [':'] dirs) item rev = whichLoop cand cwd item (Spec.order dirs rev) [] := by
  unfold which
  dsimp only
  rw [splitOn_join ':' dirs hne hd]
  cases rev <;> rfl

/-- **C271**: the file is found in the first directory (from the other end, if so wanted) that has it, and the paths that were tried are told. -/
theorem finds_first {cand : Str → Bool} {cwd item : Str} {dirs : List Str} (rev : Bool) (hd : ∀ d ∈ dirs, ':' ∉ d)
    {a b : List Str} {d : Str} (ho : Spec.order dirs rev = a ++ d :: b) (ha : ∀ x ∈ a, cand (pathJoin x item) = false)
    (hc : cand (pathJoin d item) = true) :
    which cand cwd (join [':'] dirs) item rev =
      (if isabs (pathJoin d item) then pathJoin d item else abspath cwd (pathJoin d item), a.map (pathJoin · item) ++ [pathJoin d item]) := by
  have hne : dirs ≠ [] := fun h => by subst h; cases rev <;> simp [Spec.order] at ho
  rw [which_order rev hne hd, ho, whichLoop_skip _ _ ha]
  simp only [whichLoop, hc, if_true, List.nil_append]

/-- **C271**: it is not found if no directory has it, and all of them were tried. -/
theorem finds_none {cand : Str → Bool} {cwd item : Str} {dirs : List Str} (rev : Bool) (hne : dirs ≠ []) (hd : ∀ d ∈ dirs, ':' ∉ d)
    (ha : ∀ x ∈ dirs, cand (pathJoin x item) = false) :
    which cand cwd (join [':'] dirs) item rev = ([], (Spec.order dirs rev).map (pathJoin · item)) := by
  rw [which_order rev hne hd]
  have := whichLoop_skip (cand := cand) (cwd := cwd) (item := item) (a := Spec.order dirs rev) [] [] (fun x hx => ha x (by
    cases rev
    · exact hx
    · exact List.mem_reverse.mp hx))
  simpa [whichLoop] using this

theorem isabs_abspath {cwd s : Str} (hc : isabs cwd = true) : isabs (abspath cwd s) = true := by
  have key : ∀ t, isabs t = true → isabs (normpath t) = true := by
    intro t ht
    obtain ⟨u, rfl⟩ := isabs_iff.mp ht
    have h0 : ∃ k, initSlashes ('/' :: u) = k + 1 := by
      unfold initSlashes
      split
      · exact ⟨0, rfl⟩
      · exact ⟨1, rfl⟩
      · exact ⟨0, rfl⟩
      · rename_i h; exact absurd rfl (h u)
    obtain ⟨k, hk⟩ := h0
    unfold normpath
    dsimp only
    rw [hk, List.replicate_succ, List.cons_append, if_neg (by simp)]
    rfl
  unfold abspath
  apply key
  split
  · assumption
  · rename_i hs
    unfold pathJoin
    rw [if_neg hs]
    split
    · exact isabs_append hc
    · exact isabs_append hc

/-- **C271**: what is found is an absolute path. -/
theorem found_absolute {cand : Str → Bool} {cwd path item : Str} {rev : Bool} (hc : isabs cwd = true) :
    (which cand cwd path item rev).1 = [] ∨ isabs (which cand cwd path item rev).1 = true := by
  have key : ∀ ps h, (whichLoop cand cwd item ps h).1 = [] ∨ isabs (whichLoop cand cwd item ps h).1 = true := by
    intro ps
    induction ps with
    | nil => intro h; exact Or.inl rfl
    | cons p ps ih =>
      intro h
      unfold whichLoop
      dsimp only
      split
      · right
        dsimp only
        split
        · assumption
        · exact isabs_abspath hc
      · exact ih _
  exact key _ _

/-- A path that is empty or not set is the current directory, not no directory. -/
theorem unset_is_cwd {cand : Str → Bool} {cwd item : Str} {rev : Bool} (hi : isabs item = false) (hc : cand item = true) :
    which cand cwd [] item rev = (abspath cwd item, [item]) := by
  have h1 : pathJoin [] item = item := by simp [pathJoin, hi]
  have h2 := finds_first (cand := cand) (cwd := cwd) (item := item) (dirs := [[]]) rev (by simp) (a := []) (b := []) (d := [])
    (by cases rev <;> rfl) (by simp) (by rw [h1]; exact hc)
  rw [h1, hi] at h2
  exact h2

example : which (fun p => p == "/b/x".toList || p == "/c/x".toList) "/w".toList "/a:/b:/c".toList "x".toList false =
    ("/b/x".toList, ["/a/x".toList, "/b/x".toList]) ∧
    which (fun p => p == "/b/x".toList || p == "/c/x".toList) "/w".toList "/a:/b:/c".toList "x".toList true = ("/c/x".toList, ["/c/x".toList]) := by
  decide +kernel

/-! ## C272 -/

theorem rstrip_snoc (x : Str) : rstripSlash (x ++ ['/']) = rstripSlash x := by
  unfold rstripSlash; simp

theorem rstrip_clean {t b : Str} (hb : b ≠ []) (hs : '/' ∉ b) : rstripSlash (t ++ b) = t ++ b := by
  unfold rstripSlash
  rw [List.reverse_append]
  rcases hr : b.reverse with _ | ⟨c, r⟩
  · exact absurd (List.reverse_eq_nil_iff.mp hr) hb
  · have hc : c ≠ '/' := fun h => hs (by
      have : c ∈ b.reverse := by rw [hr]; exact List.mem_cons_self ..
      rw [h] at this
      exact List.mem_reverse.mp this)
    rw [List.cons_append, List.dropWhile_cons, if_neg (by simpa using hc)]
    have : b = (c :: r).reverse := by rw [← hr, List.reverse_reverse]
    rw [this]; simp

theorem rstrip_idem (s : Str) : rstripSlash (rstripSlash s) = rstripSlash s := by
  unfold rstripSlash
  rw [List.reverse_reverse]
  congr 1
  induction s.reverse with
  | nil => rfl
  | cons c r ih =>
    rw [List.dropWhile_cons]
    split
    · exact ih
    · rename_i h
      rw [List.dropWhile_cons, if_neg h]

theorem rstrip_dirname (s : Str) : rstripSlash (dirname s) = rstripSlash (headPart s) := by
  unfold dirname
  dsimp only
  split
  · rfl
  · exact rstrip_idem _

theorem rstrip_dirText {ds : List Str} (h : ∀ c ∈ ds, Clean c) : rstripSlash (dirText ds) = dirText ds := by
  rcases List.eq_nil_or_concat ds with rfl | ⟨t, b, rfl⟩
  · rfl
  · have hb := h b (by simp)
    rw [List.concat_eq_append] at *
    have : dirText (t ++ [b]) = (dirText t ++ ['/']) ++ b := by
      conv => lhs; unfold dirText
      rw [if_neg (by simp), render_snoc]; simp
    rw [this]
    exact rstrip_clean hb.1 hb.2.2.2

theorem dirText_snoc (ds : List Str) (b : Str) : dirText (ds ++ [b]) = dirText ds ++ '/' :: b := by
  conv => lhs; unfold dirText
  rw [if_neg (by simp), render_snoc]

theorem dirText_render {ds : List Str} (h : ds ≠ []) : dirText ds = render ds := by unfold dirText; rw [if_neg h]

theorem parent {ds : List Str} {b : Str} (h : ∀ c ∈ ds, Clean c) (hb : Clean b) : rstripSlash (dirname (dirText (ds ++ [b]))) = dirText ds := by
  rw [rstrip_dirname, dirText_render (by simp), headPart_render hb.2.2.2, rstrip_snoc, rstrip_dirText h]

theorem climb_iff {stat : Str → Option Nat} {anc : Nat} : ∀ (n : Nat) (cs : List Str), cs.length = n → (∀ c ∈ cs, Clean c) →
    (∀ ds, ds ≠ [] → ds <+: cs → stat (render ds) ≠ none) → ∀ fuel, (dirText cs).length ≤ fuel →
    ∃ r, climb stat anc fuel (dirText cs) = some r ∧ (r = true ↔ ∃ ds, ds ≠ [] ∧ ds <+: cs ∧ stat (render ds) = some anc)
  | 0, cs, hn, _, _, fuel, _ => by
    have : cs = [] := List.length_eq_zero_iff.mp hn
    subst this
    refine ⟨false, ?_, ?_⟩
    · cases fuel <;> simp [climb, dirText]
    · constructor
      · intro h; cases h
      · rintro ⟨ds, h1, h2, _⟩; exact absurd (List.prefix_nil.mp h2) h1
  | n + 1, cs, hn, hc, hs, fuel, hf => by
    rcases List.eq_nil_or_concat cs with rfl | ⟨t, b, h⟩
    · simp at hn
    rw [List.concat_eq_append] at h
    subst h
    have hlen : (dirText (t ++ [b])).length = (dirText t).length + b.length + 1 := by
      rw [dirText_snoc]; simp; omega
    rcases fuel with _ | fuel
    · omega
    have hb := hc b (by simp)
    have ht : ∀ c ∈ t, Clean c := fun c hm => hc c (by simp [hm])
    have hne : dirText (t ++ [b]) ≠ [] := by rw [dirText_snoc]; simp
    obtain ⟨r, hr, hi⟩ := climb_iff (stat := stat) (anc := anc) n t (by simpa using hn) ht
      (fun ds h1 h2 => hs ds h1 (h2.trans (List.prefix_append ..))) fuel (by omega)
    unfold climb
    rw [if_neg hne, parent ht hb]
    rcases hq : stat (dirText (t ++ [b])) with _ | i
    · rw [dirText_render (by simp)] at hq
      exact absurd hq (hs _ (by simp) (List.prefix_refl _))
    dsimp only
    by_cases he : i = anc
    · rw [if_pos he]
      refine ⟨true, rfl, ?_⟩
      rw [dirText_render (by simp)] at hq
      exact ⟨fun _ => ⟨t ++ [b], by simp, List.prefix_refl _, by rw [hq, he]⟩, fun _ => rfl⟩
    · rw [if_neg he]
      refine ⟨r, hr, hi.trans ?_⟩
      constructor
      · rintro ⟨ds, h1, h2, h3⟩; exact ⟨ds, h1, h2.trans (List.prefix_append ..), h3⟩
      · rintro ⟨ds, h1, h2, h3⟩
        rcases List.prefix_concat_iff.mp h2 with h4 | h4
        · subst h4
          rw [dirText_render (by simp)] at hq
          rw [hq] at h3
          exact absurd (Option.some.inj h3) he
        · exact ⟨ds, h1, h4, h3⟩

/-- **C272**: if the directories can be seen, a path is said to be below another if and only if the path or a directory above it, other than the root, is the same as the other, by whatever name. -/
theorem descendant_iff_partial {stat : Str → Option Nat} {cwd s ancestor : Str} {cs : List Str} (hp : abspath cwd s = render cs) (hc : ∀ c ∈ cs, Clean c)
    (ha : stat ancestor ≠ none) (hs : ∀ ds, ds ≠ [] → ds <+: cs → stat (render ds) ≠ none) :
    ∃ r, isDescendant stat cwd s ancestor = some r ∧ (r = true ↔ ∃ ds, ds ≠ [] ∧ ds <+: cs ∧ stat (render ds) = stat ancestor) := by
  unfold isDescendant
  rcases hq : stat ancestor with _ | i
  · exact absurd hq ha
  dsimp only
  have : rstripSlash (abspath cwd s) = dirText cs := by
    rw [hp]
    by_cases h : cs = []
    · subst h; rfl
    · rw [← dirText_render h]; exact rstrip_dirText hc
  rw [this]
  exact climb_iff cs.length cs rfl hc hs _ (Nat.le_refl _)

/-- The root is not found to be above anything: all is below it, but the answer is no. -/
theorem root_no_ancestor {stat : Str → Option Nat} {cwd s : Str} {cs : List Str} (hp : abspath cwd s = render cs) (hc : ∀ c ∈ cs, Clean c)
    (ha : stat ['/'] ≠ none) (hs : ∀ ds, ds ≠ [] → ds <+: cs → stat (render ds) ≠ none ∧ stat (render ds) ≠ stat ['/']) :
    isDescendant stat cwd s ['/'] = some false := by
  obtain ⟨r, h1, h2⟩ := descendant_iff_partial hp hc ha (fun ds h h' => (hs ds h h').1)
  rw [h1]
  cases r with
  | false => rfl
  | true =>
    obtain ⟨ds, a, b, c⟩ := h2.mp rfl
    exact absurd c (hs ds a b).2

/-- A path that is not there is an error, not a no. -/
theorem missing_is_error {stat : Str → Option Nat} {cwd s ancestor : Str} {cs : List Str} (hp : abspath cwd s = render cs) (hc : ∀ c ∈ cs, Clean c)
    (hne : cs ≠ []) (hm : stat ancestor = none ∨ stat (render cs) = none) : isDescendant stat cwd s ancestor = none := by
  unfold isDescendant
  rcases hq : stat ancestor with _ | i
  · rfl
  dsimp only
  have : rstripSlash (abspath cwd s) = render cs := by
    rw [hp, ← dirText_render hne]; exact rstrip_dirText hc
  rw [this]
  have h2 : stat (render cs) = none := by
    rcases hm with h | h
    · rw [h] at hq; cases hq
    · exact h
  have h3 : (render cs).length = (join ['/'] cs).length + 1 := by unfold render; simp
  rw [h3]
  unfold climb
  rw [if_neg (by unfold render; simp), h2]

/-- `/w/link` is the same directory as `/data/repo`; the parent of the link is not looked at by another name. -/
def disk : Str → Option Nat := fun p =>
  if p = "/".toList then some 1 else if p = "/w".toList then some 2 else if p = "/w/link".toList then some 3 else if p = "/data".toList then some 4
  else if p = "/data/repo".toList then some 3 else if p = "/w/link/git".toList then some 5 else none

example : isDescendant disk "/w".toList "link/git".toList "/data/repo".toList = some true ∧
    isDescendant disk "/w".toList "link/git".toList "/data".toList = some false ∧
    isDescendant disk "/w".toList "link/git".toList "/".toList = some false ∧
    isDescendant disk "/w".toList "link/x".toList "/".toList = none := by decide +kernel

/-! ## C273 -/

theorem pathToLayer_spec {mt : Str → Str → Bool} {path : Str} : ∀ (cols seen : List (Str × Str)) (acc : Nat × Option Str),
    ((acc.2 = none ∧ acc.1 = 0 ∧ ∀ x ∈ seen, mt x.2 path = true → x.2 = []) ∨
      (∃ x ∈ seen, acc = (x.2.length, some x.1) ∧ x.2 ≠ [] ∧ mt x.2 path = true ∧ ∀ y ∈ seen, mt y.2 path = true → y.2.length ≤ x.2.length)) →
    (pathToLayer mt path cols acc = none ∧ ∀ x ∈ seen ++ cols, mt x.2 path = true → x.2 = []) ∨
      (∃ x ∈ seen ++ cols, pathToLayer mt path cols acc = some x.1 ∧ x.2 ≠ [] ∧ mt x.2 path = true ∧
        ∀ y ∈ seen ++ cols, mt y.2 path = true → y.2.length ≤ x.2.length)
  | [], seen, acc, h => by
    rw [List.append_nil]
    rcases h with ⟨h1, _, h3⟩ | ⟨x, hx, he, h4⟩
    · exact Or.inl ⟨h1, h3⟩
    · subst he; exact Or.inr ⟨x, hx, rfl, h4⟩
  | (c, re) :: cols, seen, acc, h => by
    have key := pathToLayer_spec (mt := mt) (path := path) cols (seen ++ [(c, re)])
      (if re.length > acc.1 ∧ mt re path = true then (re.length, some c) else acc)
    rw [List.append_assoc] at key
    refine key ?_
    by_cases hc : re.length > acc.1 ∧ mt re path = true
    · rw [if_pos hc]
      refine Or.inr ⟨(c, re), by simp, rfl, fun h0 => ?_, hc.2, ?_⟩
      · have h0' : re = [] := h0
        rw [h0'] at hc; simp at hc
      · intro y hy hm
        rcases List.mem_append.mp hy with hy | hy
        · rcases h with ⟨_, _, h3⟩ | ⟨x, _, he, _, _, h6⟩
          · rw [h3 y hy hm]; simp
          · have := h6 y hy hm
            rw [he] at hc
            exact Nat.le_trans this (Nat.le_of_lt hc.1)
        · rw [List.mem_singleton.mp hy]; exact Nat.le_refl _
    · rw [if_neg hc]
      rcases h with ⟨h1, h2, h3⟩ | ⟨x, hx, he, h4, h5, h6⟩
      · refine Or.inl ⟨h1, h2, fun y hy hm => ?_⟩
        rcases List.mem_append.mp hy with hy | hy
        · exact h3 y hy hm
        · rw [List.mem_singleton.mp hy] at hm ⊢
          rw [h2] at hc
          rcases re with _ | ⟨a, r⟩
          · rfl
          · exact absurd ⟨by simp, hm⟩ hc
      · refine Or.inr ⟨x, by simp [hx], he, h4, h5, fun y hy hm => ?_⟩
        rcases List.mem_append.mp hy with hy | hy
        · exact h6 y hy hm
        · rw [List.mem_singleton.mp hy] at hm ⊢
          rw [he] at hc
          exact Nat.le_of_not_lt (fun hl => hc ⟨hl, hm⟩)

/-- **C273**: the layer of a file that no entry of BBFILES is for, like a class, is one with a pattern that matches, and no other pattern that matches is longer; there is none only if no pattern matches
(the empty pattern, of a layer without recipes, does not count). -/
theorem layer_longest_partial {mt glob : Str → Str → Bool} {cols : List (Str × Str)} {bbfiles : List Str} {file : Str} (h : ∀ e ∈ bbfiles, glob e file = false) :
    (fileLayer mt glob cols bbfiles file = none ∧ ∀ x ∈ cols, mt x.2 file = true → x.2 = []) ∨
      (∃ x ∈ cols, fileLayer mt glob cols bbfiles file = some x.1 ∧ x.2 ≠ [] ∧ mt x.2 file = true ∧ ∀ y ∈ cols, mt y.2 file = true → y.2.length ≤ x.2.length) := by
  have hf : bbfiles.find? (fun e => glob e file) = none := List.find?_eq_none.mpr (fun e he => by simp [h e he])
  unfold fileLayer
  rw [hf]
  exact pathToLayer_spec cols [] (0, none) (Or.inl ⟨rfl, rfl, by simp⟩)

/-- **C273**: the layer of a recipe is that of the first entry of BBFILES that is for it. -/
theorem layer_of_entry {mt glob : Str → Str → Bool} {cols : List (Str × Str)} {a b : List Str} {e file : Str} (ha : ∀ x ∈ a, glob x file = false)
    (he : glob e file = true) :
    (fileLayer mt glob cols (a ++ e :: b) file = none ∧ ∀ x ∈ cols, mt x.2 e = true → x.2 = []) ∨
      (∃ x ∈ cols, fileLayer mt glob cols (a ++ e :: b) file = some x.1 ∧ x.2 ≠ [] ∧ mt x.2 e = true ∧ ∀ y ∈ cols, mt y.2 e = true → y.2.length ≤ x.2.length) := by
  have hf : (a ++ e :: b).find? (fun e => glob e file) = some e := by
    rw [List.find?_append, List.find?_eq_none.mpr (fun x hx => by simp [ha x hx])]
    simp [he]
  unfold fileLayer
  rw [hf]
  exact pathToLayer_spec cols [] (0, none) (Or.inl ⟨rfl, rfl, by simp⟩)

/-- The length of the pattern is not that of the path: a class in a layer that is inside of another is counted to the outer one, whose pattern is the longer text. -/
theorem inner_layer_lost {mt glob : Str → Str → Bool} (h1 : mt "^/(srv|data)/".toList "/srv/x/c.bbclass".toList = true)
    (_h2 : mt "^/srv/x/".toList "/srv/x/c.bbclass".toList = true) :
    fileLayer mt glob [("inner".toList, "^/srv/x/".toList), ("outer".toList, "^/(srv|data)/".toList)] [] "/srv/x/c.bbclass".toList = some "outer".toList := by
  have e : fileLayer mt glob [("inner".toList, "^/srv/x/".toList), ("outer".toList, "^/(srv|data)/".toList)] [] "/srv/x/c.bbclass".toList =
    pathToLayer mt "/srv/x/c.bbclass".toList [("inner".toList, "^/srv/x/".toList), ("outer".toList, "^/(srv|data)/".toList)] (0, none) := rfl
  rw [e]
  unfold pathToLayer
  rw [_h2]
  unfold pathToLayer
  rw [h1]
  have hl1 : "^/srv/x/".toList.length = 8 := by decide +kernel
  have hl2 : "^/(srv|data)/".toList.length = 13 := by decide +kernel
  rw [hl1, hl2]
  rfl

/-- With an entry of BBFILES that is for the recipes of many layers, the layer of a recipe is not found, although its pattern matches the recipe: the entry is compared, not the recipe. -/
theorem entry_hides_layer {mt glob : Str → Str → Bool} (hg : glob "/srv/*/r.bb".toList "/srv/x/r.bb".toList = true)
    (_hm : mt "^/srv/x/".toList "/srv/x/r.bb".toList = true) (hn : mt "^/srv/x/".toList "/srv/*/r.bb".toList = false) :
    fileLayer mt glob [("x".toList, "^/srv/x/".toList)] ["/srv/*/r.bb".toList] "/srv/x/r.bb".toList = none := by
  rcases layer_of_entry (mt := mt) (glob := glob) (cols := [("x".toList, "^/srv/x/".toList)]) (a := []) (b := []) (by simp) hg with h | ⟨x, hx, _, _, hm, _⟩
  · exact h.1
  · rw [List.mem_singleton.mp hx] at hm
    rw [hn] at hm; cases hm

/-- patterns that are a caret and a text -/
def caret (re p : Str) : Bool := startsWith p (re.drop 1)

example : fileLayer caret (fun e f => e == f) [("a".toList, "^/l/a/".toList), ("ab".toList, "^/l/a/b/".toList), ("n".toList, [])] [] "/l/a/b/c.bbclass".toList = some "ab".toList ∧
    fileLayer caret (fun e f => e == f) [("ab".toList, "^/l/a/b/".toList), ("a".toList, "^/l/a/".toList)] ["/l/a/r.bb".toList] "/l/a/r.bb".toList = some "a".toList ∧
    fileLayer caret (fun e f => e == f) [("n".toList, [])] [] "/l/a/b/c.bbclass".toList = none := by decide +kernel

/-! ## C274 -/

theorem foldl_other {f : Env → Str × Str → Env} (hf : ∀ e kv x, x ≠ kv.1 → f e kv x = e x) :
    ∀ (vs : List (Str × Str)) (e : Env) (x : Str), (∀ kv ∈ vs, kv.1 ≠ x) → vs.foldl f e x = e x
  | [], _, _, _ => rfl
  | kv :: vs, e, x, h => by
    rw [List.foldl_cons, foldl_other hf vs _ x (fun y hy => h y (List.mem_cons_of_mem _ hy))]
    exact hf e kv x (fun h' => h kv (List.mem_cons_self ..) h'.symm)

theorem restore_eq (backup e : Env) (vs : List (Str × Str)) : restore backup e vs = vs.foldl (fun e kv => set e kv.1 (backup kv.1)) e := by
  unfold restore
  congr 1
  funext e kv
  cases backup kv.1 <;> rfl

theorem restore_cons (backup e : Env) (w : Str × Str) (vs : List (Str × Str)) :
    restore backup e (w :: vs) = restore backup (set e w.1 (backup w.1)) vs := by
  rw [restore_eq, restore_eq]; rfl

/-- **C274**: within the block the variables have the values that were asked for and all others are as they were. -/
theorem inside {vs : List (Str × Str)} {e : Env} (hd : (vs.map (·.1)).Nodup) :
    (∀ kv ∈ vs, update e vs kv.1 = some kv.2) ∧ ∀ x, x ∉ vs.map (·.1) → update e vs x = e x := by
  have hother : ∀ (vs : List (Str × Str)) (e : Env) x, x ∉ vs.map (·.1) → update e vs x = e x := fun vs e x hx => by
    refine foldl_other (f := fun e kv => set e kv.1 (some kv.2)) (fun e kv x h => ?_) vs e x (fun kv hk h => hx ?_)
    · show set e kv.1 _ x = e x
      unfold set; rw [if_neg h]
    · rw [← h]; exact List.mem_map_of_mem hk
  refine ⟨?_, hother vs e⟩
  induction vs generalizing e with
  | nil => intro kv h; cases h
  | cons w vs ih =>
    intro kv hk
    rw [List.map_cons, List.nodup_cons] at hd
    have hu : update e (w :: vs) = update (set e w.1 (some w.2)) vs := rfl
    rw [hu]
    rcases List.mem_cons.mp hk with rfl | hk
    · rw [hother vs _ _ hd.1]; simp [set]
    · exact ih hd.2 kv hk

/-- **C274**: however the block ends and whatever it did, the variables are afterwards as they were before, set or not set; what the block did to others stays. -/
theorem put_back {α : Type} {vs : List (Str × Str)} {body : Env → α × Env} {e : Env} :
    (withEnv vs body e).1 = (body (update e vs)).1 ∧ (∀ x ∈ vs.map (·.1), (withEnv vs body e).2 x = e x) ∧
      ∀ x, x ∉ vs.map (·.1) → (withEnv vs body e).2 x = (body (update e vs)).2 x := by
  refine ⟨rfl, ?_, ?_⟩
  · show ∀ x ∈ vs.map (·.1), restore e (body (update e vs)).2 vs x = e x
    generalize (body (update e vs)).2 = g
    intro x hx
    -- the values at x are right once x was met and stay so
    have stay : ∀ (ws : List (Str × Str)) (g : Env), g x = e x → restore e g ws x = e x := by
      intro ws
      induction ws with
      | nil => intro g h; exact h
      | cons w ws ih =>
        intro g h
        rw [restore_cons]
        refine ih _ ?_
        unfold set
        split
        · rename_i h'; rw [h']
        · exact h
    induction vs generalizing g with
    | nil => simp at hx
    | cons w vs ih =>
      by_cases hw : x = w.1
      · rw [restore_cons]
        refine stay vs _ ?_
        unfold set
        rw [if_pos hw, hw]
      · rw [restore_cons]
        refine ih _ ?_
        simpa [hw] using hx
  · intro x hx
    show restore e (body (update e vs)).2 vs x = _
    rw [restore_eq]
    refine foldl_other (fun e' kv y hy => ?_) vs _ x (fun kv hk h => hx ?_)
    · unfold set; rw [if_neg hy]
    · rw [← h]; exact List.mem_map_of_mem hk

example : let e : Env := set (fun _ => none) "A".toList (some "1".toList)
    let r := withEnv [("A".toList, "2".toList), ("B".toList, "3".toList)] (fun e => (e "A".toList, set (set e "B".toList (some "9".toList)) "C".toList (some "4".toList))) e
    r.1 = some "2".toList ∧ r.2 "A".toList = some "1".toList ∧ r.2 "B".toList = none ∧ r.2 "C".toList = some "4".toList := by decide +kernel

/-! ## C275 -/

theorem dec_no_colon (n : Nat) : ':' ∉ dec n := fun h => by
  have := dec_digits h
  revert this; decide

theorem inPasswd_iff {lines : List Str} {uid : Nat} : inPasswd lines uid = true ↔ ∃ l ∈ lines, Spec.entryFor uid l := by
  unfold inPasswd
  rw [List.any_eq_true]
  constructor
  · rintro ⟨l, hl, h⟩
    refine ⟨l, hl, ?_⟩
    have hj := join_splitOn ':' l
    have hp : ∀ w ∈ splitOn ':' l, ':' ∉ w := fun w hw => splitOn_pieces hw
    revert h hj hp
    rcases splitOn ':' l with _ | ⟨a, _ | ⟨b, _ | ⟨u, r⟩⟩⟩
    · intro h; simp at h
    · intro h; simp at h
    · intro h; simp at h
    · intro h hj hp
      have hu : u = dec uid := by simpa using h
      subst hu
      refine ⟨a, b, hp a (by simp), hp b (by simp), ?_⟩
      rcases r with _ | ⟨x, r⟩
      · left; rw [← hj]; simp [join]
      · right; refine ⟨join [':'] (x :: r), ?_⟩; rw [← hj]; simp [join]
  · rintro ⟨l, hl, n, p, hn, hp, h⟩
    refine ⟨l, hl, ?_⟩
    rcases h with rfl | ⟨r, rfl⟩
    · rw [splitOn_append, splitOn_append, splitOn_clean _ _ hn, splitOn_clean _ _ hp, splitOn_clean _ _ (dec_no_colon uid)]
      simp
    · rw [splitOn_append, splitOn_append, splitOn_append, splitOn_clean _ _ hn, splitOn_clean _ _ hp, splitOn_clean _ _ (dec_no_colon uid)]
      simp

/-- **C275**: the network is taken away from a task if and only if the task does not have the flag and the user of the build is in /etc/passwd. -/
theorem network_off_iff_partial {lines : List Str} {uid : Nat} {flag : Bool} :
    networkOff lines uid flag = true ↔ flag = false ∧ ∃ l ∈ lines, Spec.entryFor uid l := by
  unfold networkOff
  rw [Bool.and_eq_true, ← inPasswd_iff]
  have : isLocalUid lines uid (some uid) = inPasswd lines uid := by cases uid <;> rfl
  rw [this]
  cases flag <;> simp

/-- The network stays for every task of users that are not in the file, as with a directory service. -/
theorem directory_user_keeps_network {lines : List Str} {uid : Nat} (h : ∀ l ∈ lines, ¬ Spec.entryFor uid l) (flag : Bool) : networkOff lines uid flag = false := by
  cases hq : networkOff lines uid flag with
  | false => rfl
  | true =>
    obtain ⟨_, l, hl, he⟩ := network_off_iff_partial.mp hq
    exact absurd he (h l hl)

/-- For another user the answer is about this user; asking about root is asking about oneself. -/
theorem local_iff {lines : List Str} {self uid : Nat} : isLocalUid lines self (some uid) = true ↔
    ∃ l ∈ lines, Spec.entryFor (if uid = 0 then self else uid) l := by
  rw [← inPasswd_iff]
  cases uid <;> rfl

example : networkOff ["root:x:0:0::/root:/bin/sh".toList, "b:x:1000:1000::/:/bin/sh".toList] 1000 false = true ∧
    networkOff ["root:x:0:0::/root:/bin/sh".toList, "b:x:10001:1000::/:/bin/sh".toList, "+::".toList] 1000 false = false ∧
    networkOff ["root:x:0:0::/root:/bin/sh".toList] 0 true = false ∧
    isLocalUid ["root:x:0:0::/root:/bin/sh".toList] 1000 (some 0) = false := by decide +kernel

end Isar.Bb.Search
