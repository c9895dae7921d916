import Verif.Bb.NamesModel
import Verif.Meta.PatchSelect
/-!
# The name of a file tells the name and version of a recipe
-/

namespace Bb.Names
open Py

namespace Spec

/-- A file of a recipe: a directory, a name of up to three parts, and the ending. -/
structure File where
  dir : Str
  parts : List Str
  ending : Str

def File.path (f : File) : Str := f.dir ++ join ['_'] f.parts ++ f.ending

structure File.Ok (f : File) : Prop where
  dir : f.dir = [] ∨ ∃ d, f.dir = d ++ ['/']
  some : f.parts ≠ []
  parts : ∀ p ∈ f.parts, '_' ∉ p ∧ '/' ∉ p
  word : ∃ c, c ∈ join ['_'] f.parts ∧ c ≠ '.'
  ending : f.ending = ".bb".toList ∨ f.ending = ".bbappend".toList

end Spec
open Spec

theorem basename_dir {d b : Str} (hb : '/' ∉ b) (hd : d = [] ∨ ∃ e, d = e ++ ['/']) : basename (d ++ b) = b := by
  rcases hd with rfl | ⟨e, rfl⟩
  · exact (Meta.Patch.basename_name hb).1
  · unfold basename
    have h1 : (e ++ ['/'] ++ b).reverse = b.reverse ++ '/' :: e.reverse := by
      rw [List.reverse_append, List.reverse_append]; rfl
    have h2 : ∀ l r : Str, (∀ x ∈ l, decide (x ≠ '/') = true) → (l ++ '/' :: r).takeWhile (fun x => decide (x ≠ '/')) = l := by
      intro l r
      induction l with
      | nil => intro _; rfl
      | cons c l ih =>
        intro h
        rw [List.cons_append, List.takeWhile_cons, if_pos (h c List.mem_cons_self), ih fun x hx => h x (List.mem_cons_of_mem _ hx)]
    rw [h1, h2 _ _ (not_slash_rev hb), List.reverse_reverse]

theorem join_noslash : ∀ {ps : List Str}, (∀ p ∈ ps, '/' ∉ p) → '/' ∉ join ['_'] ps
  | [], _ => nofun
  | [p], h => h p List.mem_cons_self
  | p :: q :: ps, h => by
    show '/' ∉ p ++ ['_'] ++ join ['_'] (q :: ps)
    rw [List.mem_append, List.mem_append]
    rintro ((h1 | h1) | h1)
    · exact h p List.mem_cons_self h1
    · cases List.mem_singleton.1 h1
    · exact join_noslash (fun x hx => h x (List.mem_cons_of_mem _ hx)) h1

/-- The parts that the code finds. -/
theorem parts_found {f : File} (hf : f.Ok) :
    (f.path ≠ [] ∧ (endsWith f.path ".bb".toList || endsWith f.path ".bbappend".toList) = true) ∧
    splitOn '_' (splitextRoot (basename f.path)) = f.parts := by
  have hj : '/' ∉ join ['_'] f.parts := join_noslash fun p hp => (hf.parts p hp).2
  have hend : ∃ x, f.ending = '.' :: x ∧ '.' ∉ x ∧ '/' ∉ x := by
    rcases hf.ending with h | h
    · exact ⟨"bb".toList, h, by decide, by decide⟩
    · exact ⟨"bbappend".toList, h, by decide, by decide⟩
  obtain ⟨x, hx, hx1, hx2⟩ := hend
  have hb : '/' ∉ join ['_'] f.parts ++ f.ending := by
    rw [hx, List.mem_append]
    rintro (h | h)
    · exact hj h
    · rcases List.mem_cons.1 h with h | h
      · cases h
      · exact hx2 h
  have hbase : basename f.path = join ['_'] f.parts ++ f.ending := by
    unfold File.path
    rw [List.append_assoc, basename_dir hb hf.dir]
  refine ⟨⟨?_, ?_⟩, ?_⟩
  · unfold File.path
    rw [hx]
    exact fun h => nomatch (List.append_eq_nil_iff.1 h).2
  · rw [Bool.or_eq_true, endsWith_iff, endsWith_iff]
    rcases hf.ending with h | h
    · exact Or.inl ⟨f.dir ++ join ['_'] f.parts, by unfold File.path; rw [h]⟩
    · exact Or.inr ⟨f.dir ++ join ['_'] f.parts, by unfold File.path; rw [h]⟩
  · rw [hbase]
    rw [hx] at hb ⊢
    rw [(Meta.Patch.ext_stem hb hx1 hf.word).2]
    exact splitOn_join _ _ hf.some fun p hp => (hf.parts p hp).1

/-- What is stored for a file is what its name says. -/
def Right (c : Cache) : Prop := ∀ f r, c.lookup f = some r →
  r = (splitOn '_' (splitextRoot (basename f))).map some ++ List.replicate (3 - (splitOn '_' (splitextRoot (basename f))).length) none

theorem right_step {c : Cache} {f : Str} (h : Right c) : Right (varsFromFile c f).1 := by
  unfold varsFromFile
  split
  · exact h
  · split
    · exact h
    · dsimp only
      split
      · rename_i h3
        intro g r hg
        rw [Dict.lookup_set] at hg
        split at hg
        · rename_i e
          injection hg with hg
          rw [e, ← hg]
          rw [List.length_map] at h3
          rw [Nat.sub_eq_zero_of_le (Nat.le_of_lt h3), List.replicate_zero, List.append_nil]
        · exact h g r hg
      · intro g r hg
        rw [Dict.lookup_set] at hg
        split at hg
        · rename_i e
          injection hg with hg
          rw [e, ← hg, List.length_map]
        · exact h g r hg

theorem right_after (files : List Str) : Right (after files) := by
  have key : ∀ (files : List Str) (c : Cache), Right c → Right (files.foldl (fun c f => (varsFromFile c f).1) c) := by
    intro files
    induction files with
    | nil => intro c h; exact h
    | cons f fs ih => intro c h; exact ih _ (right_step h)
  exact key files [] nofun

/-- C152: the parts of the name of a file are what is found, whatever was asked before. -/
theorem told {f : File} (hf : f.Ok) (h3 : f.parts.length ≤ 3) (files : List Str) :
    (varsFromFile (after files) f.path).2 = some (f.parts.map some ++ List.replicate (3 - f.parts.length) none) := by
  obtain ⟨⟨h1, h2⟩, hp⟩ := parts_found hf
  unfold varsFromFile
  rw [if_neg (show ¬ (f.path = [] ∨ (endsWith f.path ".bb".toList || endsWith f.path ".bbappend".toList) = false) from
    fun h => h.elim h1 fun h => by rw [h2] at h; cases h)]
  cases hl : (after files).lookup f.path with
  | some r =>
    dsimp only
    rw [right_after files _ _ hl, hp]
  | none =>
    dsimp only
    rw [hp, List.length_map, if_neg (Nat.not_lt.2 h3)]

/-- C152: name, version and revision of a recipe. -/
theorem told_variables {f : File} (hf : f.Ok) (files : List Str) {n : Str} (hn : n ≠ []) :
    (f.parts = [n] → variables (after files) f.path = some (n, "1.0".toList, "r0".toList)) ∧
    (∀ v, v ≠ [] → f.parts = [n, v] → variables (after files) f.path = some (n, v, "r0".toList)) ∧
    ∀ v r, v ≠ [] → r ≠ [] → f.parts = [n, v, r] → variables (after files) f.path = some (n, v, r) := by
  have key : ∀ {s : Str} {d : String}, s ≠ [] → orElse (some s) d = s := by
    intro s d hs
    cases s with
    | nil => exact absurd rfl hs
    | cons c s => rfl
  refine ⟨fun h => ?_, fun v hv h => ?_, fun v r hv hr h => ?_⟩
  · have := told hf (by rw [h]; exact Nat.le_of_ble_eq_true rfl) files
    unfold variables
    rw [this, h]
    show some (orElse (some n) _, _, _) = _
    rw [key hn]; rfl
  · have := told hf (by rw [h]; exact Nat.le_of_ble_eq_true rfl) files
    unfold variables
    rw [this, h]
    show some (orElse (some n) _, orElse (some v) _, _) = _
    rw [key hn, key hv]; rfl
  · have := told hf (by rw [h]; exact Nat.le_of_ble_eq_true rfl) files
    unfold variables
    rw [this, h]
    show some (orElse (some n) _, orElse (some v) _, orElse (some r) _) = _
    rw [key hn, key hv, key hr]

/-- C152: a name of more than three parts is an error, the first time it is asked for. -/
theorem rejected_partial {f : File} (hf : f.Ok) (h3 : 3 < f.parts.length) {files : List Str} (hfirst : f.path ∉ files) :
    (varsFromFile (after files) f.path).2 = none := by
  obtain ⟨⟨h1, h2⟩, hp⟩ := parts_found hf
  have hno : ∀ (files : List Str) (c : Cache), c.lookup f.path = none → f.path ∉ files →
      (files.foldl (fun c f => (varsFromFile c f).1) c).lookup f.path = none := by
    intro files
    induction files with
    | nil => intro c h _; exact h
    | cons g fs ih =>
      intro c h hn
      refine ih _ ?_ fun hm => hn (List.mem_cons_of_mem _ hm)
      have hne : f.path ≠ g := fun e => hn (e ▸ List.mem_cons_self)
      dsimp only
      unfold varsFromFile
      split
      · exact h
      · split
        · exact h
        · dsimp only
          split
          · rw [Dict.lookup_set, if_neg hne]; exact h
          · rw [Dict.lookup_set, if_neg hne]; exact h
  unfold varsFromFile
  rw [if_neg (show ¬ (f.path = [] ∨ (endsWith f.path ".bb".toList || endsWith f.path ".bbappend".toList) = false) from
    fun h => h.elim h1 fun h => by rw [h2] at h; cases h)]
  rw [show (after files).lookup f.path = none from hno files [] rfl hfirst]
  dsimp only
  rw [hp, List.length_map, if_pos h3]

/-- Against C152: the second time it is asked for, it is no error, and the recipe has the name, version and revision of the
first three parts. -/
theorem accepted_later : variables [] "/r/a_1_2_3.bb".toList = none ∧
    variables (after ["/r/a_1_2_3.bb".toList]) "/r/a_1_2_3.bb".toList = some ("a".toList, "1".toList, "2".toList) := by decide +kernel

example : (⟨"/r/".toList, ["hello".toList, "0.1".toList], ".bb".toList⟩ : File).Ok :=
  ⟨Or.inr ⟨"/r".toList, rfl⟩, by decide, by decide, ⟨'h', by decide, by decide⟩, Or.inl rfl⟩

example : variables (after ["/r/hello_0.1.bb".toList, "/r/x.bb".toList]) "/r/hello_0.1.bb".toList =
    some ("hello".toList, "0.1".toList, "r0".toList) := by decide +kernel

end Bb.Names
