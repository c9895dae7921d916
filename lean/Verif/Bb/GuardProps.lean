import Verif.Bb.GuardModel

/-!
C264: recursive deletion refuses to delete the root, /home and home directories.
-/

namespace Isar.Bb.Guard

open Py

namespace Spec

/-- The directory that a name stands for: the names on the way to it from the root. -/
def place (cwd n : Str) : List Str := normComps (if isabs n then n else pathJoin cwd n)

/-- To delete `n` with all that is in it deletes the directory `d`. -/
def destroys (cwd n : Str) (d : List Str) : Prop := place cwd n <+: d

/-- What must not be deleted; the last is the home directory of the user. -/
def guarded (home : List Str) (d : List Str) : Prop := d = [] ∨ d = ["home".toList] ∨ (∃ x, d = ["home".toList, x]) ∨ d = home

/-- The text stands for itself as a regular expression. -/
def plain (s : Str) : Prop := ∀ c ∈ s, c ∉ ".^$*+?{}[]\\|()".toList

end Spec

theorem toks_plain : ∀ (s : Str), Spec.plain s → toks s = s.map fun c => .one (some c)
  | [], _ => rfl
  | [c], h => by
    have : c ≠ '.' := fun e => h c (by simp) (by rw [e]; decide)
    simp [toks, atom, this]
  | c :: d :: s, h => by
    have h1 : c ≠ '.' := fun e => h c (by simp) (by rw [e]; decide)
    have h2 : d ≠ '+' := fun e => h d (by simp) (by rw [e]; decide)
    have ih := toks_plain (d :: s) fun x hx => h x (by simp only [List.mem_cons] at hx ⊢; exact Or.inr hx)
    unfold toks
    rw [if_neg h2, ih]
    simp [atom, h1]

theorem mat_plain : ∀ (h s : Str), mat (h.map fun c => .one (some c)) s = matText h s
  | [], s => by simp [mat, atEnd, matText]
  | c :: h, [] => by simp [mat, matText]
  | c :: h, d :: s => by
    have ih := mat_plain h s
    rw [List.map_cons]
    unfold mat
    rw [ih]
    unfold matText fits
    by_cases e : d = c
    · subst e
      simp
    · have : (d == c) = false := by simp [e]
      simp [this, e]

theorem home_eq : "/home".toList = render ["home".toList] := by decide +kernel

theorem home_clean : Clean "home".toList := by
  refine ⟨?_, ?_, ?_, ?_⟩ <;> decide +kernel

theorem render_two (x : Str) : render ["home".toList, x] = "/home/".toList ++ x := by
  show '/' :: ("home".toList ++ (['/'] ++ x)) = _
  rw [← List.append_assoc, ← List.cons_append]
  rfl

theorem matText_iff (t s : Str) (h : '\n' ∉ s) : matText t s = true ↔ s = t := by
  unfold matText
  simp only [Bool.or_eq_true, beq_iff_eq]
  constructor
  · rintro (e | e)
    · exact e
    · exact absurd (by rw [e]; simp) h
  · exact Or.inl

/-- A name with one slash at the beginning is refused if and only if it stands for one of the directories that must not be deleted. -/
theorem guard_iff (cwd n : Str) (hs : List Str) (hc : ∀ c ∈ hs, Clean c) (hp : Spec.plain (render hs))
    (h1 : initSlashes (if isabs n then n else pathJoin cwd n) = 1) (hn : '\n' ∉ abspath cwd n) :
    danger cwd (render hs) n = true ↔ Spec.guarded hs (Spec.place cwd n) := by
  have e : abspath cwd n = render (Spec.place cwd n) := normpath_abs h1
  have cl : ∀ c ∈ Spec.place cwd n, Clean c := normComps_clean (initSlashes_abs h1)
  have inj : ∀ ds : List Str, (∀ c ∈ ds, Clean c) → (render (Spec.place cwd n) = render ds ↔ Spec.place cwd n = ds) := fun ds hd =>
    ⟨render_injective cl hd, fun x => by rw [x]⟩
  unfold danger Spec.guarded
  dsimp only
  rw [toks_plain _ hp, mat_plain]
  have hne : (render hs != []) = true := by simp [render]
  rw [hne, Bool.true_and]
  simp only [Bool.or_eq_true, matText_iff _ _ hn, Bool.and_eq_true]
  rw [e]
  have r1 : render (Spec.place cwd n) = "/".toList ↔ Spec.place cwd n = [] := inj [] (by simp)
  have r2 : render (Spec.place cwd n) = "/home".toList ↔ Spec.place cwd n = ["home".toList] := by
    rw [home_eq]
    exact inj _ (by intro c hc'; rw [List.mem_singleton.mp hc']; exact home_clean)
  have r3 : ¬ render (Spec.place cwd n) = "//".toList := by
    intro x
    have := initSlashes_render cl
    rw [x] at this
    revert this
    decide +kernel
  have r4 : render (Spec.place cwd n) = render hs ↔ Spec.place cwd n = hs := inj hs hc
  have r5 : (startsWith (render (Spec.place cwd n)) "/home/".toList = true ∧ (!decide ('/' ∈ (render (Spec.place cwd n)).drop 6)) = true) ↔
      ∃ x, Spec.place cwd n = ["home".toList, x] := by
    constructor
    · rintro ⟨a, b⟩
      obtain ⟨x, hx⟩ := startsWith_iff.mp a
      have hl : "/home/".toList.length = 6 := by decide +kernel
      have hd : (render (Spec.place cwd n)).drop 6 = x := by rw [hx, ← hl]; exact List.drop_left
      rw [hd] at b
      have hx' : render (Spec.place cwd n) = render ["home".toList] ++ '/' :: x := by
        rw [hx, ← home_eq]
        rfl
      obtain ⟨y, hy, hy'⟩ := (render_below (ds := ["home".toList]) (fs := Spec.place cwd n)
        (by intro c hc'; rw [List.mem_singleton.mp hc']; exact home_clean) cl (by simp)).mp ⟨x, hx'⟩
      have b' : '/' ∉ x := by simpa using b
      rcases y with _ | ⟨z, _ | ⟨z', zs⟩⟩
      · exact absurd rfl hy
      · exact ⟨z, hy'⟩
      · exfalso
        rw [hy', render_append (by simp) (by simp)] at hx'
        have := List.append_cancel_left hx'
        simp only [join, List.cons.injEq, true_and] at this
        exact b' (by rw [← this]; simp)
    · rintro ⟨x, hx⟩
      rw [hx, render_two]
      refine ⟨startsWith_iff.mpr ⟨x, rfl⟩, ?_⟩
      have hl : "/home/".toList.length = 6 := by decide +kernel
      have hd : ("/home/".toList ++ x).drop 6 = x := by rw [← hl]; exact List.drop_left
      rw [hd]
      have := (cl x (by rw [hx]; simp)).2.2.2
      simpa using this
  rw [r1, r2, r4, r5]
  simp only [r3, or_false, or_assoc]

/-! ## C264 -/

/-- Recursive deletion never deletes the root, /home, a directory in /home or the home directory of the user, neither by name nor with a directory above it.  The
hypotheses: HOME is a normal path without special characters and is in the root or in /home, and no name begins with two slashes or has a line feed. -/
theorem homes_kept_partial (cwd path : Str) (hs : List Str) (glob : Str → List Str) (names : List Str) (hc : ∀ c ∈ hs, Clean c)
    (hp : Spec.plain (render hs)) (hh : ∀ d, d <+: hs → d = [] ∨ d = ["home".toList] ∨ d = hs)
    (hn : ∀ n ∈ names, initSlashes (if isabs n then n else pathJoin cwd n) = 1 ∧ '\n' ∉ abspath cwd n)
    (h : remove cwd (render hs) glob path = some names) : ∀ n ∈ names, ∀ d, Spec.guarded hs d → ¬ Spec.destroys cwd n d := by
  intro n hm d hd hx
  have hnd : danger cwd (render hs) n = false := by
    unfold remove at h
    split at h
    · simp only [Option.some.injEq] at h
      rw [← h] at hm
      cases hm
    · split at h
      · cases h
      · next hany =>
        simp only [Option.some.injEq] at h
        rw [h] at hany
        simp only [List.any_eq_true, not_exists, not_and, Bool.not_eq_true] at hany
        exact hany n hm
  have key := guard_iff cwd n hs hc hp (hn n hm).1 (hn n hm).2
  rw [hnd] at key
  have ng : ¬ Spec.guarded hs (Spec.place cwd n) := fun g => by cases key.mpr g
  apply ng
  unfold Spec.destroys at hx
  unfold Spec.guarded at hd ⊢
  rcases hd with rfl | rfl | ⟨x, rfl⟩ | rfl
  · left
    exact List.prefix_nil.mp hx
  · rcases hp' : Spec.place cwd n with _ | ⟨a, l⟩
    · left; rfl
    · rw [hp', List.cons_prefix_cons] at hx
      rw [hx.1, List.prefix_nil.mp hx.2]
      right; left; rfl
  · rcases hp' : Spec.place cwd n with _ | ⟨a, _ | ⟨b, l⟩⟩
    · left; rfl
    · rw [hp', List.cons_prefix_cons] at hx
      rw [hx.1]
      right; left; rfl
    · rw [hp', List.cons_prefix_cons, List.cons_prefix_cons] at hx
      rw [hx.1, hx.2.1, List.prefix_nil.mp hx.2.2]
      right; right; left
      exact ⟨x, rfl⟩
  · rcases hh _ hx with e | e | e
    · exact Or.inl e
    · exact Or.inr (Or.inl e)
    · exact Or.inr (Or.inr (Or.inr e))

/-- The same for `prunedir`. -/
theorem prunedir_remove (cwd home topdir : Str) (glob : Str → List Str) (names : List Str) (h : prunedir cwd home glob topdir = some names) :
    remove cwd home glob topdir = some names := by
  unfold prunedir at h
  split at h
  · cases h
  · exact h

/-! ### What is false -/

/-- Names with two slashes at the beginning, as in `"${DIR}/home"` with `/` for DIR, are not refused. -/
theorem two_slashes : remove "/w".toList "/root".toList (fun p => [p]) "//home".toList = some ["//home".toList] ∧
    Spec.destroys "/w".toList "//home".toList ["home".toList] := by
  refine ⟨by decide +kernel, ?_⟩
  unfold Spec.destroys
  decide +kernel

/-- A directory above the home directory is not refused. -/
theorem above_home : remove "/w".toList "/srv/u".toList (fun p => [p]) "/srv".toList = some ["/srv".toList] ∧
    Spec.destroys "/w".toList "/srv".toList ["srv".toList, "u".toList] := by
  refine ⟨by decide +kernel, ?_⟩
  unfold Spec.destroys
  decide +kernel

/-- The home directory itself is not refused if HOME ends with a slash or has a plus sign in it. -/
theorem home_lost : remove "/w".toList "/root/".toList (fun p => [p]) "/root".toList = some ["/root".toList] ∧
    remove "/w".toList "/srv/a+b".toList (fun p => [p]) "/srv/a+b".toList = some ["/srv/a+b".toList] := by decide +kernel

/-- Others are refused for a point in HOME. -/
theorem refused_for_point : remove "/w".toList "/srv/a.b".toList (fun p => [p]) "/srv/axb".toList = none := by decide +kernel

/-! ## Examples -/

example : remove "/home/u".toList "/root".toList (fun p => [p]) "..".toList = none ∧
    remove "/home/u".toList "/root".toList (fun p => [p]) "x/../../v".toList = none ∧
    remove "/home/u".toList "/root".toList (fun p => [p]) "x".toList = some ["x".toList] ∧
    remove "/".toList "/root".toList (fun p => [p]) "root/.".toList = none := by decide +kernel

/-- the hypotheses of `homes_kept_partial` -/
example : "/root".toList = render ["root".toList] ∧ Spec.plain (render ["root".toList]) ∧
    initSlashes (if isabs "/a".toList then "/a".toList else pathJoin [] "/a".toList) = 1 := by
  refine ⟨by decide +kernel, ?_, by decide +kernel⟩
  unfold Spec.plain
  decide +kernel

example : ∀ d, d <+: ["root".toList] → d = [] ∨ d = ["home".toList] ∨ d = ["root".toList] := by
  intro d h
  rcases d with _ | ⟨a, l⟩
  · exact Or.inl rfl
  · rw [List.cons_prefix_cons] at h
    rw [h.1, List.prefix_nil.mp h.2]
    exact Or.inr (Or.inr rfl)

end Isar.Bb.Guard
