import Verif.Meta.ContainerImgModel

/-!
C268: a container image has the files of the root file system but for temporary ones.
C269: the image is there under its tag, and no other.
-/

namespace Isar.Meta.ContainerImg

open Py

namespace Spec

/-- The path is in the directory for temporary files. -/
def temporary (path : List Str) : Prop := ∃ x y, path = "tmp".toList :: x :: y

/-- The first name of the path begins with a point. -/
def hidden (path : List Str) : Prop := ∃ n rest, path = ('.' :: n) :: rest

end Spec

theorem visible_iff (p : List Str) : visible p = true ↔ ¬ Spec.hidden p := by
  unfold Spec.hidden visible
  split
  · next n r => simp
  · next h =>
    simp only [true_iff]
    rintro ⟨n, r, rfl⟩
    exact h _ _ rfl

theorem belowTmp_iff (p : List Str) : belowTmp p = true ↔ Spec.temporary p := by
  unfold Spec.temporary belowTmp
  split
  · next d x y =>
    simp only [beq_iff_eq]
    constructor
    · rintro rfl; exact ⟨x, y, rfl⟩
    · rintro ⟨a, b, h⟩
      simp only [List.cons.injEq] at h
      exact h.1
  · next h =>
    simp only [Bool.false_eq_true, false_iff]
    rintro ⟨x, y, rfl⟩
    exact h _ _ _ rfl

theorem lookup_visible (t : Tree) : List.lookup [tmp] (t.filter fun e => visible e.1) = List.lookup [tmp] t := by
  induction t with
  | nil => rfl
  | cons e t ih =>
    obtain ⟨p, n⟩ := e
    rw [List.filter_cons]
    by_cases hp : p = [tmp]
    · subst hp
      have : visible [tmp] = true := by decide +kernel
      simp [this]
    · have h1 : ([tmp] == p) = false := by simp [Ne.symm hp]
      split
      · rw [List.lookup_cons, List.lookup_cons, h1, ih]
      · rw [List.lookup_cons, h1, ih]

theorem tree_of (rootfs : Tree) (tag : Str) (l : Layout) (h : containerize rootfs tag = some l) :
    ∃ t, l = untag (tagImage (tagImage [] emptyTag []) tag t) emptyTag ∧
      ((rootfs.lookup [tmp] = some .dir ∧ t = (rootfs.filter fun e => visible e.1).filter fun e => !belowTmp e.1) ∨
       (rootfs.lookup [tmp] ≠ some .dir ∧ rootfs.lookup [tmp] ≠ none ∧ t = rootfs.filter fun e => visible e.1)) := by
  unfold containerize copy at h
  dsimp only at h
  by_cases ha : (rootfs.any fun e => visible e.1) = true
  · rw [if_pos ha] at h
    dsimp only at h
    unfold cleanTmp at h
    rw [lookup_visible] at h
    rcases hk : rootfs.lookup [tmp] with _ | (_ | c | c)
    · simp [hk] at h
    · simp only [hk, Option.some.injEq] at h
      exact ⟨_, h.symm, Or.inl ⟨rfl, rfl⟩⟩
    · simp only [hk, Option.some.injEq] at h
      exact ⟨_, h.symm, Or.inr ⟨by simp, by simp, rfl⟩⟩
    · simp only [hk, Option.some.injEq] at h
      exact ⟨_, h.symm, Or.inr ⟨by simp, by simp, rfl⟩⟩
  · rw [if_neg ha] at h
    cases h

theorem layout_of (tag : Str) (t : Tree) : untag (tagImage (tagImage [] emptyTag []) tag t) emptyTag = if tag = emptyTag then [] else [(tag, t)] := by
  unfold untag tagImage
  by_cases h : tag = emptyTag
  · subst h
    simp
  · have h' : emptyTag ≠ tag := fun e => h e.symm
    simp [h, h']

/-! ## C269 -/

/-- If the task succeeds, there is one image, and it has the tag. -/
theorem one_image_partial (rootfs : Tree) (tag : Str) (l : Layout) (ht : tag ≠ "empty".toList) (h : containerize rootfs tag = some l) :
    ∃ t, l = [(tag, t)] ∧ deployed rootfs tag = some t := by
  obtain ⟨t, h1, -⟩ := tree_of rootfs tag l h
  rw [layout_of, if_neg (show ¬ tag = emptyTag from ht)] at h1
  refine ⟨t, h1, ?_⟩
  unfold deployed
  rw [h, h1]
  simp

/-- With the tag `empty` the task succeeds whenever it does with another, but there is no image. -/
theorem tag_empty (rootfs : Tree) (tag : Str) (l : Layout) (h : containerize rootfs tag = some l) :
    containerize rootfs "empty".toList = some [] ∧ deployed rootfs "empty".toList = none := by
  have h1 : containerize rootfs "empty".toList = some [] := by
    unfold containerize at h ⊢
    dsimp only at h ⊢
    rcases hc : copy rootfs with _ | t
    · simp [hc] at h
    · rw [hc] at h
      dsimp only at h ⊢
      rcases hk : cleanTmp t with _ | t'
      · simp [hk] at h
      · dsimp only
        rw [layout_of, if_pos (show "empty".toList = emptyTag from rfl)]
  refine ⟨h1, ?_⟩
  unfold deployed
  rw [h1]
  rfl

/-! ## C268 -/

/-- What is in the image: what is in the root file system, but for what is hidden at its top, and what is in the directory for temporary files if this is not a link. -/
theorem content_iff (rootfs : Tree) (tag : Str) (t : Tree) (h : deployed rootfs tag = some t) (e : List Str × Node) :
    e ∈ t ↔ e ∈ rootfs ∧ ¬ Spec.hidden e.1 ∧ (rootfs.lookup [tmp] = some .dir → ¬ Spec.temporary e.1) := by
  unfold deployed at h
  rcases hc : containerize rootfs tag with _ | l
  · simp [hc] at h
  · rw [hc] at h
    dsimp only at h
    obtain ⟨t', h1, h2⟩ := tree_of rootfs tag l hc
    rw [h1, layout_of] at h
    have : t' = t := by
      split at h
      · simp at h
      · simpa using h
    subst this
    rw [← visible_iff, ← belowTmp_iff]
    rcases h2 with ⟨a, b⟩ | ⟨a, -, b⟩
    · rw [b]
      simp only [List.mem_filter, a, Bool.not_eq_true', forall_const, Bool.not_eq_true, and_assoc]
    · rw [b]
      simp only [List.mem_filter, a, false_implies, and_true]

/-- Nothing but temporary files is left out, if no name at the top begins with a point. -/
theorem complete_partial (rootfs : Tree) (tag : Str) (t : Tree) (h : deployed rootfs tag = some t) (hh : ∀ e ∈ rootfs, ¬ Spec.hidden e.1)
    (e : List Str × Node) (he : e ∈ rootfs) (ht : ¬ Spec.temporary e.1) : e ∈ t :=
  (content_iff rootfs tag t h e).mpr ⟨he, hh e he, fun _ => ht⟩

def sample : Tree := [([tmp], .dir), ([tmp, "x".toList], .file []), (["etc".toList], .dir), (["etc".toList, ".pwd".toList], .file "p".toList),
  ([".autorelabel".toList], .file [])]

/-- A file with a point at the beginning of its name, at the top of the root file system, is left out. -/
theorem hidden_lost : deployed sample "1".toList = some [([tmp], .dir), (["etc".toList], .dir), (["etc".toList, ".pwd".toList], .file "p".toList)] ∧
    ([".autorelabel".toList], Node.file []) ∈ sample := by decide +kernel

/-- Without a directory for temporary files the task fails. -/
theorem no_tmp (rootfs : Tree) (tag : Str) (h : rootfs.lookup [tmp] = none) : containerize rootfs tag = none := by
  rcases hc : containerize rootfs tag with _ | l
  · rfl
  · obtain ⟨t, -, ⟨a, -⟩ | ⟨-, a, -⟩⟩ := tree_of rootfs tag l hc
    · rw [h] at a; cases a
    · exact absurd h a

/-! ## Examples -/

example : ∃ t, deployed [([tmp], .link "var/tmp".toList), (["a".toList], .file [])] "1-r0".toList = some t ∧ t.length = 2 :=
  ⟨_, rfl, by decide +kernel⟩

example : containerize sample "1".toList ≠ none ∧ "1".toList ≠ "empty".toList := by decide +kernel

end Isar.Meta.ContainerImg
