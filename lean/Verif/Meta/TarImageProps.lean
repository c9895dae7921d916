import Verif.Meta.TarImageModel
/-!
# Properties of images and SDKs as tar files
-/

namespace Meta.TarImage
open Py

namespace Spec

/-- The tar file that the user expects: everything is below `top`, and links point to where they pointed before. -/
def below (top : Str) : Str × Node → Str × Node
  | (p, .hard q) => (top ++ p, .hard (top ++ q))
  | (p, n) => (top ++ p, n)

def expected (top : Str) (t : Tree) : Tree := t.map (below top)

end Spec

theorem transform_prefix (r s : Str) : transform r (rootfs ++ s) = r ++ s := by
  show transform r ('r' :: ("ootfs".toList ++ s)) = r ++ s
  unfold transform
  have h : startsWith ('r' :: ("ootfs".toList ++ s)) rootfs = true := startsWith_iff.mpr ⟨s, rfl⟩
  rw [if_pos h]
  rfl

theorem transform_none (r : Str) : ∀ s : Str, isSub rootfs s = false → transform r s = s := by
  intro s
  induction s with
  | nil => intro _; rfl
  | cons c s ih =>
    intro h
    unfold isSub at h
    rw [Bool.or_eq_false_iff] at h
    unfold transform
    rw [if_neg (by rw [h.1]; decide), ih h.2]

theorem transform_some (r : Str) (hr : r ≠ rootfs) : ∀ s : Str, isSub rootfs s = true → transform r s ≠ s := by
  intro s
  induction s with
  | nil => intro h; cases h
  | cons c s ih =>
    intro h
    unfold transform
    split
    · rename_i hs
      obtain ⟨t, ht⟩ := startsWith_iff.mp hs
      rw [ht, List.drop_left]
      intro he
      exact hr (List.append_cancel_right he)
    · rename_i hs
      unfold isSub at h
      rw [Bool.or_eq_true] at h
      rcases h with h | h
      · exact absurd h hs
      · intro he
        exact ih h (List.cons.inj he).2

/-- C252. The tar file has the tree of the root file system, exactly if the word `rootfs` is in no target of a symbolic link. -/
theorem same_tree_partial (top : Str) (ht : top ≠ rootfs) (t : Tree) :
    pack top t = Spec.expected top t ↔ ∀ p target, (p, Node.sym target) ∈ t → isSub rootfs target = false := by
  unfold pack Spec.expected
  rw [List.map_inj_left]
  constructor
  · intro h p target hm
    have := h _ hm
    simp only [packOne, Spec.below, transform_prefix, Prod.mk.injEq, true_and, Node.sym.injEq] at this
    cases hs : isSub rootfs target
    · rfl
    · exact absurd this (transform_some top ht target hs)
  · rintro h ⟨p, n⟩ hm
    cases n with
    | sym target => simp only [packOne, Spec.below, transform_prefix, transform_none _ _ (h p target hm)]
    | dir => simp only [packOne, Spec.below, transform_prefix]
    | file c => simp only [packOne, Spec.below, transform_prefix]
    | hard q => simp only [packOne, Spec.below, transform_prefix]

/-- A tree with a name that has the word more than once, and links. -/
def demo : Tree := [("".toList, .dir), ("/rootfs".toList, .dir), ("/rootfs/rootfs".toList, .file 1), ("/a".toList, .sym "/etc/b".toList),
  ("/c".toList, .hard "/rootfs/rootfs".toList)]

example : pack ".".toList demo = [(".".toList, .dir), ("./rootfs".toList, .dir), ("./rootfs/rootfs".toList, .file 1), ("./a".toList, .sym "/etc/b".toList),
    ("./c".toList, .hard "./rootfs/rootfs".toList)] := by decide

/-- C252. Names are always right: the members of the tar file have the paths of the root file system, below the new name. -/
theorem names (top : Str) (t : Tree) : (pack top t).map (·.1) = t.map (fun e => top ++ e.1) := by
  unfold pack
  rw [List.map_map]
  apply List.map_congr_left
  rintro ⟨p, n⟩ _
  cases n <;> simp only [Function.comp, packOne, transform_prefix]

/-- C252. What is in files is always right. -/
theorem contents (top : Str) (t : Tree) (p : Str) (c : Nat) (h : (p, Node.file c) ∈ t) : (top ++ p, Node.file c) ∈ pack top t := by
  unfold pack
  rw [List.mem_map]
  exact ⟨_, h, by simp only [packOne, transform_prefix]⟩

/-- What is missing from C252: a link into a directory whose name has the word points somewhere else. -/
theorem link_changed : pack ".".toList [("".toList, .dir), ("/a".toList, .sym "/usr/lib/rootfs/x".toList)] =
    [(".".toList, .dir), ("./a".toList, .sym "/usr/lib/./x".toList)] := by decide

theorem link_changed_sdk : pack "sdk-debian-amd64".toList [("/a".toList, .sym "../rootfs-tool".toList)] =
    [("sdk-debian-amd64/a".toList, .sym "../sdk-debian-amd64-tool".toList)] := by decide

end Meta.TarImage
