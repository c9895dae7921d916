import Verif.Py.Str
/-!
# Sorted sets of texts, as in Python
-/

namespace Py

/-- The order of texts in Python: by code points. -/
def strLe : Str → Str → Bool
  | [], _ => true
  | _ :: _, [] => false
  | a :: s, b :: t => if a.toNat < b.toNat then true else if a = b then strLe s t else false

/-- Put an element into a sorted list, before the elements that it is not after. -/
def insertBy {α : Type} (le : α → α → Bool) (a : α) : List α → List α
  | [] => [a]
  | b :: l => if le a b then a :: b :: l else b :: insertBy le a l

/-- A stable sort, like Python's `sorted`. -/
def sortBy {α : Type} (le : α → α → Bool) : List α → List α
  | [] => []
  | a :: l => insertBy le a (sortBy le l)

/-- `sorted(x)` for a set of texts: each once. -/
def sortSet (l : List Str) : List Str := sortBy strLe l.eraseDups

theorem insertBy_perm {α : Type} (le : α → α → Bool) (a : α) (l : List α) :
    (insertBy le a l).Perm (a :: l) := by
  induction l with
  | nil => exact List.Perm.refl _
  | cons b l ih =>
    unfold insertBy
    by_cases h : le a b = true
    · rw [if_pos h]
    · rw [if_neg h]
      exact (ih.cons b).trans (List.Perm.swap a b l)

theorem sortBy_perm {α : Type} (le : α → α → Bool) (l : List α) : (sortBy le l).Perm l := by
  induction l with
  | nil => exact List.Perm.refl _
  | cons a l ih => exact (insertBy_perm le a _).trans (ih.cons a)

theorem insertBy_sorted {α : Type} {le : α → α → Bool}
    (trans : ∀ a b c, le a b = true → le b c = true → le a c = true)
    (total : ∀ a b, (le a b || le b a) = true) (a : α) (l : List α)
    (h : l.Pairwise fun a b => le a b = true) : (insertBy le a l).Pairwise fun a b => le a b = true := by
  induction l with
  | nil => exact List.pairwise_singleton _ _
  | cons b l ih =>
    obtain ⟨h1, h2⟩ := List.pairwise_cons.1 h
    unfold insertBy
    by_cases e : le a b = true
    · rw [if_pos e]
      refine List.pairwise_cons.2 ⟨fun x hx => ?_, h⟩
      rcases List.mem_cons.1 hx with rfl | hx
      · exact e
      · exact trans a b x e (h1 x hx)
    · rw [if_neg e]
      refine List.pairwise_cons.2 ⟨fun x hx => ?_, ih h2⟩
      rcases List.mem_cons.1 ((insertBy_perm le a l).mem_iff.1 hx) with rfl | hx
      · have := total x b
        rw [Bool.or_eq_true] at this
        exact this.resolve_left e
      · exact h1 x hx

theorem sortBy_sorted {α : Type} {le : α → α → Bool}
    (trans : ∀ a b c, le a b = true → le b c = true → le a c = true)
    (total : ∀ a b, (le a b || le b a) = true) (l : List α) :
    (sortBy le l).Pairwise fun a b => le a b = true := by
  induction l with
  | nil => exact List.Pairwise.nil
  | cons a l ih => exact insertBy_sorted trans total a _ ih

/-- A sorted list stays as it is. -/
theorem sortBy_of_sorted {α : Type} {le : α → α → Bool} (l : List α)
    (h : l.Pairwise fun a b => le a b = true) : sortBy le l = l := by
  induction l with
  | nil => rfl
  | cons a l ih =>
    obtain ⟨h1, h2⟩ := List.pairwise_cons.1 h
    unfold sortBy
    rw [ih h2]
    cases l with
    | nil => rfl
    | cons b l =>
      unfold insertBy
      rw [if_pos (h1 b List.mem_cons_self)]

theorem strLe_refl (a : Str) : strLe a a = true := by
  induction a with
  | nil => rfl
  | cons c a ih => simp [strLe, ih]

theorem strLe_total (a b : Str) : (strLe a b || strLe b a) = true := by
  induction a generalizing b with
  | nil => rfl
  | cons c a ih =>
    cases b with
    | nil => rfl
    | cons d b =>
      unfold strLe
      by_cases h1 : c.toNat < d.toNat
      · rw [if_pos h1]; rfl
      · rw [if_neg h1]
        by_cases h2 : d.toNat < c.toNat
        · rw [if_pos h2]; exact Bool.or_true _
        · have e : c = d := by
            apply Char.toNat_inj.1
            omega
          subst e
          rw [if_pos rfl, if_neg h2, if_pos rfl]
          exact ih b

theorem strLe_antisymm {a b : Str} (h1 : strLe a b = true) (h2 : strLe b a = true) : a = b := by
  induction a generalizing b with
  | nil =>
    cases b with
    | nil => rfl
    | cons d b => cases h2
  | cons c a ih =>
    cases b with
    | nil => cases h1
    | cons d b =>
      unfold strLe at h1 h2
      by_cases h : c.toNat < d.toNat
      · rw [if_neg (by omega), if_neg (by rintro rfl; omega)] at h2
        cases h2
      · rw [if_neg h] at h1
        by_cases e : c = d
        · subst e
          rw [if_pos rfl] at h1
          rw [if_neg h, if_pos rfl] at h2
          rw [ih h1 h2]
        · rw [if_neg e] at h1
          cases h1

theorem strLe_trans (a b c : Str) (h1 : strLe a b = true) (h2 : strLe b c = true) : strLe a c = true := by
  induction a generalizing b c with
  | nil => rfl
  | cons x a ih =>
    cases b with
    | nil => cases h1
    | cons y b =>
      cases c with
      | nil => cases h2
      | cons z c =>
        unfold strLe at h1 h2 ⊢
        by_cases hxy : x.toNat < y.toNat
        · by_cases hyz : y.toNat < z.toNat
          · rw [if_pos (by omega)]
          · rw [if_neg hyz] at h2
            by_cases e : y = z
            · subst e; rw [if_pos hxy]
            · rw [if_neg e] at h2; cases h2
        · rw [if_neg hxy] at h1
          by_cases e : x = y
          · subst e
            rw [if_pos rfl] at h1
            by_cases hyz : x.toNat < z.toNat
            · rw [if_pos hyz]
            · rw [if_neg hyz] at h2 ⊢
              by_cases e : x = z
              · rw [if_pos e] at h2 ⊢
                exact ih b c h1 h2
              · rw [if_neg e] at h2; cases h2
          · rw [if_neg e] at h1; cases h1

/-- Strictly before. -/
def StrLt (a b : Str) : Prop := strLe a b = true ∧ a ≠ b

theorem nodup_eraseDups {α : Type} [BEq α] [LawfulBEq α] (l : List α) : l.eraseDups.Nodup := by
  generalize hn : l.length = n
  induction n using Nat.strongRecOn generalizing l with
  | ind n ih =>
    cases l with
    | nil => exact List.nodup_nil
    | cons a l =>
      rw [List.eraseDups_cons]
      refine List.nodup_cons.2 ⟨?_, ih _ ?_ _ rfl⟩
      · rw [List.mem_eraseDups, List.mem_filter]
        rintro ⟨_, h⟩
        simp at h
      · subst hn
        exact Nat.lt_succ_of_le (List.length_filter_le _ _)

theorem mem_sortSet {l : List Str} {x : Str} : x ∈ sortSet l ↔ x ∈ l := by
  unfold sortSet
  rw [(sortBy_perm _ _).mem_iff, List.mem_eraseDups]

theorem sortSet_nodup (l : List Str) : (sortSet l).Nodup :=
  (sortBy_perm _ _).nodup_iff.2 (nodup_eraseDups l)

theorem sortSet_sorted (l : List Str) : (sortSet l).Pairwise StrLt := by
  have h1 := sortBy_sorted (le := strLe) strLe_trans strLe_total l.eraseDups
  have h2 := sortSet_nodup l
  exact (List.pairwise_and_iff.2 ⟨h1, h2⟩).imp fun h => h

theorem sorted_unique {a b : List Str} (ha : a.Pairwise StrLt) (hb : b.Pairwise StrLt)
    (h : ∀ x, x ∈ a ↔ x ∈ b) : a = b := by
  refine List.Perm.eq_of_pairwise (le := StrLt) (fun x y _ _ h1 h2 => strLe_antisymm h1.1 h2.1) ha hb ?_
  rw [List.perm_ext_iff_of_nodup (ha.imp fun h => h.2) (hb.imp fun h => h.2)]
  exact h

/-- The sorted list depends only on the set. -/
theorem sortSet_congr {l m : List Str} (h : ∀ x, x ∈ l ↔ x ∈ m) : sortSet l = sortSet m :=
  sorted_unique (sortSet_sorted l) (sortSet_sorted m) fun x => by rw [mem_sortSet, mem_sortSet, h]

theorem sortSet_sortSet (l : List Str) : sortSet (sortSet l) = sortSet l :=
  sortSet_congr fun _ => mem_sortSet

end Py
