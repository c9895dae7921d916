import Verif.Bb.RefVarsModel

/-!
C287: the variables that an expression refers to, directly or through others, are found, each once, and the search ends.
-/

namespace Isar.Bb.RefVars

open Py

namespace Spec

/-- a variable is referred to, directly or through others -/
inductive Refers (refs : Str → List Str) (start : List Str) : Str → Prop
  | direct {x : Str} (h : x ∈ start) : Refers refs start x
  | through {x y : Str} (hy : Refers refs start y) (h : x ∈ refs y) : Refers refs start x

/-- each item is in `start` or referred to by an earlier item -/
def explained (refs : Str → List Str) (start l : List Str) : Prop :=
  ∀ pre x post, l = pre ++ x :: post → x ∈ start ∨ ∃ y ∈ pre, x ∈ refs y

/-- a variable is referred to through at most `n` others -/
def within (refs : Str → List Str) (start : List Str) : Nat → Str → Prop
  | 0, x => x ∈ start
  | n + 1, x => within refs start n x ∨ ∃ y, within refs start n y ∧ x ∈ refs y

end Spec

structure Inv (refs : Str → List Str) (start queue seen ret : List Str) : Prop where
  split : seen = ret ++ queue
  nodup : seen.Nodup
  sound : ∀ x ∈ seen, Spec.Refers refs start x
  begins : ∀ x ∈ start, x ∈ seen
  closed : ∀ x ∈ ret, ∀ y ∈ refs x, y ∈ seen
  order : ∀ pre x post, seen = pre ++ x :: post → x ∈ start ∨ ∃ y ∈ pre, y ∈ ret ∧ x ∈ refs y

theorem append_split {α : Type} : ∀ {a b pre post : List α} {x : α}, a ++ b = pre ++ x :: post →
    (∃ p, a = pre ++ x :: p) ∨ ∃ q, pre = a ++ q ∧ b = q ++ x :: post
  | [], b, pre, post, x, h => Or.inr ⟨pre, rfl, h⟩
  | y :: a, b, [], post, x, h => by
    rw [List.cons_append, List.nil_append] at h
    obtain ⟨h1, _⟩ := List.cons.inj h
    exact Or.inl ⟨a, by rw [h1]; rfl⟩
  | y :: a, b, z :: pre, post, x, h => by
    rw [List.cons_append, List.cons_append] at h
    obtain ⟨h1, h2⟩ := List.cons.inj h
    rcases append_split h2 with ⟨p, hp⟩ | ⟨q, h3, h4⟩
    · exact Or.inl ⟨p, by rw [h1, hp]; rfl⟩
    · exact Or.inr ⟨q, by rw [h1, h3]; rfl, h4⟩

theorem inv_step {refs : Str → List Str} {start queue seen ret : List Str} {e : Str} (hr : (refs e).Nodup) (h : Inv refs start (e :: queue) seen ret) :
    Inv refs start (queue ++ (refs e).filter fun x => decide (x ∉ seen)) (seen ++ (refs e).filter fun x => decide (x ∉ seen)) (ret ++ [e]) := by
  have he : e ∈ seen := by rw [h.split]; simp
  refine ⟨?_, ?_, ?_, ?_, ?_, ?_⟩
  · rw [h.split]; simp
  · rw [List.nodup_append]
    refine ⟨h.nodup, hr.filter _, fun a ha b hb hab => ?_⟩
    have := (List.mem_filter.mp hb).2
    rw [← hab] at this
    exact (by simpa using this : a ∉ seen) ha
  · intro x hx
    rcases List.mem_append.mp hx with hx | hx
    · exact h.sound x hx
    · exact .through (h.sound e he) (List.mem_filter.mp hx).1
  · intro x hx
    exact List.mem_append_left _ (h.begins x hx)
  · intro x hx y hy
    rcases List.mem_append.mp hx with hx | hx
    · exact List.mem_append_left _ (h.closed x hx y hy)
    · rw [List.mem_singleton.mp hx] at hy
      by_cases hs : y ∈ seen
      · exact List.mem_append_left _ hs
      · exact List.mem_append_right _ (List.mem_filter.mpr ⟨hy, by simpa using hs⟩)
  · intro pre x post hp
    rcases append_split hp with ⟨p, hp'⟩ | ⟨q, h1, h2⟩
    · rcases h.order pre x p hp' with h' | ⟨y, hy, hyr, hx⟩
      · exact Or.inl h'
      · exact Or.inr ⟨y, hy, List.mem_append_left _ hyr, hx⟩
    · right
      refine ⟨e, by rw [h1]; exact List.mem_append_left _ he, by simp, ?_⟩
      have : x ∈ (refs e).filter fun x => decide (x ∉ seen) := by rw [h2]; simp
      exact (List.mem_filter.mp this).1

theorem inv_start {refs : Str → List Str} {start : List Str} (hs : start.Nodup) : Inv refs start start start [] :=
  ⟨rfl, hs, fun _ h => .direct h, fun _ h => h, fun _ h => (by cases h), fun pre x post h => Or.inl (by rw [h]; simp)⟩

theorem loop_inv {refs : Str → List Str} {start : List Str} (hr : ∀ x, (refs x).Nodup) : ∀ (fuel : Nat) (queue seen ret : List Str), Inv refs start queue seen ret →
    ∀ r, loop refs fuel queue seen ret = some r → Inv refs start [] r r
  | fuel, [], seen, ret, h, r, he => by
    have : ret = r := by
      unfold loop at he
      cases fuel <;> exact Option.some.inj he
    have hs : seen = ret := by rw [h.split, List.append_nil]
    rw [← this]
    rw [hs] at h
    exact h
  | 0, _ :: _, _, _, _, r, he => by unfold loop at he; cases he
  | fuel + 1, e :: queue, seen, ret, h, r, he => by
    unfold loop at he
    exact loop_inv hr fuel _ _ _ (inv_step (hr e) h) r he

/-- **C287**: the result has exactly the variables that are referred to, directly or through others, each once, and each that is not in the expression itself after one that refers to it. -/
theorem all_found {refs : Str → List Str} {start : List Str} (hs : start.Nodup) (hr : ∀ x, (refs x).Nodup) {fuel : Nat} {r : List Str} (h : referenced refs start fuel = some r) :
    r.Nodup ∧ (∀ x, x ∈ r ↔ Spec.Refers refs start x) ∧ Spec.explained refs start r := by
  have inv := loop_inv hr fuel start start [] (inv_start hs) r h
  refine ⟨inv.nodup, fun x => ⟨inv.sound x, fun hx => ?_⟩, fun pre x post hp => ?_⟩
  · induction hx with
    | direct h => exact inv.begins _ h
    | through _ h ih => exact inv.closed _ ih _ h
  · rcases inv.order pre x post hp with h | ⟨y, hy, _, hx⟩
    · exact Or.inl h
    · exact Or.inr ⟨y, hy, hx⟩

theorem nodup_length_le {l m : List Str} (h : l.Nodup) (hs : ∀ x ∈ l, x ∈ m) : l.length ≤ m.length := by
  induction l generalizing m with
  | nil => simp
  | cons a l ih =>
    rw [List.nodup_cons] at h
    have ha := hs a (List.mem_cons_self ..)
    have h1 := ih (m := m.erase a) h.2 (fun x hx => by
      have hne : x ≠ a := fun e => h.1 (e ▸ hx)
      exact (List.mem_erase_of_ne hne).mpr (hs x (List.mem_cons_of_mem _ hx)))
    rw [List.length_erase_of_mem ha] at h1
    have := List.length_pos_of_mem ha
    simp only [List.length_cons]; omega

theorem loop_ends {refs : Str → List Str} {start U : List Str} (hr : ∀ x, (refs x).Nodup) (hu : ∀ x, Spec.Refers refs start x → x ∈ U) :
    ∀ (fuel : Nat) (queue seen ret : List Str), Inv refs start queue seen ret → U.length ≤ fuel + ret.length → ∃ r, loop refs fuel queue seen ret = some r
  | fuel, [], _, ret, _, _ => ⟨ret, by cases fuel <;> rfl⟩
  | 0, e :: queue, seen, ret, h, hl => by
    have := nodup_length_le h.nodup (fun x hx => hu x (h.sound x hx))
    rw [h.split] at this
    simp only [List.length_append, List.length_cons] at this
    omega
  | fuel + 1, e :: queue, seen, ret, h, hl => by
    unfold loop
    exact loop_ends hr hu fuel _ _ _ (inv_step (hr e) h) (by simp only [List.length_append, List.length_singleton]; omega)

/-- **C287**: the search ends, also with variables that refer to each other: it takes at most as many steps as there are variables. -/
theorem ends {refs : Str → List Str} {start U : List Str} (hs : start.Nodup) (hr : ∀ x, (refs x).Nodup) (hu : ∀ x, Spec.Refers refs start x → x ∈ U) :
    ∃ r, referenced refs start U.length = some r :=
  loop_ends hr hu U.length start start [] (inv_start hs) (by simp)

theorem within_mono {refs : Str → List Str} {start : List Str} {x : Str} {n m : Nat} (h : Spec.within refs start n x) (hl : n ≤ m) : Spec.within refs start m x := by
  induction m with
  | zero => rw [Nat.le_zero.mp hl] at h; exact h
  | succ m ih =>
    by_cases he : n = m + 1
    · rw [he] at h; exact h
    · exact Or.inl (ih (by omega))

/-- between two steps, `A` has what is left of the level `k` and `B` the part of the next level that is known -/
structure Lev (refs : Str → List Str) (start : List Str) (k : Nat) (A B seen ret : List Str) : Prop where
  split : seen = ret ++ (A ++ B)
  low : ∀ x ∈ ret ++ A, Spec.within refs start k x
  high : ∀ x ∈ B, Spec.within refs start (k + 1) x ∧ ¬ Spec.within refs start k x
  full : ∀ x, Spec.within refs start k x → x ∈ seen
  closed : ∀ x ∈ ret, ∀ y ∈ refs x, y ∈ seen
  sorted : seen.Pairwise fun x y => ∀ n, Spec.within refs start n y → Spec.within refs start n x

theorem lev_next {refs : Str → List Str} {start : List Str} {k : Nat} {B seen ret : List Str} (h : Lev refs start k [] B seen ret) : Lev refs start (k + 1) B [] seen ret := by
  refine ⟨by rw [h.split]; simp, fun x hx => ?_, fun x hx => (by cases hx), fun x hx => ?_, h.closed, h.sorted⟩
  · rcases List.mem_append.mp hx with hx | hx
    · exact Or.inl (h.low x (by simpa using hx))
    · exact (h.high x hx).1
  · rcases hx with hx | ⟨y, hy, hx⟩
    · exact h.full x hx
    · have := h.full y hy
      rw [h.split, List.nil_append] at this
      rcases List.mem_append.mp this with h1 | h1
      · exact h.closed y h1 x hx
      · exact absurd hy (h.high y h1).2

theorem lev_step {refs : Str → List Str} {start : List Str} {k : Nat} {A B seen ret : List Str} {e : Str} (h : Lev refs start k (e :: A) B seen ret) :
    Lev refs start k A (B ++ (refs e).filter fun x => decide (x ∉ seen)) (seen ++ (refs e).filter fun x => decide (x ∉ seen)) (ret ++ [e]) := by
  have hnew : ∀ x ∈ (refs e).filter (fun x => decide (x ∉ seen)), Spec.within refs start (k + 1) x ∧ ¬ Spec.within refs start k x := by
    intro x hx
    obtain ⟨h1, h2⟩ := List.mem_filter.mp hx
    exact ⟨Or.inr ⟨e, h.low e (by simp), h1⟩, fun hk => (by simpa using h2 : x ∉ seen) (h.full x hk)⟩
  have hold : ∀ x ∈ seen, Spec.within refs start (k + 1) x := by
    intro x hx
    rw [h.split, ← List.append_assoc] at hx
    rcases List.mem_append.mp hx with hx | hx
    · exact Or.inl (h.low x hx)
    · exact (h.high x hx).1
  have hlev : ∀ x, Spec.within refs start (k + 1) x → ∀ y ∈ (refs e).filter (fun x => decide (x ∉ seen)), ∀ n, Spec.within refs start n y → Spec.within refs start n x := by
    intro x hx y hy n hn
    by_cases hk : n ≤ k
    · exact absurd (within_mono hn hk) (hnew y hy).2
    · exact within_mono hx (by omega)
  refine ⟨by rw [h.split]; simp, fun x hx => h.low x (by simpa using hx), fun x hx => ?_, fun x hx => List.mem_append_left _ (h.full x hx), fun x hx y hy => ?_, ?_⟩
  · rcases List.mem_append.mp hx with hx | hx
    · exact h.high x hx
    · exact hnew x hx
  · rcases List.mem_append.mp hx with hx | hx
    · exact List.mem_append_left _ (h.closed x hx y hy)
    · rw [List.mem_singleton.mp hx] at hy
      by_cases hs : y ∈ seen
      · exact List.mem_append_left _ hs
      · exact List.mem_append_right _ (List.mem_filter.mpr ⟨hy, by simpa using hs⟩)
  · rw [List.pairwise_append]
    exact ⟨h.sorted, List.pairwise_of_forall_mem_list fun x hx y hy => hlev x (hnew x hx).1 y hy, fun x hx y hy => hlev x (hold x hx) y hy⟩

theorem loop_lev {refs : Str → List Str} {start : List Str} : ∀ (fuel k : Nat) (A B seen ret : List Str), Lev refs start k A B seen ret →
    ∀ r, loop refs fuel (A ++ B) seen ret = some r → r.Pairwise fun x y => ∀ n, Spec.within refs start n y → Spec.within refs start n x
  | fuel, k, [], [], seen, ret, h, r, he => by
    have : ret = r := by
      cases fuel <;> exact Option.some.inj he
    have hs := h.sorted
    rw [h.split, List.append_nil, List.append_nil, this] at hs
    exact hs
  | 0, k, [], b :: B, _, _, _, r, he => by cases he
  | 0, k, a :: A, B, _, _, _, r, he => by cases he
  | fuel + 1, k, e :: A, B, seen, ret, h, r, he => by
    rw [List.cons_append] at he
    unfold loop at he
    dsimp only at he
    rw [List.append_assoc] at he
    exact loop_lev fuel k _ _ _ _ (lev_step h) r he
  | fuel + 1, k, [], e :: B, seen, ret, h, r, he => by
    rw [List.nil_append] at he
    unfold loop at he
    dsimp only at he
    have h' := lev_step (lev_next h)
    rw [List.nil_append] at h'
    exact loop_lev fuel (k + 1) _ _ _ _ h' r he

/-- **C287**: of two variables in the result, the first is referred to through no more others than the second: what the expression uses itself comes first, then what that uses, and so on. -/
theorem by_level {refs : Str → List Str} {start : List Str} {fuel : Nat} {r : List Str} (h : referenced refs start fuel = some r) :
    r.Pairwise fun x y => ∀ n, Spec.within refs start n y → Spec.within refs start n x := by
  have hl : Lev refs start 0 start [] start [] :=
    ⟨by simp, fun x hx => (show x ∈ start from (by simpa using hx)), fun x hx => (by cases hx), fun x hx => hx, fun x hx => (by cases hx),
      List.pairwise_of_forall_mem_list fun x hx y _ n _ => within_mono (n := 0) hx (Nat.zero_le _)⟩
  exact loop_lev fuel 0 start [] start [] hl r (by rw [List.append_nil]; exact h)

/-- A refers to B and C, B to A and D, D to itself. -/
def sample (x : Str) : List Str :=
  if x = ['A'] then [['B'], ['C']] else if x = ['B'] then [['A'], ['D']] else if x = ['D'] then [['D']] else []

example : referenced sample [['A']] 4 = some [['A'], ['B'], ['C'], ['D']] ∧ referenced sample [['A']] 3 = none ∧ referenced sample [['C'], ['D']] 9 = some [['C'], ['D']] := by decide +kernel

end Isar.Bb.RefVars
