import Verif.Meta.ListsLemmas
/-! # Properties of list variables: C19, C20 -/

namespace Isar.Lists
open Py Spec

/-- Concrete data for the examples below. -/
def exMap : Mapping :=
  [("a".toList, ["b".toList]), ("b".toList, ["c".toList, "a".toList])]

theorem getVar_unroll {m : Mapping} {depth n : Nat} {raw r : List Str} (hn : 3 ≤ n)
    (h : getVar m depth raw n false false = some r) :
    ∃ imp all, impliedAll m depth (raw.filter fun v => v ∉ removalList raw) = some imp ∧
      impliedAll m depth raw = some all ∧
      r = (imp ++ raw).filter fun v => v ∉ removalList (all ++ raw) := by
  obtain ⟨k, rfl⟩ : ∃ k, n = k + 3 := ⟨n - 3, by omega⟩
  have h11 : ∀ k, getVar m depth raw (k + 1) true true = some raw := by
    intro k
    simp only [getVar, if_true, Option.bind_eq_bind, Option.bind_some, List.nil_append]
    simp
  have h01 : ∀ k, getVar m depth raw (k + 2) false true
      = some (raw.filter fun v => v ∉ removalList raw) := by
    intro k
    rw [getVar]
    simp only [h11, if_true, Bool.false_eq_true, if_false, Option.bind_eq_bind, Option.bind_some,
      List.nil_append]
  have h10 : ∀ k, getVar m depth raw (k + 2) true false
      = (impliedAll m depth raw).map (· ++ raw) := by
    intro k
    rw [getVar]
    simp only [h11, if_true, Bool.false_eq_true, if_false, Option.bind_eq_bind, Option.bind_some]
    cases impliedAll m depth raw <;> simp [List.filter_eq_self.2]
  rw [getVar] at h
  simp only [h01, h10, Bool.false_eq_true, if_false, Option.bind_eq_bind, Option.bind_some] at h
  cases h1 : impliedAll m depth (raw.filter fun v => v ∉ removalList raw) with
  | none => rw [h1] at h; simp at h
  | some imp =>
    cases h2 : impliedAll m depth raw with
    | none => rw [h1, h2] at h; simp at h
    | some all =>
      rw [h1, h2] at h
      simp only [Option.bind_some, Option.map_some, Option.some.injEq] at h
      exact ⟨imp, all, rfl, rfl, h.symm⟩

/-- C20: evaluation of a list variable ends, for every mapping, cyclic or not, and every value;
the recursion is never deeper than the mapping has entries, plus one. -/
theorem list_terminates (m : Mapping) (raw : List Str) (depth n : Nat)
    (hd : m.length < depth) (hn : 3 ≤ n) :
    ∃ r, getVar m depth raw n false false = some r := by
  obtain ⟨k, rfl⟩ : ∃ k, n = k + 3 := ⟨n - 3, by omega⟩
  simp only [getVar, if_true, Bool.false_eq_true, if_false, Option.bind_eq_bind,
    Option.bind_some]
  obtain ⟨a, ha⟩ := impliedAll_total m depth hd
    (List.filter (fun v => decide ¬v ∈ removalList (List.filter (fun v => decide ¬v ∈ [])
      ([] ++ raw))) ([] ++ raw))
  obtain ⟨b, hb⟩ := impliedAll_total m depth hd (List.filter (fun v => decide ¬v ∈ []) ([] ++ raw))
  rw [ha, hb]
  exact ⟨_, rfl⟩

example : getVar exMap 3 ["a".toList, "x".toList] 3 false false =
    some ["b".toList, "c".toList, "a".toList, "a".toList, "x".toList] := by decide

/-- C20: the items implied by a value are exactly those that follow from one of its items in
one or more steps. -/
theorem implied_closure (m : Mapping) (depth : Nat) (hd : m.length < depth) (value : List Str) :
    ∃ r, impliedAll m depth value = some r ∧
      ∀ x, x ∈ r ↔ ∃ y ∈ value, Implies (fun y => (m.lookup y).getD []) y x := by
  obtain ⟨r, h⟩ := impliedAll_total m depth hd value
  exact ⟨r, h, impliedAll_mem h⟩

example : ∃ r, impliedAll exMap 3 ["a".toList] = some r ∧ "c".toList ∈ r ∧ "a".toList ∈ r :=
  ⟨_, rfl, by decide⟩

/-- C19/C20: exactly which items a list variable has.  `all` is the value together with
everything implied by it.  An item is there iff it is not a marker, it occurs in `all` more
often than its removal is requested there, and it is written in the value or implied by a
written item which itself is written more often than it is requested to be removed. -/
theorem list_value_exact {m : Mapping} {depth n : Nat} {raw r : List Str} (hn : 3 ≤ n)
    (h : getVar m depth raw n false false = some r) :
    ∃ all, impliedAll m depth raw = some all ∧ ∀ x, x ∈ r ↔
      ¬ Marker x ∧ requests x (all ++ raw) < (all ++ raw).count x ∧
      (x ∈ raw ∨ ∃ y ∈ raw, ¬ Marker y ∧ requests y raw < raw.count y ∧
        Implies (fun y => (m.lookup y).getD []) y x) := by
  obtain ⟨imp, all, h1, h2, rfl⟩ := getVar_unroll hn h
  refine ⟨all, h2, fun x => ?_⟩
  have hsub : x ∈ imp → x ∈ all := by
    rw [impliedAll_mem h1, impliedAll_mem h2]
    rintro ⟨y, hy, hyx⟩
    exact ⟨y, (List.mem_filter.1 hy).1, hyx⟩
  have hy : (∃ y ∈ raw.filter (fun v => v ∉ removalList raw), Implies (lookup m) y x) ↔
      ∃ y ∈ raw, ¬ Marker y ∧ requests y raw < raw.count y ∧ Implies (lookup m) y x := by
    constructor
    · rintro ⟨y, hy, hyx⟩
      rw [List.mem_filter] at hy
      obtain ⟨hy1, hy2⟩ := hy
      have hy2 : y ∉ removalList raw := of_decide_eq_true hy2
      rw [mem_removalList _ _ hy1, not_or, Nat.not_le] at hy2
      exact ⟨y, hy1, hy2.1, hy2.2, hyx⟩
    · rintro ⟨y, hy1, hy2, hy3, hyx⟩
      refine ⟨y, ?_, hyx⟩
      rw [List.mem_filter]
      refine ⟨hy1, decide_eq_true ?_⟩
      rw [mem_removalList _ _ hy1, not_or, Nat.not_le]
      exact ⟨hy2, hy3⟩
  rw [List.mem_filter, List.mem_append, impliedAll_mem h1, hy]
  constructor
  · rintro ⟨hx, hr⟩
    have hr : x ∉ removalList (all ++ raw) := of_decide_eq_true hr
    have hmem : x ∈ all ++ raw := by
      rw [List.mem_append]
      rcases hx with hx | hx
      · exact Or.inl (hsub ((impliedAll_mem h1 x).2 (hy.2 hx)))
      · exact Or.inr hx
    rw [mem_removalList _ _ hmem, not_or, Nat.not_le] at hr
    exact ⟨hr.1, hr.2, hx.symm⟩
  · rintro ⟨hm, hc, hx⟩
    refine ⟨hx.symm, decide_eq_true ?_⟩
    have hmem : x ∈ all ++ raw := List.count_pos_iff.1 (by omega)
    rw [mem_removalList _ _ hmem, not_or, Nat.not_le]
    exact ⟨hm, hc⟩

/-- C19: no marker is left. -/
theorem no_marker_left {m : Mapping} {depth n : Nat} {raw r : List Str} (hn : 3 ≤ n)
    (h : getVar m depth raw n false false = some r) {x : Str} (hx : x ∈ r) :
    ¬ Marker x := by
  obtain ⟨all, _, hr⟩ := list_value_exact hn h
  exact ((hr x).1 hx).1

example : getVar [] 1 ["a".toList, "b".toList, "-a".toList] 3 false false =
    some ["b".toList] := by decide

/-- C19: everything that is not requested to be removed is kept, in the order in which it was
written, and nothing but the value's own items and implied items is added; the written part
comes last. -/
theorem unrequested_kept {m : Mapping} {depth n : Nat} {raw r : List Str} (hn : 3 ≤ n)
    (h : getVar m depth raw n false false = some r) :
    ∃ pre written, r = pre ++ written ∧ written.Sublist raw ∧
      (∀ x ∈ pre, ∃ y ∈ raw, Implies (fun y => (m.lookup y).getD []) y x) ∧
      ∀ p : Str → Bool, (∀ x, p x = true → ¬ Marker x ∧
          ∀ y, (y = '-' :: x ∨ y = '~' :: x) → y ∉ raw ∧
            ∀ z ∈ raw, ¬ Implies (fun y => (m.lookup y).getD []) z y) →
        written.filter p = raw.filter p := by
  obtain ⟨imp, all, h1, h2, rfl⟩ := getVar_unroll hn h
  refine ⟨imp.filter (fun v => v ∉ removalList (all ++ raw)),
    raw.filter (fun v => v ∉ removalList (all ++ raw)), by rw [List.filter_append],
    List.filter_sublist, ?_, ?_⟩
  · intro x hx
    have := (impliedAll_mem h1 x).1 (List.mem_filter.1 hx).1
    obtain ⟨y, hy, hyx⟩ := this
    exact ⟨y, (List.mem_filter.1 hy).1, hyx⟩
  · intro p hp
    rw [List.filter_filter]
    apply List.filter_congr
    intro x hx
    by_cases hpx : p x = true
    · obtain ⟨hm, hy⟩ := hp x hpx
      simp only [hpx, Bool.true_and]
      apply decide_eq_true
      rw [mem_removalList _ _ (List.mem_append.2 (Or.inr hx)), not_or, Nat.not_le]
      refine ⟨hm, ?_⟩
      have h0 : ∀ y, (y = '-' :: x ∨ y = '~' :: x) → (all ++ raw).count y = 0 := by
        intro y hyx
        rw [List.count_eq_zero, List.mem_append, not_or]
        refine ⟨?_, (hy y hyx).1⟩
        rw [impliedAll_mem h2]
        rintro ⟨z, hz, hzy⟩
        exact (hy y hyx).2 z hz hzy
      unfold requests
      rw [h0 _ (Or.inl rfl), h0 _ (Or.inr rfl)]
      exact List.count_pos_iff.2 (List.mem_append.2 (Or.inr hx))
    · simp [hpx]

example : getVar exMap 3 ["x".toList, "a".toList, "-c".toList, "y".toList] 3 false false =
    some ["b".toList, "a".toList, "x".toList, "a".toList, "y".toList] := by
  decide

/-- C19, partial: a requested item is gone if there are at least as many requests as there are
occurrences in the value and in what it implies (in particular: one request, one occurrence).
Missing: with more occurrences than requests the item stays, see `removal_of_repeated`. -/
theorem requested_removed_partial {m : Mapping} {depth n : Nat} {raw r all : List Str}
    (hn : 3 ≤ n) (h : getVar m depth raw n false false = some r)
    (ha : impliedAll m depth raw = some all) {x : Str}
    (hle : (all ++ raw).count x ≤ requests x raw) : x ∉ r := by
  intro hx
  obtain ⟨all', ha', hr⟩ := list_value_exact hn h
  rw [ha] at ha'
  cases ha'
  have := ((hr x).1 hx).2.1
  unfold requests at this hle
  simp only [List.count_append] at this hle
  omega

example : getVar exMap 3 ["a".toList, "~c".toList, "d".toList, "-d".toList] 3 false false =
    some ["b".toList, "a".toList, "a".toList] := by decide

/-- C19, why the full statement is false: an item that is written twice survives its removal,
and so does an item that is written once but also implied by another one - even if that other
item is itself removed. -/
theorem removal_of_repeated :
    getVar [] 1 ["a".toList, "a".toList, "-a".toList] 3 false false =
      some ["a".toList, "a".toList] ∧
    getVar [("a".toList, ["b".toList])] 2 ["a".toList, "b".toList, "-b".toList] 3 false false =
      some ["b".toList, "a".toList, "b".toList] ∧
    getVar [("a".toList, ["b".toList])] 2
      ["a".toList, "b".toList, "-a".toList, "-b".toList] 3 false false =
      some ["b".toList] := by decide

/-- C20: without markers the value is the written items and everything that follows from
them. -/
theorem list_closure {m : Mapping} {depth n : Nat} {raw r : List Str} (hn : 3 ≤ n)
    (h : getVar m depth raw n false false = some r)
    (hraw : ∀ x ∈ raw, ¬ Marker x) (hm : ∀ y x, x ∈ (m.lookup y).getD [] → ¬ Marker x) (x : Str) :
    x ∈ r ↔ x ∈ raw ∨ ∃ y ∈ raw, Implies (fun y => (m.lookup y).getD []) y x := by
  obtain ⟨all, ha, hr⟩ := list_value_exact hn h
  have himp : ∀ y x, Implies (fun y => (m.lookup y).getD []) y x → ¬ Marker x := by
    intro y x hyx
    induction hyx with
    | direct h => exact hm _ _ h
    | trans _ _ ih => exact ih
  have hall : ∀ x ∈ all ++ raw, ¬ Marker x := by
    intro x hx
    rcases List.mem_append.1 hx with hx | hx
    · obtain ⟨y, _, hyx⟩ := (impliedAll_mem ha x).1 hx
      exact himp _ _ hyx
    · exact hraw x hx
  have h0 : ∀ x l, (∀ y ∈ l, ¬ Marker y) → requests x l = 0 := by
    intro x l hl
    have h1 : l.count ('-' :: x) = 0 :=
      List.count_eq_zero.2 fun hc => hl _ hc ⟨x, Or.inl rfl⟩
    have h2 : l.count ('~' :: x) = 0 :=
      List.count_eq_zero.2 fun hc => hl _ hc ⟨x, Or.inr rfl⟩
    unfold requests
    omega
  rw [hr, h0 _ _ hall]
  constructor
  · rintro ⟨_, _, h | ⟨y, hy, _, _, hyx⟩⟩
    · exact Or.inl h
    · exact Or.inr ⟨y, hy, hyx⟩
  · intro hx
    have hmem : x ∈ all ++ raw := by
      rw [List.mem_append]
      rcases hx with hx | hx
      · exact Or.inr hx
      · exact Or.inl ((impliedAll_mem ha x).2 hx)
    refine ⟨hall x hmem, List.count_pos_iff.2 hmem, ?_⟩
    rcases hx with hx | ⟨y, hy, hyx⟩
    · exact Or.inl hx
    · refine Or.inr ⟨y, hy, hraw y hy, ?_, hyx⟩
      rw [h0 _ _ hraw]
      exact List.count_pos_iff.2 hy

example : ∃ r, getVar exMap 3 ["a".toList, "x".toList] 3 false false = some r ∧
    "c".toList ∈ r ∧ "x".toList ∈ r ∧ "y".toList ∉ r := ⟨_, rfl, by decide⟩

end Isar.Lists
