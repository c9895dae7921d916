import Verif.Meta.ListsModel
import Verif.Meta.ListsSpec
/-! # Lemmas about list variables -/

namespace Isar.Lists
open Py Spec

/-! ## Counter -/

/-- The count of a key, 0 when missing. -/
def cget (c : Counter) (x : Str) : Int := (c.lookup x).getD 0

theorem cget_cons (k : Str) (n : Int) (c : Counter) (x : Str) :
    cget ((k, n) :: c) x = if x = k then n else cget c x := by
  unfold cget
  rw [List.lookup_cons]
  by_cases h : x = k
  · subst h; simp
  · have : (x == k) = false := by simpa using h
    simp only [this, h, if_false]

theorem cget_bump (k : Str) (d : Int) (c : Counter) (x : Str) :
    cget (bump k d c) x = cget c x + if x = k then d else 0 := by
  induction c with
  | nil =>
    simp only [bump, cget_cons]
    simp only [cget, List.lookup_nil, Option.getD_none]
    split <;> omega
  | cons e c ih =>
    obtain ⟨k', n⟩ := e
    simp only [bump]
    by_cases hk : k' = k
    · subst hk
      simp only [if_true, cget_cons]
      split <;> omega
    · simp only [hk, if_false, cget_cons, ih]
      by_cases hx : x = k'
      · subst hx; simp [hk]
      · simp [hx]

theorem keys_bump (k : Str) (d : Int) (c : Counter) :
    ((bump k d c).map (·.1)) = if k ∈ c.map (·.1) then c.map (·.1) else c.map (·.1) ++ [k] := by
  induction c with
  | nil => simp [bump]
  | cons e c ih =>
    obtain ⟨k', n⟩ := e
    simp only [bump]
    by_cases hk : k' = k
    · subst hk; simp
    · have hk' : k ≠ k' := fun h => hk h.symm
      simp only [hk, if_false, List.map_cons, ih, List.mem_cons, hk', false_or]
      split <;> simp

theorem mem_keys_bump (k : Str) (d : Int) (c : Counter) (x : Str) :
    x ∈ (bump k d c).map (·.1) ↔ x = k ∨ x ∈ c.map (·.1) := by
  rw [keys_bump]
  split
  · rename_i h
    constructor
    · exact Or.inr
    · rintro (rfl | h') <;> assumption
  · simp only [List.mem_append, List.mem_singleton]
    exact Or.comm

theorem nodup_bump (k : Str) (d : Int) (c : Counter) (h : (c.map (·.1)).Nodup) :
    ((bump k d c).map (·.1)).Nodup := by
  rw [keys_bump]
  split
  · exact h
  · rename_i hk
    rw [List.nodup_append]
    refine ⟨h, by simp, ?_⟩
    intro a ha b hb
    simp only [List.mem_singleton] at hb
    subst hb
    rintro rfl
    exact hk ha

theorem mem_entries (c : Counter) (h : (c.map (·.1)).Nodup) (x : Str) (n : Int) :
    (x, n) ∈ c ↔ x ∈ c.map (·.1) ∧ cget c x = n := by
  induction c with
  | nil => simp
  | cons e c ih =>
    obtain ⟨k', m⟩ := e
    simp only [List.map_cons, List.nodup_cons] at h
    simp only [List.mem_cons, Prod.mk.injEq, List.map_cons, cget_cons, ih h.2]
    by_cases hx : x = k'
    · subst hx
      simp only [true_and, true_or, if_true]
      constructor
      · rintro (h' | ⟨h', _⟩)
        · exact h'.symm
        · exact absurd h' h.1
      · intro h'; exact Or.inl h'.symm
    · simp [hx]

theorem isMarker_iff (v : Str) : isMarker v = true ↔ Marker v := by
  unfold isMarker Marker
  split
  · simp
  · simp
  · rename_i h1 h2
    simp only [Bool.false_eq_true, false_iff]
    rintro ⟨x, rfl | rfl⟩
    · exact h1 _ rfl
    · exact h2 _ rfl

/-- What one word contributes to the count of `x`. -/
theorem cget_countWord (c : Counter) (v x : Str) :
    cget (countWord c v) x = cget c x
      + (if v = x ∧ isMarker v = false then 1 else 0)
      - (if v = '-' :: x then 1 else 0) - (if v = '~' :: x then 1 else 0)
      - (if v = x ∧ isMarker v = true then 1 else 0) := by
  unfold countWord
  by_cases hm : isMarker v = true
  · rw [if_pos hm]
    simp only [cget_bump, hm]
    have hm' := (isMarker_iff v).1 hm
    obtain ⟨y, rfl | rfl⟩ := hm'
    · simp only [List.tail_cons, List.cons.injEq, true_and]
      have : ¬ (('-' : Char) = '~') := by decide
      simp only [this, false_and, if_false, and_true, Bool.true_eq_false, and_false]
      have e1 : (x = y) = (y = x) := propext ⟨Eq.symm, Eq.symm⟩
      have e2 : (x = '-' :: y) = ('-' :: y = x) := propext ⟨Eq.symm, Eq.symm⟩
      simp only [e1, e2]
      split <;> split <;> omega
    · simp only [List.tail_cons, List.cons.injEq, true_and]
      have : ¬ (('~' : Char) = '-') := by decide
      simp only [this, false_and, if_false, and_true, Bool.true_eq_false, and_false]
      have e1 : (x = y) = (y = x) := propext ⟨Eq.symm, Eq.symm⟩
      have e2 : (x = '~' :: y) = ('~' :: y = x) := propext ⟨Eq.symm, Eq.symm⟩
      simp only [e1, e2]
      split <;> split <;> omega
  · have hf : isMarker v = false := by simpa using hm
    rw [if_neg hm]
    simp only [cget_bump, hf, and_true, Bool.false_eq_true, and_false, if_false]
    have h1 : v ≠ '-' :: x := by rintro rfl; simp [isMarker] at hf
    have h2 : v ≠ '~' :: x := by rintro rfl; simp [isMarker] at hf
    simp only [h1, h2, if_false]
    have e1 : (x = v) = (v = x) := propext ⟨Eq.symm, Eq.symm⟩
    simp only [e1]
    omega

theorem cget_foldl (l : List Str) (x : Str) : ∀ c : Counter,
    cget (l.foldl countWord c) x = cget c x
      + (if isMarker x then - (l.count x : Int) else (l.count x : Int)) - (requests x l : Int) := by
  induction l with
  | nil => intro c; simp [requests]
  | cons v l ih =>
    intro c
    rw [List.foldl_cons, ih, cget_countWord]
    unfold requests
    simp only [List.count_cons]
    have hb : ∀ (a b : Str), (if (a == b) = true then 1 else 0) = (if a = b then (1 : Nat) else 0) := by
      intro a b; simp
    simp only [hb]
    by_cases hv : v = x
    · subst hv
      cases hm : isMarker v <;> simp [hm] <;> omega
    · simp only [hv, false_and, if_false]
      split <;> split <;> split <;> omega

theorem keys_foldl (l : List Str) (x : Str) : ∀ c : Counter,
    x ∈ (l.foldl countWord c).map (·.1) ↔
      x ∈ c.map (·.1) ∨ x ∈ l ∨ '-' :: x ∈ l ∨ '~' :: x ∈ l := by
  induction l with
  | nil => intro c; simp
  | cons v l ih =>
    intro c
    rw [List.foldl_cons, ih]
    have hstep : x ∈ (countWord c v).map (·.1) ↔
        x ∈ c.map (·.1) ∨ x = v ∨ '-' :: x = v ∨ '~' :: x = v := by
      unfold countWord
      by_cases hm : isMarker v = true
      · rw [if_pos hm, mem_keys_bump, mem_keys_bump]
        obtain ⟨y, rfl | rfl⟩ := (isMarker_iff v).1 hm
        · simp only [List.tail_cons, List.cons.injEq, true_and,
            show ¬ (('~' : Char) = '-') by decide, false_and, or_false]
          grind
        · simp only [List.tail_cons, List.cons.injEq, true_and,
            show ¬ (('-' : Char) = '~') by decide, false_and, false_or]
          grind
      · rw [if_neg hm, mem_keys_bump]
        have h1 : '-' :: x ≠ v := by rintro rfl; simp [isMarker] at hm
        have h2 : '~' :: x ≠ v := by rintro rfl; simp [isMarker] at hm
        simp only [h1, h2, or_false]
        exact Or.comm
    rw [hstep]
    simp only [List.mem_cons]
    grind

theorem nodup_foldl (l : List Str) : ∀ c : Counter, (c.map (·.1)).Nodup →
    ((l.foldl countWord c).map (·.1)).Nodup := by
  induction l with
  | nil => intro c h; exact h
  | cons v l ih =>
    intro c h
    rw [List.foldl_cons]
    apply ih
    unfold countWord
    split
    · exact nodup_bump _ _ _ (nodup_bump _ _ _ h)
    · exact nodup_bump _ _ _ h

/-- The words to be removed, for words of the list. -/
theorem mem_removalList (l : List Str) (x : Str) (hx : x ∈ l) :
    x ∈ removalList l ↔ Marker x ∨ l.count x ≤ requests x l := by
  unfold removalList
  have hnd := nodup_foldl l [] (by simp)
  rw [List.mem_map]
  have hk : x ∈ (l.foldl countWord []).map (·.1) := (keys_foldl l x []).2 (Or.inr (Or.inl hx))
  have hg := cget_foldl l x []
  have h0 : cget [] x = 0 := rfl
  have hcount : 0 < l.count x := List.count_pos_iff.2 hx
  rw [h0] at hg
  have key : (∃ a, a ∈ (l.foldl countWord []).filter (fun e => decide (e.2 < 1)) ∧ a.1 = x) ↔
      cget (l.foldl countWord []) x < 1 := by
    constructor
    · rintro ⟨⟨a, n⟩, ha, rfl⟩
      rw [List.mem_filter, mem_entries _ hnd] at ha
      obtain ⟨⟨_, h1⟩, h2⟩ := ha
      rw [h1]
      simpa using h2
    · intro h
      refine ⟨(x, cget (l.foldl countWord []) x), ?_, rfl⟩
      rw [List.mem_filter, mem_entries _ hnd]
      exact ⟨⟨hk, rfl⟩, by simpa using h⟩
  rw [key, hg, ← isMarker_iff]
  cases isMarker x <;> simp <;> omega

/-! ## Implied items -/

theorem impliedEach_mono {f : Str → List Str → Option (List Str × List Str)}
    {is : List Str} : ∀ {seen o s'},
    (∀ i s o s', f i s = some (o, s') → ∀ x, x ∈ s → x ∈ s') →
    impliedEach f is seen = some (o, s') → ∀ x, x ∈ seen → x ∈ s' := by
  induction is with
  | nil =>
    intro seen o s' _ h x hx
    simp only [impliedEach, Option.some.injEq, Prod.mk.injEq] at h
    rw [← h.2]; exact hx
  | cons i is ih =>
    intro seen o s' hf h x hx
    simp only [impliedEach] at h
    cases h1 : f i seen with
    | none => rw [h1] at h; cases h
    | some r =>
      obtain ⟨o1, s1⟩ := r
      rw [h1] at h
      simp only at h
      cases h2 : impliedEach f is s1 with
      | none => rw [h2] at h; cases h
      | some r =>
        obtain ⟨o2, s2⟩ := r
        rw [h2] at h
        simp only [Option.some.injEq, Prod.mk.injEq] at h
        rw [← h.2]
        exact ih hf h2 x (hf _ _ _ _ h1 x hx)

theorem impliedItems_mono (m : Mapping) : ∀ n i s o s',
    impliedItems m n i s = some (o, s') → ∀ x, x ∈ s → x ∈ s' := by
  intro n
  induction n with
  | zero => intro i s o s' h; simp [impliedItems] at h
  | succ n ih =>
    intro i s o s' h x hx
    simp only [impliedItems] at h
    by_cases hi : i ∈ s
    · simp only [hi, if_true, Option.some.injEq, Prod.mk.injEq] at h
      rw [← h.2]; exact hx
    · simp only [hi, if_false] at h
      cases h1 : impliedEach (impliedItems m n) (lookup m i) (i :: s) with
      | none => rw [h1] at h; cases h
      | some r =>
        obtain ⟨o1, s1⟩ := r
        rw [h1] at h
        simp only [Option.some.injEq, Prod.mk.injEq] at h
        rw [← h.2]
        exact impliedEach_mono ih h1 x (List.mem_cons_of_mem _ hx)

/-- The keys not seen so far. -/
def unseen (m : Mapping) (seen : List Str) : Nat := ((m.map (·.1)).filter (· ∉ seen)).length

theorem filter_length_le {α} (l : List α) (p q : α → Bool) (h : ∀ a ∈ l, p a = true → q a = true) :
    (l.filter p).length ≤ (l.filter q).length := by
  induction l with
  | nil => simp
  | cons a l ih =>
    have ih := ih fun b hb => h b (List.mem_cons_of_mem _ hb)
    have ha := h a List.mem_cons_self
    simp only [List.filter_cons]
    cases hp : p a <;> cases hq : q a <;> simp <;> first | omega | (simp [hp, hq] at ha)

theorem filter_length_lt {α} (l : List α) (p q : α → Bool) (h : ∀ a ∈ l, p a = true → q a = true)
    {b : α} (hb : b ∈ l) (hpb : p b = false) (hqb : q b = true) :
    (l.filter p).length < (l.filter q).length := by
  induction l with
  | nil => simp at hb
  | cons a l ih =>
    have ha := h a List.mem_cons_self
    have hle := filter_length_le l p q fun b hb => h b (List.mem_cons_of_mem _ hb)
    simp only [List.filter_cons]
    rcases List.mem_cons.1 hb with rfl | hb
    · simp only [hpb, hqb, if_true, List.length_cons, Bool.false_eq_true, if_false]; omega
    · have ih := ih (fun b hb => h b (List.mem_cons_of_mem _ hb)) hb
      cases hp : p a <;> cases hq : q a <;> simp <;> first | omega | (simp [hp, hq] at ha)

theorem unseen_mono (m : Mapping) {s s' : List Str} (h : ∀ x, x ∈ s → x ∈ s') :
    unseen m s' ≤ unseen m s := by
  apply filter_length_le
  intro a _ ha
  simp only [decide_eq_true_eq] at ha ⊢
  exact fun h' => ha (h a h')

theorem unseen_lt (m : Mapping) {s : List Str} {i : Str} (hk : i ∈ m.map (·.1)) (hi : i ∉ s) :
    unseen m (i :: s) < unseen m s := by
  apply filter_length_lt _ _ _ _ hk
  · simp
  · simpa using hi
  · intro a _ ha
    simp only [decide_eq_true_eq, List.mem_cons, not_or] at ha ⊢
    exact ha.2

theorem lookup_nil_of_not_key (m : Mapping) {i : Str} (h : i ∉ m.map (·.1)) : lookup m i = [] := by
  unfold lookup
  have : m.lookup i = none := by
    induction m with
    | nil => rfl
    | cons e m ih =>
      obtain ⟨k, v⟩ := e
      simp only [List.map_cons, List.mem_cons, not_or] at h
      rw [List.lookup_cons]
      have : (i == k) = false := by simpa using h.1
      simp only [this, ih h.2]
  rw [this]; rfl

theorem impliedEach_total (m : Mapping) (n : Nat)
    (hf : ∀ i s, unseen m s + 1 ≤ n → ∃ r, impliedItems m n i s = some r) :
    ∀ (is s), unseen m s + 1 ≤ n → ∃ r, impliedEach (impliedItems m n) is s = some r := by
  intro is
  induction is with
  | nil => intro s _; exact ⟨_, rfl⟩
  | cons i is ih =>
    intro s hs
    obtain ⟨⟨o1, s1⟩, h1⟩ := hf i s hs
    have hm := unseen_mono m (impliedItems_mono m n i s o1 s1 h1)
    obtain ⟨⟨o2, s2⟩, h2⟩ := ih s1 (by omega)
    simp only [impliedEach, h1, h2, Option.some.injEq, exists_eq']

theorem impliedItems_total (m : Mapping) : ∀ n i s, unseen m s + 1 ≤ n →
    ∃ r, impliedItems m n i s = some r := by
  intro n
  induction n with
  | zero => intro i s h; omega
  | succ n ih =>
    intro i s h
    simp only [impliedItems]
    by_cases hi : i ∈ s
    · simp only [hi, if_true, Option.some.injEq, exists_eq']
    · simp only [hi, if_false]
      by_cases hk : i ∈ m.map (·.1)
      · have := unseen_lt m hk hi
        obtain ⟨⟨o1, s1⟩, h1⟩ := impliedEach_total m n ih (lookup m i) (i :: s) (by omega)
        simp only [h1, Option.some.injEq, exists_eq']
      · rw [lookup_nil_of_not_key m hk]
        exact ⟨_, rfl⟩

theorem unseen_nil_le (m : Mapping) : unseen m [] ≤ m.length := by
  unfold unseen
  exact Nat.le_trans (List.length_filter_le _ _) (by simp)

theorem impliedAll_total (m : Mapping) (n : Nat) (h : m.length < n) (l : List Str) :
    ∃ r, impliedAll m n l = some r := by
  induction l with
  | nil => exact ⟨_, rfl⟩
  | cons f fs ih =>
    obtain ⟨os, hos⟩ := ih
    have := unseen_nil_le m
    obtain ⟨⟨o, s⟩, h1⟩ := impliedItems_total m n f [] (by omega)
    simp only [impliedAll, h1, hos, Option.some.injEq, exists_eq']

/-- Outputs of a call: everything reachable; and nodes newly seen have all their children seen
and printed. -/
theorem impliedEach_inv (m : Mapping) (f : Str → List Str → Option (List Str × List Str))
    (hsound : ∀ i s o s', f i s = some (o, s') → ∀ x ∈ o, Implies (lookup m) i x)
    (hclosed : ∀ i s o s', f i s = some (o, s') →
      i ∈ s' ∧ (∀ x ∈ s, x ∈ s') ∧
      ∀ v ∈ s', v ∉ s → ∀ w ∈ lookup m v, w ∈ s' ∧ w ∈ o) :
    ∀ is s o s', impliedEach f is s = some (o, s') →
      (∀ x ∈ o, ∃ i ∈ is, Implies (lookup m) i x) ∧
      (∀ i ∈ is, i ∈ s') ∧ (∀ x ∈ s, x ∈ s') ∧
      ∀ v ∈ s', v ∉ s → ∀ w ∈ lookup m v, w ∈ s' ∧ w ∈ o := by
  intro is
  induction is with
  | nil =>
    intro s o s' h
    simp only [impliedEach, Option.some.injEq, Prod.mk.injEq] at h
    obtain ⟨rfl, rfl⟩ := h
    refine ⟨by simp, by simp, fun x h => h, fun v hv hv' => absurd hv hv'⟩
  | cons i is ih =>
    intro s o s' h
    simp only [impliedEach] at h
    cases h1 : f i s with
    | none => rw [h1] at h; cases h
    | some r =>
      obtain ⟨o1, s1⟩ := r
      rw [h1] at h
      simp only at h
      cases h2 : impliedEach f is s1 with
      | none => rw [h2] at h; cases h
      | some r =>
        obtain ⟨o2, s2⟩ := r
        rw [h2] at h
        simp only [Option.some.injEq, Prod.mk.injEq] at h
        obtain ⟨rfl, rfl⟩ := h
        obtain ⟨a1, a2, a3, a4⟩ := ih _ _ _ h2
        obtain ⟨b2, b3, b4⟩ := hclosed _ _ _ _ h1
        have b1 := hsound _ _ _ _ h1
        refine ⟨?_, ?_, fun x hx => a3 x (b3 x hx), ?_⟩
        · intro x hx
          rcases List.mem_append.1 hx with hx | hx
          · exact ⟨i, List.mem_cons_self, b1 x hx⟩
          · obtain ⟨j, hj, h⟩ := a1 x hx
            exact ⟨j, List.mem_cons_of_mem _ hj, h⟩
        · intro j hj
          rcases List.mem_cons.1 hj with rfl | hj
          · exact a3 _ b2
          · exact a2 _ hj
        · intro v hv hvs w hw
          by_cases hv1 : v ∈ s1
          · obtain ⟨c1, c2⟩ := b4 v hv1 hvs w hw
            exact ⟨a3 _ c1, List.mem_append.2 (Or.inl c2)⟩
          · obtain ⟨c1, c2⟩ := a4 v hv hv1 w hw
            exact ⟨c1, List.mem_append.2 (Or.inr c2)⟩

theorem impliedItems_inv (m : Mapping) : ∀ n i s o s', impliedItems m n i s = some (o, s') →
    (∀ x ∈ o, Implies (lookup m) i x) ∧
    (i ∈ s' ∧ (∀ x ∈ s, x ∈ s') ∧
      ∀ v ∈ s', v ∉ s → ∀ w ∈ lookup m v, w ∈ s' ∧ w ∈ o) := by
  intro n
  induction n with
  | zero => intro i s o s' h; simp [impliedItems] at h
  | succ n ih =>
    intro i s o s' h
    simp only [impliedItems] at h
    by_cases hi : i ∈ s
    · simp only [hi, if_true, Option.some.injEq, Prod.mk.injEq] at h
      obtain ⟨rfl, rfl⟩ := h
      exact ⟨by simp, hi, fun x h => h, fun v hv hv' => absurd hv hv'⟩
    · simp only [hi, if_false] at h
      cases h1 : impliedEach (impliedItems m n) (lookup m i) (i :: s) with
      | none => rw [h1] at h; cases h
      | some r =>
        obtain ⟨o1, s1⟩ := r
        rw [h1] at h
        simp only [Option.some.injEq, Prod.mk.injEq] at h
        obtain ⟨rfl, rfl⟩ := h
        obtain ⟨a1, a2, a3, a4⟩ := impliedEach_inv m (impliedItems m n)
          (fun i s o s' h => (ih i s o s' h).1) (fun i s o s' h => (ih i s o s' h).2) _ _ _ _ h1
        refine ⟨?_, a3 _ List.mem_cons_self, fun x hx => a3 _ (List.mem_cons_of_mem _ hx), ?_⟩
        · intro x hx
          rcases List.mem_append.1 hx with hx | hx
          · exact .direct hx
          · obtain ⟨j, hj, h⟩ := a1 x hx
            exact .trans hj h
        · intro v hv hvs w hw
          by_cases hvi : v = i
          · subst hvi
            exact ⟨a2 w hw, List.mem_append.2 (Or.inl hw)⟩
          · obtain ⟨c1, c2⟩ := a4 v hv (by simp [hvi, hvs]) w hw
            exact ⟨c1, List.mem_append.2 (Or.inr c2)⟩

theorem impliedItems_mem {m : Mapping} {n : Nat} {i : Str} {o s' : List Str}
    (h : impliedItems m n i [] = some (o, s')) (x : Str) :
    x ∈ o ↔ Implies (lookup m) i x := by
  obtain ⟨a, b, _, c⟩ := impliedItems_inv m n i [] o s' h
  refine ⟨a x, fun hx => ?_⟩
  clear a
  have gen : ∀ y x, Implies (lookup m) y x → y ∈ s' → x ∈ o := by
    intro y x hyx
    induction hyx with
    | direct h => intro hy; exact (c _ hy (by simp) _ h).2
    | trans h _ ih => intro hy; exact ih (c _ hy (by simp) _ h).1
  exact gen _ _ hx b

theorem impliedAll_mem {m : Mapping} {n : Nat} {l : List Str} : ∀ {r : List Str},
    impliedAll m n l = some r → ∀ x, x ∈ r ↔ ∃ y ∈ l, Implies (lookup m) y x := by
  induction l with
  | nil => intro r h x; simp only [impliedAll, Option.some.injEq] at h; subst h; simp
  | cons f fs ih =>
    intro r h x
    simp only [impliedAll] at h
    cases h1 : impliedItems m n f [] with
    | none => rw [h1] at h; cases h
    | some q =>
      obtain ⟨o, s⟩ := q
      rw [h1] at h
      simp only at h
      cases h2 : impliedAll m n fs with
      | none => rw [h2] at h; cases h
      | some os =>
        rw [h2] at h
        simp only [Option.some.injEq] at h
        subst h
        rw [List.mem_append, impliedItems_mem h1, ih h2]
        simp

end Isar.Lists
