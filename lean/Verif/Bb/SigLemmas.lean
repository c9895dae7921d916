import Verif.Bb.SigSpec
/-!
# Lemmas about the search for dependencies
-/

namespace Bb.Sig
open Py

/-- The dictionaries have what `build_dependencies` gives, and the same keys. -/
def CacheOk (s : Store) (c : Cache) : Prop := ∀ k,
  (c.deps.lookup k = none ∧ c.values.lookup k = none) ∨
    (c.deps.lookup k = some (buildDeps s k).1 ∧ c.values.lookup k = some (buildDeps s k).2)

def Has (c : Cache) (k : Str) : Prop := (c.deps.lookup k).isSome = true

theorem CacheOk.get {s : Store} {c : Cache} (h : CacheOk s c) {k : Str} (hk : Has c k) :
    c.deps.lookup k = some (buildDeps s k).1 ∧ c.values.lookup k = some (buildDeps s k).2 := by
  rcases h k with h | h
  · unfold Has at hk
    rw [h.1] at hk
    cases hk
  · exact h

/-- A cache with one more name. -/
def put (s : Store) (c : Cache) (k : Str) : Cache :=
  ⟨Dict.set c.deps k (buildDeps s k).1, Dict.set c.values k (buildDeps s k).2⟩

theorem put_ok {s : Store} {c : Cache} (h : CacheOk s c) (k : Str) : CacheOk s (put s c k) := by
  intro j
  unfold put
  dsimp only
  rw [Dict.lookup_set, Dict.lookup_set]
  by_cases e : j = k
  · subst e
    right
    rw [if_pos rfl, if_pos rfl]
    exact ⟨rfl, rfl⟩
  · rw [if_neg e, if_neg e]
    exact h j

theorem put_has {s : Store} {c : Cache} (k j : Str) : Has (put s c k) j ↔ j = k ∨ Has c j := by
  unfold Has put
  dsimp only
  rw [Dict.lookup_set]
  by_cases e : j = k
  · rw [if_pos e]
    exact ⟨fun _ => Or.inl e, fun _ => rfl⟩
  · rw [if_neg e]
    exact ⟨Or.inr, fun h => h.resolve_left e⟩

theorem visit_ok {s : Store} {c : Cache} (h : CacheOk s c) (k : Str) : CacheOk s (visit s c k) := by
  unfold visit
  by_cases e : (c.deps.lookup k).isSome = true
  · rw [if_pos e]; exact h
  · rw [if_neg e]; exact put_ok h k

theorem visit_has {s : Store} {c : Cache} (k j : Str) : Has (visit s c k) j ↔ j = k ∨ Has c j := by
  unfold visit
  by_cases e : (c.deps.lookup k).isSome = true
  · rw [if_pos e]
    refine ⟨Or.inr, ?_⟩
    rintro (rfl | h)
    · exact e
    · exact h
  · rw [if_neg e]; exact put_has k j

theorem visits_ok {s : Store} (l : List Str) {c : Cache} (h : CacheOk s c) :
    CacheOk s (l.foldl (visit s) c) := by
  induction l generalizing c with
  | nil => exact h
  | cons k l ih => exact ih (visit_ok h k)

theorem visits_has {s : Store} (l : List Str) {c : Cache} (j : Str) :
    Has (l.foldl (visit s) c) j ↔ j ∈ l ∨ Has c j := by
  induction l generalizing c with
  | nil => exact ⟨Or.inr, fun h => h.resolve_left (fun h => nomatch h)⟩
  | cons k l ih =>
    rw [List.foldl_cons, ih, visit_has, List.mem_cons]
    constructor
    · rintro (h | h | h)
      · exact Or.inl (Or.inr h)
      · exact Or.inl (Or.inl h)
      · exact Or.inr h
    · rintro ((h | h) | h)
      · exact Or.inr (Or.inl h)
      · exact Or.inl h
      · exact Or.inr (Or.inr h)

theorem fill_ok {s : Store} (n : Nat) (new seen : List Str) {c : Cache} (h : CacheOk s c) :
    CacheOk s (fill s n new seen c) := by
  induction n generalizing new seen c with
  | zero => exact h
  | succ n ih =>
    unfold fill
    by_cases e : new = []
    · rw [if_pos e]; exact h
    · rw [if_neg e]; exact ih _ _ (visits_ok new h)

theorem fill_mono {s : Store} (n : Nat) (new seen : List Str) {c : Cache} {k : Str} (h : Has c k) :
    Has (fill s n new seen c) k := by
  induction n generalizing new seen c with
  | zero => exact h
  | succ n ih =>
    unfold fill
    by_cases e : new = []
    · rw [if_pos e]; exact h
    · rw [if_neg e]; exact ih _ _ ((visits_has new k).2 (Or.inr h))

theorem mem_minus {l m : List Str} {x : Str} : x ∈ minus l m ↔ x ∈ l ∧ x ∉ m := by
  unfold minus
  rw [List.mem_filter, decide_eq_true_iff]

/-- What is left to be seen gets less. -/
theorem left_lt (U seen new : List Str) (x : Str) (hx : x ∈ new) (hU : x ∈ U) (hs : x ∉ seen) :
    (U.filter fun k => decide (k ∉ seen ++ new)).length < (U.filter fun k => decide (k ∉ seen)).length := by
  have e : (U.filter fun k => decide (k ∉ seen ++ new)) =
      (U.filter fun k => decide (k ∉ seen)).filter fun k => decide (k ∉ new) := by
    rw [List.filter_filter]
    congr 1
    funext k
    simp only [List.mem_append, not_or]
    by_cases h1 : k ∈ seen <;> by_cases h2 : k ∈ new <;> simp [h1, h2]
  rw [e]
  apply List.length_filter_lt_length_iff_exists.2
  refine ⟨x, ?_, ?_⟩
  · rw [List.mem_filter, decide_eq_true_iff]; exact ⟨hU, hs⟩
  · rw [decide_eq_true_iff]; exact fun h => h hx

/-- A set of names that is closed under dependencies and finite. -/
structure Bound (s : Store) (U : List Str) (V : Str → Prop) : Prop where
  fin : ∀ k, V k → k ∈ U
  closed : ∀ k, V k → ∀ j, j ∈ (buildDeps s k).1 → V j

theorem nexts {s : Store} {c : Cache} (h : CacheOk s c) (new : List Str) (hn : ∀ k, k ∈ new → Has c k)
    (y : Str) : y ∈ (new.map fun k => (c.deps.lookup k).getD []).flatten ↔
      ∃ k, k ∈ new ∧ y ∈ (buildDeps s k).1 := by
  rw [List.mem_flatten]
  constructor
  · rintro ⟨l, h1, h2⟩
    obtain ⟨k, hk, rfl⟩ := List.mem_map.1 h1
    rw [(h.get (hn k hk)).1] at h2
    exact ⟨k, hk, h2⟩
  · rintro ⟨k, hk, h2⟩
    refine ⟨_, List.mem_map.2 ⟨k, hk, rfl⟩, ?_⟩
    rw [(h.get (hn k hk)).1]
    exact h2

theorem fill_has {s : Store} {U : List Str} {V : Str → Prop} (b : Bound s U V) (n : Nat)
    (new seen : List Str) {c : Cache} (h : CacheOk s c) (hn : ∀ k, k ∈ new → V k ∧ k ∉ seen)
    (hs : ∀ k, k ∈ seen → Has c k)
    (hc : ∀ k, k ∈ seen → ∀ j, j ∈ (buildDeps s k).1 → j ∈ seen ++ new)
    (hf : (U.filter fun k => decide (k ∉ seen)).length < n) :
    ∃ all : List Str, (∀ k, k ∈ seen ++ new → k ∈ all) ∧
      (∀ k, k ∈ all → Has (fill s n new seen c) k) ∧
      ∀ k, k ∈ all → ∀ j, j ∈ (buildDeps s k).1 → j ∈ all := by
  induction n generalizing new seen c with
  | zero => exact absurd hf (Nat.not_lt_zero _)
  | succ n ih =>
    unfold fill
    by_cases e : new = []
    · subst e
      rw [if_pos rfl]
      rw [List.append_nil] at hc ⊢
      exact ⟨seen, fun k hk => hk, hs, hc⟩
    · rw [if_neg e]
      dsimp only
      have hok := visits_ok (s := s) new h
      have hall : ∀ k, k ∈ new → Has (new.foldl (visit s) c) k := fun k hk => (visits_has new k).2 (Or.inl hk)
      obtain ⟨x, l, rfl⟩ := List.exists_cons_of_ne_nil e
      have hx := hn x List.mem_cons_self
      have g1 : ∀ k, k ∈ minus (((x :: l).map fun k =>
          (((x :: l).foldl (visit s) c).deps.lookup k).getD []).flatten) (seen ++ (x :: l)) →
          V k ∧ k ∉ seen ++ (x :: l) := by
        intro k hk
        rw [mem_minus, nexts hok _ hall] at hk
        obtain ⟨⟨j, hj, hkj⟩, hk2⟩ := hk
        exact ⟨b.closed j (hn j hj).1 k hkj, hk2⟩
      have g2 : ∀ k, k ∈ seen ++ (x :: l) → Has ((x :: l).foldl (visit s) c) k := by
        intro k hk
        rcases List.mem_append.1 hk with hk | hk
        · exact (visits_has _ k).2 (Or.inr (hs k hk))
        · exact hall k hk
      have g3 : ∀ k, k ∈ seen ++ (x :: l) → ∀ j, j ∈ (buildDeps s k).1 →
          j ∈ (seen ++ (x :: l)) ++ minus (((x :: l).map fun k =>
            (((x :: l).foldl (visit s) c).deps.lookup k).getD []).flatten) (seen ++ (x :: l)) := by
        intro k hk j hj
        by_cases hm : j ∈ seen ++ (x :: l)
        · exact List.mem_append_left _ hm
        · refine List.mem_append_right _ (mem_minus.2 ⟨?_, hm⟩)
          rcases List.mem_append.1 hk with hk | hk
          · exact absurd (hc k hk j hj) hm
          · exact (nexts hok _ hall j).2 ⟨k, hk, hj⟩
      obtain ⟨all, a1, a2, a3⟩ := ih _ _ hok g1 g2 g3
        (Nat.lt_of_lt_of_le (left_lt U seen (x :: l) x List.mem_cons_self (b.fin x hx.1) hx.2)
          (Nat.le_of_lt_succ hf))
      exact ⟨all, fun k hk => a1 k (List.mem_append_left _ hk), a2, a3⟩

theorem lookAll_some {s : Store} {c : Cache} (h : CacheOk s c) (new : List Str)
    (hn : ∀ k, k ∈ new → Has c k) :
    ∃ next, lookAll c.deps new = some next ∧ ∀ y, y ∈ next ↔ ∃ k, k ∈ new ∧ y ∈ (buildDeps s k).1 := by
  induction new with
  | nil => exact ⟨[], rfl, fun y => ⟨fun h => (nomatch h), fun ⟨k, hk, _⟩ => (nomatch hk)⟩⟩
  | cons k new ih =>
    obtain ⟨next, e, hm⟩ := ih fun j hj => hn j (List.mem_cons_of_mem _ hj)
    refine ⟨(buildDeps s k).1 ++ next, ?_, ?_⟩
    · unfold lookAll
      rw [(h.get (hn k List.mem_cons_self)).1, e]
    · intro y
      rw [List.mem_append, hm]
      constructor
      · rintro (h | ⟨j, hj, hy⟩)
        · exact ⟨k, List.mem_cons_self, h⟩
        · exact ⟨j, List.mem_cons_of_mem _ hj, hy⟩
      · rintro ⟨j, hj, hy⟩
        rcases List.mem_cons.1 hj with rfl | hj
        · exact Or.inl hy
        · exact Or.inr ⟨j, hj, hy⟩

theorem closure_spec {s : Store} {U : List Str} {V : Str → Prop} (b : Bound s U V) (n : Nat)
    (new seen : List Str) {c : Cache} (h : CacheOk s c) (hv : ∀ k, V k → Has c k)
    (hn : ∀ k, k ∈ new → V k ∧ k ∉ seen)
    (hc : ∀ k, k ∈ seen → ∀ j, j ∈ (buildDeps s k).1 → j ∈ seen ++ new)
    (hf : (U.filter fun k => decide (k ∉ seen)).length < n) :
    ∃ all : List Str, closure c.deps n new seen = some all ∧ (∀ k, k ∈ seen ++ new → k ∈ all) ∧
      (∀ k, k ∈ all → ∀ j, j ∈ (buildDeps s k).1 → j ∈ all) ∧
      ∀ W : Str → Prop, (∀ k, k ∈ seen ++ new → W k) → (∀ k j, W k → j ∈ (buildDeps s k).1 → W j) →
        ∀ k, k ∈ all → W k := by
  induction n generalizing new seen with
  | zero => exact absurd hf (Nat.not_lt_zero _)
  | succ n ih =>
    unfold closure
    by_cases e : new = []
    · subst e
      rw [if_pos rfl]
      rw [List.append_nil] at hc ⊢
      exact ⟨seen, rfl, fun k hk => hk, hc, fun W h1 _ k hk => h1 k hk⟩
    · rw [if_neg e]
      obtain ⟨next, e1, hm⟩ := lookAll_some h new fun k hk => hv k (hn k hk).1
      rw [e1]
      dsimp only
      obtain ⟨x, l, rfl⟩ := List.exists_cons_of_ne_nil e
      have hx := hn x List.mem_cons_self
      have g1 : ∀ k, k ∈ minus next (seen ++ (x :: l)) → V k ∧ k ∉ seen ++ (x :: l) := by
        intro k hk
        obtain ⟨⟨j, hj, hkj⟩, hk2⟩ := (mem_minus.1 hk).imp (hm k).1 id
        exact ⟨b.closed j (hn j hj).1 k hkj, hk2⟩
      have g2 : ∀ k, k ∈ seen ++ (x :: l) → ∀ j, j ∈ (buildDeps s k).1 →
          j ∈ (seen ++ (x :: l)) ++ minus next (seen ++ (x :: l)) := by
        intro k hk j hj
        by_cases hmm : j ∈ seen ++ (x :: l)
        · exact List.mem_append_left _ hmm
        · refine List.mem_append_right _ (mem_minus.2 ⟨?_, hmm⟩)
          rcases List.mem_append.1 hk with hk | hk
          · exact absurd (hc k hk j hj) hmm
          · exact (hm j).2 ⟨k, hk, hj⟩
      obtain ⟨all, a1, a2, a3, a4⟩ := ih (minus next (seen ++ (x :: l))) (seen ++ (x :: l)) g1 g2
        (Nat.lt_of_lt_of_le (left_lt U seen (x :: l) x List.mem_cons_self (b.fin x hx.1) hx.2)
          (Nat.le_of_lt_succ hf))
      refine ⟨all, a1, fun k hk => a2 k (List.mem_append_left _ hk), a3, fun W h1 h2 => a4 W ?_ h2⟩
      intro k hk
      rcases List.mem_append.1 hk with hk | hk
      · exact h1 k hk
      · obtain ⟨⟨j, hj, hkj⟩, _⟩ := (mem_minus.1 hk).imp (hm k).1 id
        exact h2 j k (h1 j (List.mem_append_right _ hj)) hkj

theorem needs_of_closed {s : Store} {t : Str} {all : List Str}
    (h1 : ∀ k, k ∈ (buildDeps s t).1 → k ∈ all)
    (h2 : ∀ k, k ∈ all → ∀ j, j ∈ (buildDeps s k).1 → j ∈ all) {k : Str} (h : Needs s t k) : k ∈ all := by
  induction h with
  | direct h => exact h1 _ h
  | step _ hj ih => exact h2 _ ih _ hj

/-- The names that some task needs. -/
def Wanted (s : Store) (k : Str) : Prop := ∃ t, t ∈ s.tasks ∧ Needs s t k

theorem wanted_bound {s : Store} {U : List Str} (h : Within s U) : Bound s U (Wanted s) :=
  ⟨fun k ⟨t, ht, hk⟩ => h t ht k hk, fun _ ⟨t, ht, hk⟩ _ hj => ⟨t, ht, .step hk hj⟩⟩

theorem filter_nil_le (U : List Str) : (U.filter fun k => decide (k ∉ ([] : List Str))).length ≤ U.length :=
  List.length_filter_le _ _

theorem fillTask_ok {s : Store} (fuel : Nat) {c : Cache} (h : CacheOk s c) (t : Str) :
    CacheOk s (fillTask s fuel c t) := fill_ok _ _ _ (put_ok h t)

theorem fillTask_mono {s : Store} (fuel : Nat) {c : Cache} (t k : Str) (h : Has c k) :
    Has (fillTask s fuel c t) k := fill_mono _ _ _ ((put_has t k).2 (Or.inr h))

theorem fillTask_has {s : Store} {U : List Str} (hU : Within s U) {fuel : Nat} (hf : U.length < fuel)
    {c : Cache} (h : CacheOk s c) (t : Str) (ht : t ∈ s.tasks) :
    Has (fillTask s fuel c t) t ∧ ∀ k, Needs s t k → Has (fillTask s fuel c t) k := by
  constructor
  · exact fill_mono _ _ _ ((put_has t t).2 (Or.inl rfl))
  · intro k hk
    obtain ⟨all, a1, a2, a3⟩ := fill_has (wanted_bound hU) fuel (buildDeps s t).1 [] (put_ok h t)
      (fun k hk => ⟨⟨t, ht, .direct hk⟩, fun h => (nomatch h)⟩) (fun k hk => (nomatch hk))
      (fun k hk => (nomatch hk)) (Nat.lt_of_le_of_lt (filter_nil_le U) hf)
    exact a2 k (needs_of_closed (fun k hk => a1 k hk) a3 hk)

theorem fold_ok {s : Store} (fuel : Nat) (l : List Str) {c : Cache} (h : CacheOk s c) :
    CacheOk s (l.foldl (fillTask s fuel) c) := by
  induction l generalizing c with
  | nil => exact h
  | cons t l ih => exact ih (fillTask_ok fuel h t)

theorem fold_mono {s : Store} (fuel : Nat) (l : List Str) {c : Cache} {k : Str} (h : Has c k) :
    Has (l.foldl (fillTask s fuel) c) k := by
  induction l generalizing c with
  | nil => exact h
  | cons t l ih => exact ih (fillTask_mono fuel t k h)

theorem fold_has {s : Store} {U : List Str} (hU : Within s U) {fuel : Nat} (hf : U.length < fuel)
    (l : List Str) (hl : ∀ t, t ∈ l → t ∈ s.tasks) {c : Cache} (h : CacheOk s c) (t : Str) (ht : t ∈ l) :
    Has (l.foldl (fillTask s fuel) c) t ∧ ∀ k, Needs s t k → Has (l.foldl (fillTask s fuel) c) k := by
  induction l generalizing c with
  | nil => exact nomatch ht
  | cons x l ih =>
    rcases List.mem_cons.1 ht with rfl | ht
    · obtain ⟨h1, h2⟩ := fillTask_has hU hf h t (hl t List.mem_cons_self)
      exact ⟨fold_mono fuel l h1, fun k hk => fold_mono fuel l (h2 k hk)⟩
    · exact ih (fun y hy => hl y (List.mem_cons_of_mem _ hy)) (fillTask_ok fuel h x) ht

theorem generate_ok (s : Store) (fuel : Nat) : CacheOk s (generateDependencies s fuel) :=
  fold_ok fuel s.tasks fun _ => Or.inl ⟨rfl, rfl⟩

theorem generate_has {s : Store} {U : List Str} (hU : Within s U) {fuel : Nat} (hf : U.length < fuel)
    (t : Str) (ht : t ∈ s.tasks) :
    Has (generateDependencies s fuel) t ∧ ∀ k, Needs s t k → Has (generateDependencies s fuel) k :=
  fold_has hU hf s.tasks (fun _ h => h) (fun _ => Or.inl ⟨rfl, rfl⟩) t ht

theorem depData_some {s : Store} (vals : Dict (Option Str)) (l : List Str)
    (h : ∀ k, k ∈ l → vals.lookup k = some (buildDeps s k).2) :
    depData vals l = some ((l.map fun k => k ++ valueText s k).flatten) := by
  induction l with
  | nil => rfl
  | cons k l ih =>
    unfold depData
    rw [h k List.mem_cons_self, ih fun j hj => h j (List.mem_cons_of_mem _ hj)]
    rfl

/-- What is hashed. -/
theorem taskData_exact {s : Store} {U : List Str} (hU : Within s U) {fuel : Nat} (hf : U.length < fuel)
    (t : Str) (ht : t ∈ s.tasks) :
    ∃ L : List Str, L.Pairwise StrLt ∧ (∀ k, k ∈ L ↔ Needs s t k) ∧
      taskData (generateDependencies s fuel) fuel t =
        some (valueText s t ++ (L.map fun k => k ++ valueText s k).flatten, L) := by
  have ok := generate_ok s fuel
  have hh := generate_has hU hf t ht
  have hv : ∀ k, Wanted s k → Has (generateDependencies s fuel) k :=
    fun k ⟨t', ht', hk⟩ => (generate_has hU hf t' ht').2 k hk
  obtain ⟨all, a1, a2, a3, a4⟩ := closure_spec (wanted_bound hU) fuel (buildDeps s t).1 [] ok hv
    (fun k hk => ⟨⟨t, ht, .direct hk⟩, fun h => (nomatch h)⟩)
    (fun k hk => (nomatch hk)) (Nat.lt_of_le_of_lt (filter_nil_le U) hf)
  have hm : ∀ k, k ∈ sortSet all ↔ Needs s t k := by
    intro k
    rw [mem_sortSet]
    constructor
    · exact a4 (Needs s t) (fun k hk => .direct hk) (fun k j hk hj => .step hk hj) k
    · exact needs_of_closed (fun k hk => a2 k hk) a3
  refine ⟨sortSet all, sortSet_sorted all, hm, ?_⟩
  unfold taskData
  rw [(ok.get hh.1).1, (ok.get hh.1).2]
  dsimp only
  rw [a1]
  dsimp only
  rw [depData_some (s := s) _ _ fun k hk => (ok.get (hh.2 k ((hm k).1 hk))).2]
  rfl

end Bb.Sig
