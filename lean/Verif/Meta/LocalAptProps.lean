import Verif.Meta.LocalAptModel
/-!
# A build sees the local repository as it was
-/

namespace Meta.LocalApt
open Py

/-! ## Specification -/

/-- The content of a package that was deployed last and not removed since. -/
def deployed : List Op → Str → Option Str
  | [], _ => none
  | .add n c :: ops, m => if m = n then some c else deployed ops m
  | .remove n :: ops, m => if m = n then none else deployed ops m
  | _ :: ops, m => deployed ops m

/-- A history of a copy: what comes after concerns the repository and other copies. -/
def Elsewhere (i : Nat) : Op → Prop
  | .copy j => j ≠ i
  | .stopped j _ => j ≠ i
  | _ => True

/-! ## Lemmas -/

theorem set_keys (d : Dict Nat) (k : Str) (v : Nat) (h : (d.map (·.1)).Nodup) : ((d.set k v).map (·.1)).Nodup := by
  unfold Dict.set
  split
  · have : (d.map fun e => if e.1 = k then (k, v) else e).map (·.1) = d.map (·.1) := by
      rw [List.map_map]
      refine List.map_congr_left fun e _ => ?_
      show (if e.1 = k then (k, v) else e).1 = e.1
      split
      · next h => exact h.symm
      · rfl
    rw [this]; exact h
  · next hn =>
    rw [List.map_append, List.nodup_append]
    refine ⟨h, by simp, fun a ha b hb => ?_⟩
    rw [List.map_cons, List.map_nil, List.mem_singleton] at hb
    subst hb
    rintro rfl
    obtain ⟨e, he, h1⟩ := List.mem_map.1 ha
    have hnone : d.lookup _ = none := Option.not_isSome_iff_eq_none.1 hn
    rw [List.lookup_eq_none_iff] at hnone
    have := hnone e he
    rw [bne_iff_ne] at this
    exact this h1.symm

theorem link_lookup (n : Str) : ∀ (from_ : Dict Nat) (to_ : Dict Nat), (from_.map (·.1)).Nodup →
    (link from_ to_).lookup n = (from_.lookup n).or (to_.lookup n)
  | [], to_, _ => rfl
  | (m, k) :: l, to_, h => by
    rw [List.map_cons, List.nodup_cons] at h
    show (link l (to_.set m k)).lookup n = _
    rw [link_lookup n l _ h.2, Dict.lookup_set, List.lookup_cons]
    by_cases hc : n = m
    · subst hc
      have : l.lookup n = none := by
        rw [List.lookup_eq_none_iff]
        intro e he
        rw [bne_iff_ne]
        rintro rfl
        exact h.1 (List.mem_map.2 ⟨e, he, rfl⟩)
      rw [this, if_pos rfl, beq_self_eq_true]; rfl
    · rw [if_neg hc, beq_eq_false_iff_ne.2 hc]

structure Inv (w : World) : Prop where
  keys : (w.pool.map (·.1)).Nodup
  pool : ∀ n k, w.pool.lookup n = some k → k < w.next
  copies : ∀ i n k, (w.copies i).pool.lookup n = some k → k < w.next
  index : ∀ n c, (n, c) ∈ w.index → ∃ k, w.pool.lookup n = some k ∧ w.store k = c

theorem copySteps_small {w : World} (h : Inv w) {c : Copy} (hc : ∀ n k, c.pool.lookup n = some k → k < w.next) (s : Nat) :
    ∀ n k, (copySteps w c s).pool.lookup n = some k → k < w.next := by
  intro n k hk
  cases s with
  | zero => exact hc n k hk
  | succ s =>
    have hk : (link (w.pool.take s) c.pool).lookup n = some k := hk
    rw [link_lookup n _ _ ((List.take_sublist s w.pool).map _ |> h.keys.sublist)] at hk
    cases hl : (w.pool.take s).lookup n with
    | none => rw [hl] at hk; exact hc n k hk
    | some j =>
      rw [hl] at hk
      have hk : some j = some k := hk
      injection hk with hk
      subst hk
      -- the entry is in the whole pool, which has it once
      have h1 : (link w.pool []).lookup n = (w.pool.lookup n).or none := link_lookup n _ _ h.keys
      refine h.pool n j ?_
      have h2 := List.take_append_drop s w.pool
      rw [← h2, List.lookup_append, hl]; rfl

theorem inv_step {w : World} (h : Inv w) (op : Op) : Inv (step w op) := by
  cases op with
  | add n c =>
    refine ⟨set_keys _ _ _ h.keys, fun m k hk => ?_, fun i m k hk => Nat.lt_succ_of_lt (h.copies i m k hk), fun m x hm => ?_⟩
    · have hk : (w.pool.set n w.next).lookup m = some k := hk
      show k < w.next + 1
      rw [Dict.lookup_set] at hk
      split at hk
      · injection hk with hk; omega
      · exact Nat.lt_succ_of_lt (h.pool m k hk)
    · have hm : (m, x) ∈ (n, c) :: w.index.filter fun e => decide (e.1 ≠ n) := hm
      show ∃ k, (w.pool.set n w.next).lookup m = some k ∧ (if k = w.next then c else w.store k) = x
      rw [Dict.lookup_set]
      rcases List.mem_cons.1 hm with hm | hm
      · injection hm with h1 h2
        subst h1; subst h2
        exact ⟨w.next, if_pos rfl, if_pos rfl⟩
      · obtain ⟨h1, h2⟩ := List.mem_filter.1 hm
        obtain ⟨k, h3, h4⟩ := h.index m x h1
        have hne : m ≠ n := of_decide_eq_true h2
        refine ⟨k, by rw [if_neg hne]; exact h3, ?_⟩
        rw [if_neg (by have := h.pool m k h3; omega)]
        exact h4
  | remove n =>
    refine ⟨h.keys.sublist (List.filter_sublist.map _), fun m k hk => ?_, h.copies, fun m x hm => ?_⟩
    · have hk : (w.pool.del n).lookup m = some k := hk
      rw [Dict.lookup_del] at hk
      split at hk
      · cases hk
      · exact h.pool m k hk
    · obtain ⟨h1, h2⟩ := List.mem_filter.1 hm
      obtain ⟨k, h3, h4⟩ := h.index m x h1
      have hne : m ≠ n := of_decide_eq_true h2
      refine ⟨k, ?_, h4⟩
      show (w.pool.del n).lookup m = some k
      rw [Dict.lookup_del, if_neg hne]
      exact h3
  | copy i =>
    refine ⟨h.keys, h.pool, fun j n k hk => ?_, h.index⟩
    have hk : (if j = i then copySteps w (w.copies j) (w.pool.length + 1) else w.copies j).pool.lookup n = some k := hk
    split at hk
    · exact copySteps_small h (h.copies j) _ n k hk
    · exact h.copies j n k hk
  | stopped i s =>
    refine ⟨h.keys, h.pool, fun j n k hk => ?_, h.index⟩
    have hk : (if j = i then copySteps w (w.copies j) s else w.copies j).pool.lookup n = some k := hk
    split at hk
    · exact copySteps_small h (h.copies j) _ n k hk
    · exact h.copies j n k hk

theorem inv_run : ∀ (ops : List Op) {w : World}, Inv w → Inv (run w ops)
  | [], _, h => h
  | op :: ops, _, h => inv_run ops (inv_step h op)

theorem inv_start : Inv start := ⟨List.nodup_nil, nofun, nofun, nofun⟩

/-- The index lists what was deployed last. -/
theorem index_deployed (n c : Str) : ∀ ops : List Op, (n, c) ∈ (run start ops.reverse).index ↔ deployed ops n = some c
  | [] => by
    show (n, c) ∈ ([] : List (Str × Str)) ↔ none = some c
    simp
  | op :: ops => by
    have ih := index_deployed n c ops
    have e : run start (op :: ops).reverse = step (run start ops.reverse) op := by
      unfold run
      rw [List.reverse_cons, List.foldl_append]; rfl
    rw [e]
    cases op with
    | add m x =>
      show (n, c) ∈ (m, x) :: (run start ops.reverse).index.filter _ ↔ (if n = m then some x else deployed ops n) = some c
      rw [List.mem_cons, List.mem_filter, ih, decide_eq_true_iff, Prod.mk.injEq]
      by_cases h : n = m
      · subst h
        rw [if_pos rfl]
        constructor
        · rintro (⟨_, rfl⟩ | ⟨_, h⟩)
          · rfl
          · exact absurd rfl h
        · intro h; injection h with h; exact Or.inl ⟨rfl, h.symm⟩
      · rw [if_neg h]
        constructor
        · rintro (⟨h', _⟩ | ⟨h', _⟩)
          · exact absurd h' h
          · exact h'
        · intro h'; exact Or.inr ⟨h', h⟩
    | remove m =>
      show (n, c) ∈ (run start ops.reverse).index.filter _ ↔ (if n = m then none else deployed ops n) = some c
      rw [List.mem_filter, ih, decide_eq_true_iff]
      by_cases h : n = m
      · rw [if_pos h]
        constructor
        · rintro ⟨_, h'⟩; exact absurd h h'
        · intro h'; cases h'
      · rw [if_neg h]
        exact ⟨fun h' => h'.1, fun h' => ⟨h', h⟩⟩
    | copy i => exact ih
    | stopped i k => exact ih

/-- Files keep their contents, and a copy changes only with its own recipe. -/
theorem kept {i : Nat} : ∀ (ops : List Op) {w : World}, Inv w → (∀ op, op ∈ ops → Elsewhere i op) →
    (run w ops).copies i = w.copies i ∧ ∀ k, k < w.next → (run w ops).store k = w.store k
  | [], _, _, _ => ⟨rfl, fun _ _ => rfl⟩
  | op :: ops, w, h, he => by
    obtain ⟨h1, h2⟩ := kept ops (inv_step h op) fun o ho => he o (List.mem_cons_of_mem _ ho)
    have ho := he op List.mem_cons_self
    show (run (step w op) ops).copies i = _ ∧ _
    rw [h1]
    cases op with
    | add n c =>
      refine ⟨rfl, fun k hk => (h2 k (Nat.lt_succ_of_lt hk)).trans ?_⟩
      show (if k = w.next then c else w.store k) = w.store k
      rw [if_neg (by omega)]
    | remove n => exact ⟨rfl, h2⟩
    | copy j => exact ⟨if_neg fun h => ho h.symm, h2⟩
    | stopped j s => exact ⟨if_neg fun h => ho h.symm, h2⟩

/-- **C137.**  After any history, also with copies that were stopped, a recipe copies the local repository.  Whatever
is deployed, removed or copied by others from then on: its index lists exactly the packages that were deployed at the
time of the copy, and each that is listed is there with the content it had. -/
theorem snapshot (before after : List Op) (i : Nat) (ha : ∀ op, op ∈ after → Elsewhere i op) :
    ∃ index, ((run start (before ++ .copy i :: after)).copies i).index = some index ∧
      (∀ n c, (n, c) ∈ index ↔ deployed before.reverse n = some c) ∧
      ∀ n c, (n, c) ∈ index → ∃ k, ((run start (before ++ .copy i :: after)).copies i).pool.lookup n = some k ∧
        (run start (before ++ .copy i :: after)).store k = c := by
  have e : run start (before ++ .copy i :: after) = run (step (run start before) (.copy i)) after := by
    unfold run
    rw [List.foldl_append]; rfl
  have hi : Inv (run start before) := inv_run before inv_start
  obtain ⟨h1, h2⟩ := kept after (inv_step hi (.copy i)) ha
  have hc : (step (run start before) (.copy i)).copies i =
      copySteps (run start before) ((run start before).copies i) ((run start before).pool.length + 1) := if_pos rfl
  rw [e, h1, hc]
  refine ⟨(run start before).index, rfl, fun n c => ?_, fun n c hm => ?_⟩
  · have := index_deployed n c before.reverse
    rw [List.reverse_reverse] at this
    exact this
  · obtain ⟨k, h3, h4⟩ := hi.index n c hm
    refine ⟨k, ?_, (h2 k (hi.pool n k h3)).trans h4⟩
    show (link ((run start before).pool.take (run start before).pool.length) _).lookup n = some k
    rw [List.take_length, link_lookup n _ _ hi.keys, h3]; rfl

example : ∀ op, op ∈ [Op.remove "a.deb".toList, .add "a.deb".toList "new".toList, .copy 2] → Elsewhere 1 op := by
  intro op h
  rcases List.mem_cons.1 h with rfl | h
  · trivial
  · rcases List.mem_cons.1 h with rfl | h
    · trivial
    · rw [List.mem_singleton] at h
      subst h
      exact fun h => (nomatch h)

/-- Files of packages that are gone stay in the copy, although the function means to empty it first; the index does
not have them. -/
theorem leftovers_stay :
    let w := run start [.add "a.deb".toList "1".toList, .copy 1, .remove "a.deb".toList, .copy 1]
    (w.copies 1).pool.lookup "a.deb".toList = some 0 ∧ (w.copies 1).index = some [] := by
  exact ⟨by decide +kernel, rfl⟩

end Meta.LocalApt
