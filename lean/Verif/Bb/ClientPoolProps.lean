import Verif.Bb.ClientPoolModel

/-!
C253: the pool makes no more connections than allowed, gives each to one task at a time and serves all tasks, as long as fewer connections than
allowed could not be made.  C254: the results of a call.
-/

namespace Bb.ClientPool

namespace Spec

/-- the tasks that have not ended -/
def unfinished (s : St) : List Nat := s.pending ++ s.creating.toList ++ s.waiting ++ s.notified ++ s.using'.map (·.1)

/-- the connections there are, with the one that is being made -/
def connections (s : St) : Nat := s.using'.length + s.idle.length + s.creating.toList.length

/-- no task can go on -/
def Quiet (max : Nat) (s : St) : Prop := ∀ s', ¬ Work max s s'

end Spec

/-! ## The invariant -/

structure Inv (max : Nat) (sub : List Nat) (s : St) : Prop where
  count : s.using'.length + s.idle.length + s.creating.toList.length + s.lost = s.num
  bound : s.num ≤ max
  nodup : (s.using'.map (·.2) ++ s.idle).Nodup
  old : ∀ c ∈ s.using'.map (·.2) ++ s.idle, c < s.made
  full : s.waiting ++ s.notified ≠ [] → max ≤ s.num
  told : s.waiting ≠ [] → s.idle.length ≤ s.notified.length
  perm : (Spec.unfinished s ++ s.done ++ s.failed).Perm sub

theorem inv_init (max : Nat) : Inv max [] init := by
  constructor <;> simp [init, Spec.unfinished]

theorem inv_submit {max : Nat} {sub : List Nat} {s : St} (ts : List Nat) (h : Inv max sub s) : Inv max (sub ++ ts) (submit ts s) := by
  constructor
  · exact h.count
  · exact h.bound
  · exact h.nodup
  · exact h.old
  · exact h.full
  · exact h.told
  · refine List.Perm.trans ?_ (h.perm.append_right ts)
    rw [List.perm_iff_count]
    intro a
    simp [Spec.unfinished, submit, List.count_append]
    omega

theorem nodup_iff_count {l : List Nat} : l.Nodup ↔ ∀ a, l.count a ≤ 1 := List.nodup_iff_count

theorem inv_work {max : Nat} {sub : List Nat} {s s' : St} (h : Inv max sub s) (w : Work max s s') : Inv max sub s' := by
  obtain ⟨h1, h2, h3, h4, h5, h6, h7⟩ := h
  have hp := List.perm_iff_count.mp h7
  rw [nodup_iff_count] at h3
  cases w with
  | take t c l r i hl hp' hi =>
    constructor
    · simp [hl, hi] at h1 ⊢; omega
    · exact h2
    · rw [nodup_iff_count]
      intro a
      have := h3 a
      simp [hi, List.count_append, List.count_cons] at this ⊢
      omega
    · intro d hd
      apply h4 d
      simp [hi] at hd ⊢
      grind
    · exact h5
    · intro hw
      have := h6 hw
      simp [hi] at this ⊢
      omega
    · refine List.perm_iff_count.mpr fun a => ?_
      have := hp a
      simp [Spec.unfinished, hp', hl, List.count_append, List.count_cons] at this ⊢
      omega
  | create t l r hl hp' hi hn =>
    constructor
    · simp [hl, hi] at h1 ⊢; omega
    · show s.num + 1 ≤ max
      omega
    · exact nodup_iff_count.mpr h3
    · exact h4
    · intro hw
      have := h5 hw
      omega
    · exact h6
    · refine List.perm_iff_count.mpr fun a => ?_
      have := hp a
      simp [Spec.unfinished, hp', hl, List.count_append, List.count_cons] at this ⊢
      omega
  | created t hl =>
    constructor
    · simp [hl] at h1 ⊢; omega
    · exact h2
    · rw [nodup_iff_count]
      intro a
      have := h3 a
      simp only [List.map_cons, List.cons_append, List.count_cons]
      by_cases ha : s.made = a
      · have hno : List.count a (s.using'.map (·.2) ++ s.idle) = 0 := by
          rw [List.count_eq_zero]
          intro hm
          have := h4 a hm
          omega
        rw [hno]
        split <;> omega
      · simp [ha]
        simpa using this
    · intro d hd
      simp only [List.map_cons, List.cons_append, List.mem_cons] at hd
      show d < s.made + 1
      cases hd with
      | inl e => omega
      | inr e => have := h4 d e; omega
    · exact h5
    · exact h6
    · refine List.perm_iff_count.mpr fun a => ?_
      have := hp a
      simp [Spec.unfinished, hl, List.count_append, List.count_cons] at this ⊢
      omega
  | createFailed t hl =>
    constructor
    · simp [hl] at h1 ⊢; omega
    · exact h2
    · exact nodup_iff_count.mpr h3
    · exact h4
    · exact h5
    · exact h6
    · refine List.perm_iff_count.mpr fun a => ?_
      have := hp a
      simp [Spec.unfinished, hl, List.count_append, List.count_cons] at this ⊢
      omega
  | wait t l r hl hp' hi hn =>
    constructor
    · exact h1
    · exact h2
    · exact nodup_iff_count.mpr h3
    · exact h4
    · intro _
      show max ≤ s.num
      omega
    · intro _
      simp [hi]
    · refine List.perm_iff_count.mpr fun a => ?_
      have := hp a
      simp [Spec.unfinished, hp', hl, List.count_append, List.count_cons] at this ⊢
      omega
  | wake t c l r i hl hp' hi =>
    constructor
    · simp [hl, hi] at h1 ⊢; omega
    · exact h2
    · rw [nodup_iff_count]
      intro a
      have := h3 a
      simp [hi, List.count_append, List.count_cons] at this ⊢
      omega
    · intro d hd
      apply h4 d
      simp [hi] at hd ⊢
      grind
    · intro _
      exact h5 (by simp [hp'])
    · intro hw
      have := h6 hw
      simp [hi, hp'] at this ⊢
      omega
    · refine List.perm_iff_count.mpr fun a => ?_
      have := hp a
      simp [Spec.unfinished, hp', hl, List.count_append, List.count_cons] at this ⊢
      omega
  | again t l r hl hp' hi =>
    constructor
    · exact h1
    · exact h2
    · exact nodup_iff_count.mpr h3
    · exact h4
    · intro _
      exact h5 (by simp [hp'])
    · intro _
      simp [hi]
    · refine List.perm_iff_count.mpr fun a => ?_
      have := hp a
      simp [Spec.unfinished, hp', hl, List.count_append, List.count_cons] at this ⊢
      omega
  | finish t c l r hl hp' =>
    rcases hw : s.waiting with _ | ⟨v, ws⟩
    all_goals
      constructor
      · simp [release, notify, hw, hl, hp'] at h1 ⊢; omega
      · simpa [release, notify, hw] using h2
      · rw [nodup_iff_count]
        intro a
        have := h3 a
        simp [release, notify, hw, hp', List.count_append, List.count_cons] at this ⊢
        omega
      · intro d hd
        simp [release, notify, hw] at hd ⊢
        apply h4 d
        simp [hp']
        grind
      · intro hne
        simp [release, notify, hw] at hne ⊢
        apply h5
        simp [hw]
        try exact hne
      · intro hne
        simp [release, notify, hw] at hne ⊢
        try
          have := h6 (by simp [hw])
          omega
      · refine List.perm_iff_count.mpr fun a => ?_
        have := hp a
        simp [release, notify, hw, Spec.unfinished, hp', hl, List.count_append, List.count_cons] at this ⊢
        omega
  | finishFailed t c l r hl hp' =>
    rcases hw : s.waiting with _ | ⟨v, ws⟩
    all_goals
      constructor
      · simp [release, notify, hw, hl, hp'] at h1 ⊢; omega
      · simpa [release, notify, hw] using h2
      · rw [nodup_iff_count]
        intro a
        have := h3 a
        simp [release, notify, hw, hp', List.count_append, List.count_cons] at this ⊢
        omega
      · intro d hd
        simp [release, notify, hw] at hd ⊢
        apply h4 d
        simp [hp']
        grind
      · intro hne
        simp [release, notify, hw] at hne ⊢
        apply h5
        simp [hw]
        try exact hne
      · intro hne
        simp [release, notify, hw] at hne ⊢
        try
          have := h6 (by simp [hw])
          omega
      · refine List.perm_iff_count.mpr fun a => ?_
        have := hp a
        simp [release, notify, hw, Spec.unfinished, hp', hl, List.count_append, List.count_cons] at this ⊢
        omega

theorem inv_reach {max : Nat} {sub : List Nat} {s : St} (h : Reach max sub s) : Inv max sub s := by
  induction h with
  | init => exact inv_init max
  | submit sub ts s _ ih => exact inv_submit ts ih
  | work sub s s' _ w ih => exact inv_work ih w

/-! ## C253 -/

/-- For any calls and any order of steps: there are never more connections than allowed, no connection is used by two tasks or waits in the pool
while a task uses it, and no task is lost: each one that was asked for has ended, has failed or is still there. -/
theorem pool_bounded (max : Nat) (sub : List Nat) (s : St) (h : Reach max sub s) :
    Spec.connections s ≤ max ∧ (s.using'.map (·.2) ++ s.idle).Nodup ∧ (Spec.unfinished s ++ s.done ++ s.failed).Perm sub := by
  have := inv_reach h
  refine ⟨?_, this.nodup, this.perm⟩
  have h1 := this.count
  have h2 := this.bound
  show s.using'.length + s.idle.length + s.creating.toList.length ≤ max
  omega

theorem exists_last {l : List Nat} (h : l ≠ []) : ∃ i c, l = i ++ [c] :=
  ⟨l.dropLast, l.getLast h, (List.dropLast_concat_getLast h).symm⟩

/-- Whenever no task can go on although some connections could still be made, all tasks have ended. -/
theorem pool_no_deadlock_partial (max : Nat) (sub : List Nat) (s : St) (h : Reach max sub s) (hq : Spec.Quiet max s) (hl : s.lost < max) :
    (s.done ++ s.failed).Perm sub := by
  have inv := inv_reach h
  have hc : s.creating = none := by
    rcases e : s.creating with _ | t
    · rfl
    · exact absurd (Work.created s t e) (hq _)
  have hu : s.using' = [] := by
    rcases e : s.using' with _ | ⟨⟨t, c⟩, r⟩
    · rfl
    · exact absurd (Work.finish s t c [] r hc e) (hq _)
  have hp : s.pending = [] := by
    rcases e : s.pending with _ | ⟨t, r⟩
    · rfl
    · by_cases hi : s.idle = []
      · by_cases hn : s.num < max
        · exact absurd (Work.create s t [] r hc e hi hn) (hq _)
        · exact absurd (Work.wait s t [] r hc e hi hn) (hq _)
      · obtain ⟨i, c, hi⟩ := exists_last hi
        exact absurd (Work.take s t c [] r i hc e hi) (hq _)
  have hn : s.notified = [] := by
    rcases e : s.notified with _ | ⟨t, r⟩
    · rfl
    · by_cases hi : s.idle = []
      · exact absurd (Work.again s t [] r hc e hi) (hq _)
      · obtain ⟨i, c, hi⟩ := exists_last hi
        exact absurd (Work.wake s t c [] r i hc e hi) (hq _)
  have hw : s.waiting = [] := by
    rcases e : s.waiting with _ | ⟨t, r⟩
    · rfl
    · exfalso
      have h1 := inv.told (by simp [e])
      have h2 := inv.full (by simp [e])
      have h3 := inv.count
      simp [hn, hu, hc] at h1 h3
      simp [h1] at h3
      omega
  have := inv.perm
  simpa [Spec.unfinished, hc, hu, hp, hn, hw] using this

/-- what is left to do -/
def weight (s : St) : Nat :=
  5 * s.pending.length + 3 * s.creating.toList.length + 3 * s.waiting.length + 4 * s.notified.length + 2 * s.using'.length

theorem weight_work {max : Nat} {s s' : St} (w : Work max s s') : weight s' < weight s := by
  cases w with
  | take t c l r i hl hp hi => simp [weight, hp]; omega
  | create t l r hl hp hi hn => simp [weight, hp, hl]; omega
  | created t hl => simp [weight, hl]; omega
  | createFailed t hl => simp [weight, hl]
  | wait t l r hl hp hi hn => simp [weight, hp]; omega
  | wake t c l r i hl hp hi => simp [weight, hp]; omega
  | again t l r hl hp hi => simp [weight, hp]; omega
  | finish t c l r hl hp =>
    rcases hw : s.waiting with _ | ⟨v, ws⟩ <;> simp [weight, release, notify, hw, hp] <;> omega
  | finishFailed t c l r hl hp =>
    rcases hw : s.waiting with _ | ⟨v, ws⟩ <;> simp [weight, release, notify, hw, hp] <;> omega

/-- The tasks that are there take at most five steps each: they do not wake each other for ever. -/
theorem pool_terminates (max : Nat) (s s' : St) (n : Nat) (h : Runs max s n s') : n ≤ 5 * (Spec.unfinished s).length := by
  have hw : n + weight s' ≤ weight s := by
    induction h with
    | nil => omega
    | cons s s' s'' n w h ih => have := weight_work w; omega
  have : weight s ≤ 5 * (Spec.unfinished s).length := by
    simp [weight, Spec.unfinished]; omega
  omega

theorem reach_runs {max : Nat} {sub : List Nat} {s s' : St} {n : Nat} (h : Reach max sub s) (r : Runs max s n s') : Reach max sub s' := by
  induction r with
  | nil => exact h
  | cons s s' s'' n w _ ih => exact ih (.work _ _ _ h w)

/-! ### What is false -/

/-- the state in which each of the connections could not be made -/
def dead (failed : List Nat) (max : Nat) (waiting : List Nat) : St :=
  { init with num := max, lost := max, failed := failed, waiting := waiting }

theorem reach_lost (max k : Nat) (hk : k ≤ max) : ∃ sub failed, Reach max sub (dead failed k []) := by
  induction k with
  | zero => exact ⟨[], [], .init⟩
  | succ k ih =>
    obtain ⟨sub, failed, h⟩ := ih (by omega)
    refine ⟨sub ++ [0], 0 :: failed, ?_⟩
    have h1 := Reach.submit sub [0] _ h
    have h2 := Reach.work _ _ _ h1
      (.create _ 0 [] [] rfl rfl rfl (by show k < max; omega))
    exact Reach.work _ _ _ h2 (.createFailed _ 0 rfl)

/-- Once all of the connections could not be made, no later task ever ends, whatever the server does then. -/
theorem pool_dead_forever (max : Nat) (sub : List Nat) (s s' : St) (h : Reach max sub s) (hl : s.lost = max) (hs : Later max s s') :
    s'.done = s.done ∧ s'.failed = s.failed := by
  have key : ∀ s', Later max s s' → (∃ sub', Reach max sub' s') ∧ s'.lost = max ∧ s'.done = s.done ∧ s'.failed = s.failed := by
    intro s' hs
    induction hs with
    | refl => exact ⟨⟨sub, h⟩, hl, rfl, rfl⟩
    | submit s' ts _ ih =>
      obtain ⟨⟨sub', r⟩, e⟩ := ih
      exact ⟨⟨_, .submit _ ts _ r⟩, e⟩
    | work s' s'' _ w ih =>
      obtain ⟨⟨sub', r⟩, e1, e2, e3⟩ := ih
      refine ⟨⟨_, .work _ _ _ r w⟩, ?_⟩
      have inv := inv_reach r
      have h1 := inv.count
      have h2 := inv.bound
      cases w with
      | take t c l r i hl hp hi => exact ⟨e1, e2, e3⟩
      | create t l r hl hp hi hn => exact ⟨e1, e2, e3⟩
      | created t hl => exact ⟨e1, e2, e3⟩
      | createFailed t hl => simp [hl] at h1; omega
      | wait t l r hl hp hi hn => exact ⟨e1, e2, e3⟩
      | wake t c l r i hl hp hi => exact ⟨e1, e2, e3⟩
      | again t l r hl hp hi => exact ⟨e1, e2, e3⟩
      | finish t c l r hl hp => simp [hp] at h1; omega
      | finishFailed t c l r hl hp => simp [hp] at h1; omega
  exact (key s' hs).2.2

/-- For every number of connections there is a history in which a task waits and nothing can go on: a call never returns, and the server may be
back by then. -/
theorem pool_hangs (max : Nat) (t : Nat) : ∃ sub s, Reach max sub s ∧ s.waiting = [t] ∧ Spec.connections s = 0 ∧ Spec.Quiet max s := by
  obtain ⟨sub, failed, h⟩ := reach_lost max max (Nat.le_refl max)
  have h1 := Reach.submit sub [t] _ h
  have h2 := Reach.work _ _ _ h1 (.wait _ t [] [] rfl rfl rfl (by show ¬ max < max; omega))
  refine ⟨_, _, h2, rfl, rfl, ?_⟩
  intro s' w
  generalize hs : ({ submit [t] (dead failed max []) with
    pending := [] ++ [], waiting := (submit [t] (dead failed max [])).waiting ++ [t] } : St) = s at w
  have e1 : s.pending = [] := by subst hs; rfl
  have e2 : s.creating = none := by subst hs; rfl
  have e3 : s.notified = [] := by subst hs; rfl
  have e4 : s.using' = [] := by subst hs; rfl
  cases w with
  | take t c l r i hl hp hi => simp [e1] at hp
  | create t l r hl hp hi hn => simp [e1] at hp
  | created t hl => simp [e2] at hl
  | createFailed t hl => simp [e2] at hl
  | wait t l r hl hp hi hn => simp [e1] at hp
  | wake t c l r i hl hp hi => simp [e3] at hp
  | again t l r hl hp hi => simp [e3] at hp
  | finish t c l r hl hp => simp [e4] at hp
  | finishFailed t c l r hl hp => simp [e4] at hp

/-! ## C254 -/

/-- A call in which nothing fails returns what the server says, for each of its keys. -/
theorem results_right_partial (max : Nat) (sub : List Nat) (s : St) (answer : Nat → Option Nat) (h : Reach max sub s) (he : callEnds s)
    (hf : s.failed = []) (k : Nat) (hk : k ∈ sub) : results answer s k = answer k := by
  have inv := inv_reach h
  rcases he with he | ⟨h1, h2, h3, h4, h5⟩
  · exact absurd hf he
  · have hp := inv.perm
    simp [Spec.unfinished, h1, h2, h3, h4, h5, hf] at hp
    simp [results, hp.mem_iff.mpr hk]

/-- Whatever fails, a call never returns anything but what the server says or nothing. -/
theorem results_sound (s : St) (answer : Nat → Option Nat) (k u : Nat) (h : results answer s k = some u) : answer k = some u := by
  unfold results at h
  split at h
  · exact h
  · cases h

/-- the state after two questions of which the first failed -/
def halfway : St := { init with pending := [1], idle := [0], num := 1, made := 1, failed := [0] }

theorem reach_halfway : Reach 1 [0, 1] halfway := by
  have h1 := Reach.submit [] [0, 1] _ (.init (max := 1))
  have h2 := Reach.work _ _ _ h1 (.create _ 0 [] [1] rfl rfl rfl (by decide))
  have h3 := Reach.work _ _ _ h2 (.created _ 0 rfl)
  exact Reach.work _ _ _ h3 (.finishFailed _ 0 0 [] [] rfl rfl)

/-- The failure of one question takes away the answers to others: the call returns although the second question was never asked, and the task's own
hash is stored as if the server knew nothing better. -/
theorem results_lost : ∃ (s : St) (answer : Nat → Option Nat) (taskhash : Nat → Nat), Reach 1 [0, 1] s ∧ callEnds s ∧ 1 ∉ s.failed ∧
    answer 1 = some 7 ∧ results answer s 1 = none ∧ unihash taskhash answer s 1 ≠ 7 :=
  ⟨halfway, fun _ => some 7, fun _ => 8, reach_halfway, .inl (by decide), by decide, rfl, by decide, by decide⟩

/-- what is stored is the server's hash when there is an answer, and the task's own hash otherwise -/
theorem unihash_cases (taskhash : Nat → Nat) (answer : Nat → Option Nat) (s : St) (k : Nat) :
    (∃ u, answer k = some u ∧ unihash taskhash answer s k = u ∧ k ∈ s.done) ∨ unihash taskhash answer s k = taskhash k := by
  unfold unihash
  rcases e : results answer s k with _ | u
  · exact .inr rfl
  · refine .inl ⟨u, results_sound s answer k u e, rfl, ?_⟩
    unfold results at e
    split at e
    · assumption
    · cases e

/-! ## Examples -/

/-- two tasks and one connection: the second one waits, is told and is served -/
example : ∃ s, Reach 1 [0, 1] s ∧ s.waiting = [1] ∧ s.using' = [(0, 0)] := by
  have h1 := Reach.submit [] [0, 1] _ (.init (max := 1))
  have h2 := Reach.work _ _ _ h1 (.create _ 0 [] [1] rfl rfl rfl (by decide))
  have h3 := Reach.work _ _ _ h2 (.created _ 0 rfl)
  exact ⟨_, Reach.work _ _ _ h3 (.wait _ 1 [] [] rfl rfl rfl (by decide)), rfl, rfl⟩

example : ∃ s, Reach 1 [0, 1] s ∧ s.done = [1, 0] ∧ s.failed = [] ∧ callEnds s ∧ s.lost < 1 ∧ s.idle = [0] := by
  have h1 := Reach.submit [] [0, 1] _ (.init (max := 1))
  have h2 := Reach.work _ _ _ h1 (.create _ 0 [] [1] rfl rfl rfl (by decide))
  have h3 := Reach.work _ _ _ h2 (.created _ 0 rfl)
  have h4 := Reach.work _ _ _ h3 (.wait _ 1 [] [] rfl rfl rfl (by decide))
  have h5 := Reach.work _ _ _ h4 (.finish _ 0 0 [] [] rfl rfl)
  have h6 := Reach.work _ _ _ h5 (.wake _ 1 0 [] [] [] rfl rfl rfl)
  have h7 := Reach.work _ _ _ h6 (.finish _ 1 0 [] [] rfl rfl)
  exact ⟨_, h7, rfl, rfl, .inr ⟨rfl, rfl, rfl, rfl, rfl⟩, by decide, rfl⟩

/-- the pool is dead after one connection that could not be made, and a later call adds nothing -/
example : ∃ s, Reach 1 [0] s ∧ s.lost = 1 ∧ ∃ s', Later 1 s s' ∧ s'.waiting = [1] := by
  have h1 := Reach.submit [] [0] _ (.init (max := 1))
  have h2 := Reach.work _ _ _ h1 (.create _ 0 [] [] rfl rfl rfl (by decide))
  have h3 := Reach.work _ _ _ h2 (.createFailed _ 0 rfl)
  exact ⟨_, h3, rfl, _, .work _ _ _ (.submit _ _ [1] (.refl _)) (.wait _ 1 [] [] rfl rfl rfl (by decide)), rfl⟩

example : Runs 1 (submit [0] init) 3 { init with idle := [0], num := 1, made := 1, done := [0] } :=
  .cons _ _ _ _ (.create _ 0 [] [] rfl rfl rfl (by decide)) (.cons _ _ _ _ (.created _ 0 rfl)
    (.cons _ _ _ _ (.finish _ 0 0 [] [] rfl rfl) (.nil _)))

end Bb.ClientPool
