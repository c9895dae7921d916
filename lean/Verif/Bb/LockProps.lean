import Verif.Bb.LockModel
/-!
# Properties of lock files
-/

namespace Bb.Lock
open Py

/-! ### Small specification -/

/-- The user has the lock of this name: `lockfile` has returned, and `unlockfile` was not called. -/
def Has (s : Sys) (p : Nat) (f : Str) (m : Mode) : Prop := ∃ n, s.pc p = .held f m n

/-! ### Invariant -/

/-- What holds in all states. -/
structure Inv (s : Sys) : Prop where
  /-- The file of a lock that somebody has, or is about to remove, is the one on the disk. -/
  here : ∀ p f n, (∃ m, s.pc p = .held f m n) ∨ s.pc p = .upgraded f n → s.path f = some n
  /-- The locks on one file are compatible. -/
  compat : ∀ p q, p ≠ q → ∀ m m' n, (s.pc p).lock = some (m, n) → (s.pc q).lock = some (m', n) →
    m = .shared ∧ m' = .shared

theorem pc_goto (s : Sys) (p q : Nat) (c : PC) :
    (s.goto p c).pc q = if q = p then c else s.pc q := rfl

theorem inv_goto {s : Sys} (h : Inv s) (p : Nat) (c : PC)
    (hc : ∀ f n, (∃ m, c = .held f m n) ∨ c = .upgraded f n → s.path f = some n)
    (hl : ∀ m n, c.lock = some (m, n) → s.mayLock p m n) : Inv (s.goto p c) := by
  constructor
  · intro q f n hq
    rw [pc_goto] at hq
    by_cases e : q = p
    · rw [if_pos e] at hq; exact hc f n hq
    · rw [if_neg e] at hq; exact h.here q f n hq
  · intro q r hqr m m' n h1 h2
    rw [pc_goto] at h1 h2
    by_cases e : q = p
    · rw [if_pos e] at h1
      have e2 : ¬ r = p := fun x => hqr (e.trans x.symm)
      rw [if_neg e2] at h2
      exact hl m n h1 r e2 m' h2
    · rw [if_neg e] at h1
      by_cases e2 : r = p
      · rw [if_pos e2] at h2
        exact (hl m' n h2 q e m h1).symm
      · rw [if_neg e2] at h2
        exact h.compat q r hqr m m' n h1 h2

theorem mayLock_own {s : Sys} (h : Inv s) {p : Nat} {m : Mode} {n : Nat}
    (hl : (s.pc p).lock = some (m, n)) : s.mayLock p m n :=
  fun q hq m' hq' => h.compat p q (fun e => hq e.symm) m m' n hl hq'

theorem inv_bind {s : Sys} (h : Inv s) (f : Str) (x : Option Nat) (nx : Nat)
    (hf : ∀ p n, ¬ ((∃ m, s.pc p = .held f m n) ∨ s.pc p = .upgraded f n)) :
    Inv { (s.bind f x) with next := nx } := by
  constructor
  · intro p g n hp
    by_cases e : g = f
    · subst e; exact absurd hp (hf p n)
    · show (if g = f then x else s.path g) = some n
      rw [if_neg e]
      exact h.here p g n hp
  · exact h.compat

theorem inv_step {s s' : Sys} (p : Nat) (h : Inv s) (e : Step p s s') : Inv s' := by
  cases e with
  | openOld m hp e =>
    refine inv_goto h p _ (fun f n hc => ?_) (fun m n hc => by cases hc)
    rcases hc with ⟨_, hc⟩ | hc <;> cases hc
  | @openNew f m hp e =>
    have h1 : Inv { (s.bind f (some s.next)) with next := s.next + 1 } := by
      refine inv_bind h f _ _ fun q n hq => ?_
      have := h.here q f n hq
      rw [e] at this
      cases this
    refine inv_goto h1 p _ (fun f n hc => ?_) (fun m n hc => by cases hc)
    rcases hc with ⟨_, hc⟩ | hc <;> cases hc
  | grant hp e =>
    refine inv_goto h p _ (fun f n hc => ?_) (fun m n hc => by cases hc; exact e)
    rcases hc with ⟨_, hc⟩ | hc <;> cases hc
  | exist hp e =>
    refine inv_goto h p _ (fun f n hc => ?_) (fun m n hc => ?_)
    · rcases hc with ⟨_, hc⟩ | hc <;> cases hc
    · exact mayLock_own h (by rw [hp]; exact hc)
  | same hp e =>
    refine inv_goto h p _ (fun f n hc => ?_) (fun m n hc => ?_)
    · rcases hc with ⟨_, hc⟩ | hc
      · cases hc; exact e
      · cases hc
    · exact mayLock_own h (by rw [hp]; exact hc)
  | close =>
    refine inv_goto h p _ (fun f n hc => ?_) (fun m n hc => by cases hc)
    rcases hc with ⟨_, hc⟩ | hc <;> cases hc
  | upgrade hp e =>
    refine inv_goto h p _ (fun f n hc => ?_) (fun m n hc => by cases hc; exact e)
    rcases hc with ⟨_, hc⟩ | hc
    · cases hc
    · cases hc
      exact h.here p _ _ (.inl ⟨_, hp⟩)
  | refuse l hp e hl =>
    refine inv_goto h p _ (fun f n hc => ?_) (fun m n hc => ?_)
    · rcases hc with ⟨_, hc⟩ | hc <;> cases hc
    · rcases hl with hl | hl
      · rw [hl] at hc; cases hc
      · rw [hl] at hc
        exact mayLock_own h (by rw [hp]; exact hc)
  | @unlink f n hp =>
    -- the other users do not have this name
    have hpath : s.path f = some n := h.here p f n (.inr hp)
    have hl : (s.pc p).lock = some (.exclusive, n) := by rw [hp]; rfl
    constructor
    · intro q g n' hq
      rw [pc_goto] at hq
      by_cases e : q = p
      · rw [if_pos e] at hq
        rcases hq with ⟨_, hq⟩ | hq <;> cases hq
      · rw [if_neg e] at hq
        have hq' : (∃ m, s.pc q = .held g m n') ∨ s.pc q = .upgraded g n' := hq
        have hg := h.here q g n' hq'
        show (if g = f then none else s.path g) = some n'
        by_cases eg : g = f
        · exfalso
          subst eg
          have hn : n' = n := Option.some.inj (hg.symm.trans hpath)
          subst hn
          have hlq : ∃ m, (s.pc q).lock = some (m, n') := by
            rcases hq' with ⟨m, hq⟩ | hq <;> rw [hq]
            · exact ⟨m, rfl⟩
            · exact ⟨_, rfl⟩
          obtain ⟨m, hlq⟩ := hlq
          have := (h.compat p q (fun x => e x.symm) _ _ _ hl hlq).1
          cases this
        · rw [if_neg eg]; exact hg
    · intro q r hqr m m' k h1 h2
      have e1 : ∀ q, (((s.bind f none).goto p (.unlinked f n)).pc q).lock = (s.pc q).lock := by
        intro q
        rw [pc_goto]
        by_cases e : q = p
        · rw [if_pos e, e, hl]; rfl
        · rw [if_neg e]; rfl
      rw [e1] at h1 h2
      exact h.compat q r hqr m m' k h1 h2

theorem inv_reach {s : Sys} (h : Reach s) : Inv s := by
  induction h with
  | start s h _ =>
    constructor
    · intro p f n hp
      rcases hp with ⟨_, hp⟩ | hp <;> rw [h p] at hp <;> cases hp
    · intro p q _ m m' n hp
      rw [h p] at hp
      cases hp
  | step p _ e ih => exact inv_step p ih e

/-! ### Properties -/

/-- Two users have the lock of one name at the same time only if both have it shared, in each
schedule, and whatever process ends at whatever time. -/
theorem mutual_exclusion {s : Sys} (h : Reach s) {p q : Nat} (hpq : p ≠ q) {f : Str} {m m' : Mode}
    (hp : Has s p f m) (hq : Has s q f m') : m = .shared ∧ m' = .shared := by
  obtain ⟨n, hp⟩ := hp
  obtain ⟨n', hq⟩ := hq
  have i := inv_reach h
  have e1 := i.here p f n (.inl ⟨m, hp⟩)
  have e2 := i.here q f n' (.inl ⟨m', hq⟩)
  have hn : n = n' := Option.some.inj (e1.symm.trans e2)
  subst hn
  exact i.compat p q hpq m m' n (by rw [hp]; rfl) (by rw [hq]; rfl)

/-- The lock file is there as long as somebody has the lock. -/
theorem file_present {s : Sys} (h : Reach s) {p : Nat} {f : Str} {m : Mode} (hp : Has s p f m) :
    s.path f ≠ none := by
  obtain ⟨n, hp⟩ := hp
  rw [(inv_reach h).here p f n (.inl ⟨m, hp⟩)]
  exact Option.some_ne_none n

/-- A lock file is removed only when nobody has the lock: the step that removes it. -/
theorem removed_unused {s s' : Sys} (h : Reach s) {p : Nat} (e : Step p s s') {f : Str}
    (h1 : s.path f ≠ none) (h2 : s'.path f = none) (q : Nat) (m : Mode) (hq : q ≠ p) :
    ¬ Has s q f m := by
  rintro ⟨n', hq'⟩
  have i := inv_reach h
  have key : ∀ c, (s.goto p c).path f = s.path f := fun _ => rfl
  cases e with
  | @unlink g n hp =>
    have h2' : (if f = g then none else s.path f) = none := h2
    by_cases e : f = g
    · subst e
      have e1 := i.here p f n (.inr hp)
      have e2 := i.here q f n' (.inl ⟨m, hq'⟩)
      have hn : n = n' := Option.some.inj (e1.symm.trans e2)
      subst hn
      have := (i.compat p q (fun x => hq x.symm) .exclusive m n (by rw [hp]; rfl)
        (by rw [hq']; rfl)).1
      cases this
    · rw [if_neg e] at h2'; exact h1 h2'
  | @openNew g m hp e =>
    have h2' : (if f = g then some s.next else s.path f) = none := h2
    by_cases e : f = g
    · rw [if_pos e] at h2'; cases h2'
    · rw [if_neg e] at h2'; exact h1 h2'
  | _ => exact h1 h2

/-- The inode of the open file of a user. -/
def inode : PC → Option Nat
  | .idle => none
  | .opened _ _ n | .locked _ _ n | .checked _ _ n | .held _ _ n => some n
  | .upgraded _ n | .unlinked _ n => some n
  | .refused l => l.map Prod.snd

theorem inode_lock {c : PC} {m : Mode} {n : Nat} (h : c.lock = some (m, n)) : inode c = some n := by
  cases c <;> simp_all [PC.lock, inode]

/-- No file has the next inode. -/
def Fresh (s : Sys) : Prop :=
  (∀ f n, s.path f = some n → n < s.next) ∧ ∀ p n, inode (s.pc p) = some n → n < s.next

theorem fresh_goto {s : Sys} (h : Fresh s) (p : Nat) (c : PC)
    (hc : ∀ n, inode c = some n → n < s.next) : Fresh (s.goto p c) := by
  refine ⟨h.1, fun q n hq => ?_⟩
  rw [pc_goto] at hq
  by_cases e : q = p
  · rw [if_pos e] at hq; exact hc n hq
  · rw [if_neg e] at hq; exact h.2 q n hq

theorem fresh_reach {s : Sys} (h : Reach s) : Fresh s := by
  induction h with
  | start s h hn =>
    refine ⟨hn, fun p n hp => ?_⟩
    rw [h p] at hp
    cases hp
  | @step s s' p _ e ih =>
    have own : ∀ n, inode (s.pc p) = some n → n < s.next := ih.2 p
    cases e with
    | openOld m hp e =>
      exact fresh_goto ih p _ fun n hn => by cases hn; exact ih.1 _ _ e
    | @openNew f m hp e =>
      refine fresh_goto (s := { (s.bind f (some s.next)) with next := s.next + 1 }) ⟨?_, ?_⟩ p _
        fun n hn => by cases hn; exact Nat.lt_succ_self _
      · intro g n hg
        have hg' : (if g = f then some s.next else s.path g) = some n := hg
        show n < s.next + 1
        by_cases e : g = f
        · rw [if_pos e] at hg'; cases hg'; exact Nat.lt_succ_self _
        · rw [if_neg e] at hg'; exact Nat.lt_succ_of_lt (ih.1 g n hg')
      · intro q n hq
        exact Nat.lt_succ_of_lt (ih.2 q n hq)
    | grant hp e => exact fresh_goto ih p _ fun n hn => own n (by rw [hp]; exact hn)
    | exist hp e => exact fresh_goto ih p _ fun n hn => own n (by rw [hp]; exact hn)
    | same hp e => exact fresh_goto ih p _ fun n hn => own n (by rw [hp]; exact hn)
    | close => exact fresh_goto ih p _ fun n hn => by cases hn
    | upgrade hp e => exact fresh_goto ih p _ fun n hn => own n (by rw [hp]; exact hn)
    | refuse l hp e hl =>
      refine fresh_goto ih p _ fun n hn => ?_
      rcases hl with hl | hl
      · rw [hl] at hn; cases hn
      · rw [hl] at hn; exact own n (by rw [hp]; exact hn)
    | @unlink f n hp =>
      refine fresh_goto (s := s.bind f none) ⟨?_, ih.2⟩ p _ fun n hn => own n (by rw [hp]; exact hn)
      intro g k hg
      have hg' : (if g = f then none else s.path g) = some k := hg
      by_cases e : g = f
      · rw [if_pos e] at hg'; cases hg'
      · rw [if_neg e] at hg'; exact ih.1 g k hg'

/-- One user goes on alone. -/
inductive Run (p : Nat) : Sys → Sys → Prop where
  | refl (s : Sys) : Run p s s
  | step {s s' s'' : Sys} (e : Step p s s') (r : Run p s' s'') : Run p s s''

/-- A lock can be taken if no other user has the file of that name locked, whatever files and
processes were left over, and whatever other locks there are. -/
theorem free_lock_taken {s : Sys} (hr : Reach s) (p : Nat) (f : Str) (m : Mode)
    (hp : s.pc p = .idle)
    (hfree : ∀ q, q ≠ p → ∀ m' n, (s.pc q).lock = some (m', n) → s.path f ≠ some n) :
    ∃ s', Run p s s' ∧ Has s' p f m := by
  have fin : ∀ (s : Sys) (n : Nat), s.pc p = .opened f m n → s.path f = some n →
      (∀ q, q ≠ p → ∀ m', (s.pc q).lock ≠ some (m', n)) → ∃ s', Run p s s' ∧ Has s' p f m := by
    intro s n h1 h2 h3
    have g1 : Step p s (s.goto p (.locked f m n)) := .grant h1 fun q hq m' e => absurd e (h3 q hq m')
    have g2 : Step p (s.goto p (.locked f m n)) ((s.goto p (.locked f m n)).goto p (.checked f m n)) :=
      .exist (by rw [pc_goto, if_pos rfl]) (by
        show s.path f ≠ none
        rw [h2]; exact Option.some_ne_none n)
    have g3 := Step.same (p := p) (s := (s.goto p (.locked f m n)).goto p (.checked f m n)) (f := f)
      (m := m) (n := n) (by rw [pc_goto, if_pos rfl]) h2
    exact ⟨_, .step g1 (.step g2 (.step g3 (.refl _))), n, by rw [pc_goto, if_pos rfl]⟩
  cases e : s.path f with
  | some n =>
    obtain ⟨s', r, h⟩ := fin (s.goto p (.opened f m n)) n (by rw [pc_goto, if_pos rfl]) e
      fun q hq m' hl => by
        rw [pc_goto, if_neg hq] at hl
        exact hfree q hq m' n hl e
    exact ⟨s', .step (.openOld m hp e) r, h⟩
  | none =>
    obtain ⟨s', r, h⟩ := fin ({ (s.bind f (some s.next)) with next := s.next + 1 }.goto p
      (.opened f m s.next)) s.next (by rw [pc_goto, if_pos rfl]) (by
        show (if f = f then some s.next else s.path f) = _
        rw [if_pos rfl]) fun q hq m' hl => by
          rw [pc_goto, if_neg hq] at hl
          exact absurd ((fresh_reach hr).2 q _ (inode_lock hl)) (Nat.lt_irrefl _)
    exact ⟨s', .step (.openNew m hp e) r, h⟩

theorem reach_run {p : Nat} {s s' : Sys} (h : Reach s) (r : Run p s s') : Reach s' := by
  induction r with
  | refl s => exact h
  | step e _ ih => exact ih (.step p h e)

/-- No users, no files. -/
def empty : Sys := { path := fun _ => none, next := 0, pc := fun _ => .idle }

/-- The hypotheses can be met: some state has a user with an exclusive lock, and some state has two
users with the shared lock. -/
example : (∃ s, Reach s ∧ Has s 0 "x".toList .exclusive) ∧
    ∃ s, Reach s ∧ Has s 0 "x".toList .shared ∧ Has s 1 "x".toList .shared := by
  have r0 : Reach empty := .start empty (fun _ => rfl) fun _ _ h => by cases h
  refine ⟨?_, ?_⟩
  · obtain ⟨s, r, h⟩ := free_lock_taken r0 0 "x".toList .exclusive rfl fun _ _ _ _ h => by cases h
    exact ⟨s, reach_run r0 r, h⟩
  · let f := "x".toList
    let s1 : Sys := { path := fun g => if g = f then some 0 else none, next := 1,
                      pc := fun _ => .idle }
    have r1 : Reach s1 := .start s1 (fun _ => rfl) fun g n h => by
      have h' : (if g = f then some 0 else none) = some n := h
      by_cases e : g = f
      · rw [if_pos e] at h'; cases h'; exact Nat.one_pos
      · rw [if_neg e] at h'; cases h'
    have t1 := Reach.step 0 r1 (.openOld (f := f) (n := 0) .shared rfl (by simp [s1]))
    have t2 := Reach.step 0 t1 (.grant (f := f) (m := .shared) (n := 0) (by simp [Sys.goto]) (by
      intro q hq m' e
      simp [Sys.goto, hq, s1, PC.lock] at e))
    have t3 := Reach.step 0 t2 (.exist (f := f) (m := .shared) (n := 0) (by simp [Sys.goto])
      (by simp [Sys.goto, s1]))
    have t4 := Reach.step 0 t3 (.same (f := f) (m := .shared) (n := 0) (by simp [Sys.goto])
      (by simp [Sys.goto, s1]))
    have t5 := Reach.step 1 t4 (.openOld (f := f) (n := 0) .shared (by simp [Sys.goto, s1])
      (by simp [Sys.goto, s1]))
    have t6 := Reach.step 1 t5 (.grant (f := f) (m := .shared) (n := 0) (by simp [Sys.goto]) (by
      intro q hq m' e
      by_cases h0 : q = 0
      · subst h0
        simp [Sys.goto, PC.lock] at e
        exact ⟨rfl, e.symm⟩
      · simp [Sys.goto, hq, h0, s1, PC.lock] at e))
    have t7 := Reach.step 1 t6 (.exist (f := f) (m := .shared) (n := 0) (by simp [Sys.goto])
      (by simp [Sys.goto, s1]))
    have t8 := Reach.step 1 t7 (.same (f := f) (m := .shared) (n := 0) (by simp [Sys.goto])
      (by simp [Sys.goto, s1]))
    refine ⟨_, t8, ⟨0, ?_⟩, ⟨0, ?_⟩⟩
    · show _ = PC.held f .shared 0; simp [Sys.goto]
    · show _ = PC.held f .shared 0; simp [Sys.goto]

/-! ### Several locks -/

/-- Some process is not ready, and no process can go on. -/
def Deadlock (ps : List Proc) : Prop :=
  (∃ q ∈ ps, q.has ≠ [] ∨ q.needs ≠ []) ∧ ∀ ps', ¬ MStep ps ps'

/-- Two processes that take two locks in different orders can wait for each other for ever. -/
theorem different_orders_deadlock (a b : Str) (hab : a ≠ b) :
    ∃ ps, MReach [[a, b], [b, a]] ps ∧ Deadlock ps := by
  have r1 : MReach [[a, b], [b, a]] [⟨[a], [b]⟩, ⟨[], [b, a]⟩] :=
    .step .start (.acquire (ps := [⟨[], [a, b]⟩, ⟨[], [b, a]⟩]) (i := 0) (f := a) rfl (by simp))
  have r2 : MReach [[a, b], [b, a]] [⟨[a], [b]⟩, ⟨[b], [a]⟩] :=
    .step r1 (.acquire (ps := [⟨[a], [b]⟩, ⟨[], [b, a]⟩]) (i := 1) (f := b) rfl (by
      simp
      exact fun e => hab e.symm))
  refine ⟨_, r2, ⟨⟨_, List.mem_cons_self, .inl (by simp)⟩, fun ps' e => ?_⟩⟩
  cases e with
  | @acquire i has needs f h e =>
    match i, h with
    | 0, h => cases h; exact absurd (e _ (List.mem_cons_of_mem _ List.mem_cons_self)) (by simp)
    | 1, h => cases h; exact absurd (e _ List.mem_cons_self) (by simp)
    | i + 2, h => simp at h
  | @release i has h e =>
    match i, h with
    | 0, h => cases h
    | 1, h => cases h
    | i + 2, h => simp at h

/-- A process that asks twice for the same lock waits for itself for ever. -/
theorem same_lock_twice_deadlock (a : Str) : ∃ ps, MReach [[a, a]] ps ∧ Deadlock ps := by
  have r1 : MReach [[a, a]] [⟨[a], [a]⟩] := .step .start
    (.acquire (ps := [⟨[], [a, a]⟩]) (i := 0) (f := a) rfl (by simp))
  refine ⟨_, r1, ⟨⟨_, List.mem_cons_self, .inl (by simp)⟩, fun ps' e => ?_⟩⟩
  cases e with
  | @acquire i has needs f h e =>
    match i, h with
    | 0, h => cases h; exact absurd (e _ List.mem_cons_self) (by simp)
    | i + 1, h => simp at h
  | @release i has h e =>
    match i, h with
    | 0, h => cases h
    | i + 1, h => simp at h

/-- The locks of each process are in an order that is the same for all. -/
def InOrder (rank : Str → Nat) (ps : List Proc) : Prop :=
  ∀ q ∈ ps, (q.has ++ q.needs).Pairwise fun x y => rank x < rank y

theorem inOrder_step {rank : Str → Nat} {ps ps' : List Proc} (h : InOrder rank ps)
    (e : MStep ps ps') : InOrder rank ps' := by
  intro q hq
  cases e with
  | acquire hi e =>
    rcases List.mem_or_eq_of_mem_set hq with hq | hq
    · exact h q hq
    · rw [hq]
      show (_ ++ [_] ++ _).Pairwise _
      rw [List.append_assoc]
      exact h _ (List.mem_of_getElem? hi)
  | release hi e =>
    rcases List.mem_or_eq_of_mem_set hq with hq | hq
    · exact h q hq
    · rw [hq]; exact .nil

/-- If all processes take their locks in the same order, and none twice, then they never wait for
each other for ever. -/
theorem same_order_no_deadlock_partial (rank : Str → Nat) (needs : List (List Str))
    (ho : ∀ l ∈ needs, l.Pairwise fun x y => rank x < rank y) {ps : List Proc}
    (hr : MReach needs ps) : ¬ Deadlock ps := by
  have hin : InOrder rank ps := by
    induction hr with
    | start =>
      intro q hq
      obtain ⟨l, hl, e⟩ := List.mem_map.1 hq
      rw [← e]
      exact ho l hl
    | step _ e ih => exact inOrder_step ih e
  rintro ⟨⟨q0, hq0, hne⟩, hno⟩
  -- a process that waits waits for one that waits for a higher lock
  have hwait : ∀ q ∈ ps, ∀ f t, q.needs = f :: t → ∃ q' ∈ ps, ∃ g t', q'.needs = g :: t' ∧
      rank f < rank g := by
    intro q hq f t hf
    obtain ⟨i, hi⟩ := List.getElem?_of_mem hq
    have : ¬ ∀ q' ∈ ps, f ∉ q'.has := fun e =>
      hno _ (.acquire (i := i) (has := q.has) (needs := t) (f := f) (by rw [hi, ← hf]) e)
    obtain ⟨q', hq', hmem⟩ : ∃ q' ∈ ps, f ∈ q'.has := by
      refine Classical.byContradiction fun hc => this fun q' hq' hm => hc ⟨q', hq', hm⟩
    obtain ⟨j, hj⟩ := List.getElem?_of_mem hq'
    cases hn : q'.needs with
    | nil =>
      exfalso
      refine hno _ (.release (i := j) (has := q'.has) (by rw [hj, ← hn]) ?_)
      intro e
      rw [e] at hmem
      cases hmem
    | cons g t' =>
      refine ⟨q', hq', g, t', hn, ?_⟩
      have hp := hin q' hq'
      rw [hn, List.pairwise_append] at hp
      exact hp.2.2 f hmem g List.mem_cons_self
  have hstart : ∃ q ∈ ps, ∃ f t, q.needs = f :: t := by
    cases hn : q0.needs with
    | cons f t => exact ⟨q0, hq0, f, t, hn⟩
    | nil =>
      exfalso
      obtain ⟨i, hi⟩ := List.getElem?_of_mem hq0
      refine hno _ (.release (i := i) (has := q0.has) (by rw [hi, ← hn]) ?_)
      rcases hne with h | h
      · exact h
      · exact absurd hn h
  -- ranks of needed locks are bounded
  obtain ⟨B, hB⟩ : ∃ B, ∀ q ∈ ps, ∀ f t, q.needs = f :: t → rank f ≤ B := by
    clear hstart hwait hno hne hq0 hin hr
    induction ps with
    | nil => exact ⟨0, fun q hq => by cases hq⟩
    | cons a ps ih =>
      obtain ⟨B, hB⟩ := ih
      cases hn : a.needs with
      | nil =>
        refine ⟨B, fun q hq f t e => ?_⟩
        rcases List.mem_cons.1 hq with rfl | hq
        · rw [hn] at e; cases e
        · exact hB q hq f t e
      | cons x y =>
        refine ⟨B + rank x, fun q hq f t e => ?_⟩
        rcases List.mem_cons.1 hq with rfl | hq
        · rw [hn] at e; cases e; omega
        · have := hB q hq f t e; omega
  have climb : ∀ k, ∃ q ∈ ps, ∃ f t, q.needs = f :: t ∧ k ≤ rank f := by
    intro k
    induction k with
    | zero => obtain ⟨q, hq, f, t, e⟩ := hstart; exact ⟨q, hq, f, t, e, Nat.zero_le _⟩
    | succ k ih =>
      obtain ⟨q, hq, f, t, e, hk⟩ := ih
      obtain ⟨q', hq', g, t', e', hlt⟩ := hwait q hq f t e
      exact ⟨q', hq', g, t', e', by omega⟩
  obtain ⟨q, hq, f, t, e, hk⟩ := climb (B + 1)
  have := hB q hq f t e
  omega

/-- Tasks with at most one lock each never wait for each other for ever. -/
theorem one_lock_no_deadlock (needs : List (List Str)) (h1 : ∀ l ∈ needs, l.length ≤ 1)
    {ps : List Proc} (hr : MReach needs ps) : ¬ Deadlock ps := by
  refine same_order_no_deadlock_partial (fun _ => 0) needs (fun l hl => ?_) hr
  have := h1 l hl
  match l, this with
  | [], _ => exact .nil
  | [x], _ => exact List.pairwise_singleton _ x
  | _ :: _ :: _, h => simp at h

/-- The hypotheses can be met by processes that share locks and wait. -/
example : ∃ ps : List Proc, MReach [[['a'], ['b']], [['a'], ['c']], [['b'], ['c']]] ps ∧
    ps = [⟨[['a']], [['b']]⟩, ⟨[], [['a'], ['c']]⟩, ⟨[['b']], [['c']]⟩] ∧
    [[['a'], ['b']], [['a'], ['c']], [['b'], ['c']]].all fun l =>
      decide (l.Pairwise fun x y => (x.map Char.toNat).sum < (y.map Char.toNat).sum) := by
  have r1 : MReach [[['a'], ['b']], [['a'], ['c']], [['b'], ['c']]]
      [⟨[['a']], [['b']]⟩, ⟨[], [['a'], ['c']]⟩, ⟨[], [['b'], ['c']]⟩] :=
    .step .start (.acquire
      (ps := [⟨[], [['a'], ['b']]⟩, ⟨[], [['a'], ['c']]⟩, ⟨[], [['b'], ['c']]⟩])
      (i := 0) (f := ['a']) rfl (by decide))
  have r2 : MReach [[['a'], ['b']], [['a'], ['c']], [['b'], ['c']]]
      [⟨[['a']], [['b']]⟩, ⟨[], [['a'], ['c']]⟩, ⟨[['b']], [['c']]⟩] :=
    .step r1 (.acquire
      (ps := [⟨[['a']], [['b']]⟩, ⟨[], [['a'], ['c']]⟩, ⟨[], [['b'], ['c']]⟩])
      (i := 2) (f := ['b']) rfl (by decide))
  exact ⟨_, r2, rfl, by decide⟩

end Bb.Lock
