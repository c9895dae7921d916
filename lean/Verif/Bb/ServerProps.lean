import Verif.Bb.ServerModel
/-!
# Properties of the asynchronous commands of the server
-/

namespace Bb.Server

namespace Spec

/-- The commands come one after the other: each is accepted after the one before it has finished, and finishes with one event.  The last
may be running. -/
inductive Orderly : List Ev → Prop where
  | nil : Orderly []
  | running (c : Nat) : Orderly [.accepted c]
  | next (c : Nat) (l : List Ev) : Orderly l → Orderly (.accepted c :: .finished (some c) :: l)

/-- All commands that were accepted have finished. -/
inductive Closed : List Ev → Prop where
  | nil : Closed []
  | next (c : Nat) (l : List Ev) : Closed l → Closed (.accepted c :: .finished (some c) :: l)

/-- A command that ends at once is being finished. -/
def finishing (s : State) : Bool :=
  match s.pc with
  | .body _ => true
  | _ => false

/-- No exception comes while a command that ends at once is finished. -/
def Smooth : List Act → State → Bool
  | [], _ => true
  | a :: as, s =>
    !(decide (a = .idle .raise) && finishing s) &&
      match step a s with
      | some s' => Smooth as s'
      | none => true

end Spec

theorem closed_snoc {l : List Ev} (c : Nat) (h : Spec.Closed l) : Spec.Closed (l ++ [.accepted c, .finished (some c)]) := by
  induction h with
  | nil => exact .next c _ .nil
  | next d l _ ih => exact .next d _ ih

theorem closed_orderly {l : List Ev} (h : Spec.Closed l) : Spec.Orderly l := by
  induction h with
  | nil => exact .nil
  | next d l _ ih => exact .next d _ ih

theorem closed_orderly_snoc {l : List Ev} (c : Nat) (h : Spec.Closed l) : Spec.Orderly (l ++ [.accepted c]) := by
  induction h with
  | nil => exact .running c
  | next d l _ ih => exact .next d _ ih

/-- The states that are reached.  The last command is running (`l` is what was seen before it) or all have finished (`l` is all). -/
inductive Inv : State → Prop where
  /-- nothing to do -/
  | free (q : Bool) (pc : Pc) (l : List Ev) (hp : pc = .top ∨ pc = .at [] ∨ pc = .dead) (hl : Spec.Closed l) (hq : q = false → pc ≠ .dead) :
      Inv ⟨none, [], false, pc, q, l⟩
  /-- the command is set -/
  | set (c : Nat) (pc : Pc) (l : List Ev) (hp : pc = .top ∨ pc = .at []) (hl : Spec.Closed l) :
      Inv ⟨some c, [], true, pc, false, l ++ [.accepted c]⟩
  /-- the function is registered -/
  | reg (f : Fn) (c : Nat) (pc : Pc) (l : List Ev) (hf : f = .run ∨ f = .build c) (hp : pc = .top ∨ pc = .at [] ∨ pc = .at [f])
      (hl : Spec.Closed l) : Inv ⟨some c, [f], false, pc, false, l ++ [.accepted c]⟩
  /-- the command has ended at once -/
  | body (c : Nat) (l : List Ev) (hl : Spec.Closed l) :
      Inv ⟨some c, [.run], false, .body [], false, l⟩
  | ended (l : List Ev) (hl : Spec.Closed l) : Inv ⟨none, [.run], false, .ret .run .false [], false, l⟩
  /-- the command has registered a function for a build -/
  | started (c : Nat) (l : List Ev) (hl : Spec.Closed l) :
      Inv ⟨some c, [.run, .build c], false, .ret .run .false [], false, l ++ [.accepted c]⟩
  /-- a function has returned -/
  | returned (f : Fn) (c : Nat) (l : List Ev) (hf : f = .run ∨ f = .build c) (hl : Spec.Closed l) :
      Inv ⟨some c, [f], false, .ret f .finish [], false, l ++ [.accepted c]⟩
  | broken (c : Nat) (l : List Ev) (hl : Spec.Closed l) :
      Inv ⟨some c, [.build c], false, .ret (.build c) .broken [], false, l ++ [.accepted c]⟩
  /-- the event is fired next -/
  | fire (c : Nat) (l : List Ev) (hl : Spec.Closed l) : Inv ⟨some c, [], false, .fire [], false, l ++ [.accepted c]⟩
  /-- the command is to be cleared -/
  | clear (c : Nat) (l : List Ev) (hl : Spec.Closed l) : Inv ⟨some c, [], false, .clear [], false, l⟩
  /-- the server ends -/
  | quit (c : Nat) (pc : Pc) (l : List Ev) (hp : pc = .top ∨ pc = .at [] ∨ pc = .dead) (hl : Spec.Closed l ∨ ∃ l', Spec.Closed l' ∧ l = l' ++ [.accepted c]) :
      Inv ⟨some c, [], false, pc, true, l⟩

theorem inv_init : Inv {} := .free false .top [] (Or.inl rfl) .nil (by simp)

theorem inv_idle {s : State} (o : Outcome) (h : Inv s) (hs : o = .raise → ∀ items, s.pc ≠ .body items) : Inv (idle o s) := by
  cases h with
  | free q pc l hp hl hq =>
    rcases hp with rfl | rfl | rfl
    · cases q
      · exact .free _ _ _ (by simp) hl (by simp)
      · exact .free _ _ _ (by simp) hl (by simp)
    · exact .free _ _ _ (by simp) hl (by simp)
    · exact .free _ _ _ (by simp) hl hq
  | set c pc l hp hl =>
    rcases hp with rfl | rfl
    · exact .set c _ l (by simp) hl
    · exact .set c _ l (by simp) hl
  | reg f c pc l hf hp hl =>
    rcases hp with rfl | rfl | rfl
    · exact .reg f c _ l hf (by simp) hl
    · exact .reg f c _ l hf (by simp) hl
    · rcases hf with rfl | rfl
      · cases o with
        | keep => exact .reg _ c _ l (by simp) (by simp) hl
        | done =>
          have := Inv.body c _ (closed_snoc c hl)
          simpa [idle, call] using this
        | start => exact .started c l hl
        | raise => exact .returned _ c l (by simp) hl
      · cases o with
        | keep => exact .reg _ c _ l (by simp) (by simp) hl
        | done => exact .returned _ c l (by simp) hl
        | start => exact .returned _ c l (by simp) hl
        | raise => exact .broken c l hl
  | body c l hl =>
    have : o ≠ .raise := fun e => hs e [] rfl
    simp only [idle, this, if_false]
    exact .ended l hl
  | ended l hl => exact .free _ _ _ (by simp) hl (by simp)
  | started c l hl => exact .reg _ c _ l (by simp) (by simp) hl
  | returned f c l hf hl =>
    have := Inv.fire c l hl
    simpa [idle, remove] using this
  | broken c l hl =>
    have := Inv.quit c (.at []) (l ++ [.accepted c]) (by simp) (Or.inr ⟨l, hl, rfl⟩)
    simpa [idle, remove] using this
  | fire c l hl =>
    have := Inv.clear c _ (closed_snoc c hl)
    simpa [idle] using this
  | clear c l hl =>
    by_cases ho : o = .raise
    · simp only [idle, ho, if_true]
      exact .quit c _ l (by simp) (Or.inl hl)
    · simp only [idle, ho, if_false]
      exact .free _ _ _ (by simp) hl (by simp)
  | quit c pc l hp hl =>
    rcases hp with rfl | rfl | rfl
    · exact .quit c _ l (by simp) hl
    · exact .quit c _ l (by simp) hl
    · exact .quit c _ l (by simp) hl

theorem inv_step {s s' : State} (a : Act) (h : Inv s) (hs : a = .idle .raise → ∀ items, s.pc ≠ .body items) (he : step a s = some s') :
    Inv s' := by
  cases a with
  | idle o =>
    cases he
    exact inv_idle o h fun e => hs (by rw [e])
  | busy =>
    simp only [step] at he
    split at he
    · cases he; exact h
    · cases he
  | ask c =>
    simp only [step] at he
    split at he
    · rename_i hc
      cases he
      cases h with
      | free q pc l hp hl hq =>
        obtain ⟨-, rfl, -⟩ := hc
        refine .set c pc l ?_ hl
        rcases hp with hp | hp | hp
        · exact Or.inl hp
        · exact Or.inr hp
        · exact absurd hp (hq rfl)
      | _ => simp [idleCheck] at hc
    · cases he
  | register =>
    simp only [step] at he
    split at he
    · rename_i hc
      cases he
      cases h with
      | set c pc l hp hl =>
        refine .reg .run c pc l (Or.inl rfl) ?_ hl
        rcases hp with hp | hp
        · exact Or.inl hp
        · exact Or.inr (Or.inl hp)
      | _ => cases hc
    · cases he

theorem inv_run (as : List Act) : ∀ {s s' : State}, Inv s → Spec.Smooth as s = true → run as s = some s' → Inv s' := by
  induction as with
  | nil => intro s s' h _ he; cases he; exact h
  | cons a as ih =>
    intro s s' h hs he
    simp only [run, Option.bind_eq_some_iff] at he
    obtain ⟨s1, h1, h2⟩ := he
    rw [Spec.Smooth, h1, Bool.and_eq_true] at hs
    refine ih (inv_step a h ?_ h1) hs.2 h2
    intro ha items e
    have := hs.1
    simp [ha, Spec.finishing, e] at this

/-- C237, partial: in every order of the steps of the threads, commands run one at a time, and each finishes with exactly one event before
the next is accepted.  Missing: exceptions that come while a command that ends at once is finished. -/
theorem orderly_partial (as : List Act) (s : State) (hs : Spec.Smooth as {} = true) (h : run as {} = some s) : Spec.Orderly s.log := by
  cases inv_run as inv_init hs h with
  | free q pc l hp hl hq => exact closed_orderly hl
  | set c pc l hp hl => exact closed_orderly_snoc c hl
  | reg f c pc l hf hp hl => exact closed_orderly_snoc c hl
  | body c l hl => exact closed_orderly hl
  | ended l hl => exact closed_orderly hl
  | started c l hl => exact closed_orderly_snoc c hl
  | returned f c l hf hl => exact closed_orderly_snoc c hl
  | broken c l hl => exact closed_orderly_snoc c hl
  | fire c l hl => exact closed_orderly_snoc c hl
  | clear c l hl => exact closed_orderly hl
  | quit c pc l hp hl =>
    rcases hl with hl | ⟨l', hl, rfl⟩
    · exact closed_orderly hl
    · exact closed_orderly_snoc c hl

theorem closed_even {l : List Ev} (h : Spec.Closed l) : l.length % 2 = 0 := by
  induction h with
  | nil => rfl
  | next c l _ ih => simp only [List.length_cons]; omega

theorem not_closed_snoc {l : List Ev} (c : Nat) (h : Spec.Closed l) : ¬ Spec.Closed (l ++ [.accepted c]) := by
  intro h2
  have h3 := closed_even h
  have h4 := closed_even h2
  simp only [List.length_append, List.length_cons, List.length_nil] at h4
  omega

/-- How many steps of the idle thread there are at most before the event, if no function is to be called again. -/
def rank (s : State) : Nat :=
  match s.pc, s.funs with
  | .fire _, _ => 1
  | .ret _ .false _, _ => 6
  | .ret _ _ _, _ => 2
  | .at (.build _ :: _), _ => 3
  | .at (.run :: _), _ => 7
  | .top, [.run] => 8
  | .at [], [.run] => 9
  | .top, _ => 4
  | .at [], _ => 5
  | _, _ => 0

/-- The steps of the idle thread alone. -/
def idles (os : List Outcome) (s : State) : State := os.foldl (fun s o => idle o s) s

theorem rank_step {s : State} (o : Outcome) (h : Inv s) (ho : ¬ Spec.Closed s.log) (hq : s.quit = false) (hm : s.setting = false)
    (hk : o ≠ .keep) : Spec.Closed (idle o s).log ∨ (idle o s).quit = true ∨
      (Inv (idle o s) ∧ ¬ Spec.Closed (idle o s).log ∧ (idle o s).quit = false ∧ (idle o s).setting = false ∧ rank (idle o s) < rank s) := by
  by_cases h1 : Spec.Closed (idle o s).log
  · exact Or.inl h1
  by_cases h2 : (idle o s).quit = true
  · exact Or.inr (Or.inl h2)
  have hb : ∀ items, s.pc ≠ .body items := by
    intro items e
    cases h with
    | body c l hl => exact ho hl
    | free q pc l hp hl hq => exact ho hl
    | set => cases hm
    | reg f c pc l hf hp hl => rcases hp with rfl | rfl | rfl <;> cases e
    | quit => cases hq
    | _ => cases e
  refine Or.inr (Or.inr ⟨inv_idle o h fun _ => hb, h1, by simpa using h2, ?_, ?_⟩)
  · cases h with
    | set => cases hm
    | free q pc l hp hl hq => exact absurd hl ho
    | body c l hl => exact absurd hl ho
    | quit => cases hq
    | reg f c pc l hf hp hl =>
      rcases hp with rfl | rfl | rfl
      · rfl
      · rfl
      · rcases hf with rfl | rfl <;> cases o <;> rfl
    | returned f c l hf hl => simp [idle, remove]
    | broken c l hl => simp [idle, remove]
    | clear c l hl => exact absurd hl ho
    | _ => rfl
  · cases h with
    | set => cases hm
    | free q pc l hp hl hq => exact absurd hl ho
    | body c l hl => exact absurd hl ho
    | ended l hl => exact absurd hl ho
    | clear c l hl => exact absurd hl ho
    | quit => cases hq
    | reg f c pc l hf hp hl =>
      rcases hf with rfl | rfl
      · rcases hp with rfl | rfl | rfl
        · simp [idle, rank]
        · simp [idle, rank]
        · cases o with
          | keep => exact absurd rfl hk
          | done => exact absurd (by simpa [idle, call] using closed_snoc c hl) h1
          | start => simp [idle, call, rank]
          | raise => simp [idle, call, rank]
      · rcases hp with rfl | rfl | rfl
        · simp [idle, rank]
        · simp [idle, rank]
        · cases o with
          | keep => exact absurd rfl hk
          | done => simp [idle, call, rank]
          | start => simp [idle, call, rank]
          | raise => simp [idle, call, rank]
    | started c l hl => simp [idle, remove, rank]
    | returned f c l hf hl => simp [idle, remove, rank]
    | broken c l hl => exact absurd (by simp [idle, remove]) h2
    | fire c l hl => exact absurd (by simpa [idle] using closed_snoc c hl) h1

theorem rank_run (n : Nat) : ∀ (os : List Outcome) (s : State), rank s ≤ n → n ≤ os.length → (∀ o ∈ os, o ≠ .keep) → Inv s → s.quit = false →
    s.setting = false → ∃ k ≤ n, Spec.Closed (idles (os.take k) s).log ∨ (idles (os.take k) s).quit = true := by
  induction n with
  | zero =>
    intro os s hr _ _ h hq hm
    refine ⟨0, Nat.le_refl _, Or.inl ?_⟩
    show Spec.Closed s.log
    apply Classical.byContradiction
    intro ho
    cases h with
    | set => cases hm
    | quit => cases hq
    | free q pc l hp hl hq => exact ho hl
    | body c l hl => exact ho hl
    | ended l hl => exact ho hl
    | clear c l hl => exact ho hl
    | reg f c pc l hf hp hl => rcases hf with rfl | rfl <;> rcases hp with rfl | rfl | rfl <;> simp [rank] at hr
    | _ => simp [rank] at hr
  | succ n ih =>
    intro os s hr hl hk h hq hm
    by_cases ho : Spec.Closed s.log
    · exact ⟨0, Nat.zero_le _, Or.inl ho⟩
    cases os with
    | nil => simp at hl
    | cons o os =>
      rcases rank_step o h ho hq hm (hk o (List.mem_cons_self ..)) with h1 | h1 | ⟨h1, -, h3, h4, h5⟩
      · exact ⟨1, by omega, Or.inl h1⟩
      · exact ⟨1, by omega, Or.inr h1⟩
      · obtain ⟨k, hk1, hk2⟩ := ih os (idle o s) (by omega) (by simp at hl; omega) (fun x hx => hk x (List.mem_cons_of_mem _ hx)) h1 h3 h4
        exact ⟨k + 1, by omega, hk2⟩

theorem rank_le (s : State) : rank s ≤ 9 := by
  unfold rank
  split <;> decide

/-- C237, partial: each command that was accepted gets its event: whenever one is registered, at most nine steps of the idle thread in which no function asks
to be called again bring its event, or the end of the server.  Missing: as for `orderly_partial`. -/
theorem event_comes_partial (as : List Act) (s : State) (hs : Spec.Smooth as {} = true) (h : run as {} = some s) (hm : s.setting = false) (hq : s.quit = false)
    (os : List Outcome) (ho : ∀ o ∈ os, o ≠ .keep) (hl : 9 ≤ os.length) :
    ∃ k ≤ 9, Spec.Closed (idles (os.take k) s).log ∨ (idles (os.take k) s).quit = true :=
  rank_run 9 os s (rank_le s) hl ho (inv_run as inv_init hs h) hq hm

/-! ## All runs, with exceptions at any place -/

/-- The states that are reached, whatever was seen. -/
def Inv0 (s : State) : Prop := ∃ l, Inv { s with log := l }

theorem idle_log (o : Outcome) (s : State) (l : List Ev) : ∃ l', idle o { s with log := l } = { idle o s with log := l' } := by
  obtain ⟨cur, funs, setting, pc, quit, log⟩ := s
  cases pc with
  | top => cases quit <;> exact ⟨_, rfl⟩
  | «at» items =>
    cases items with
    | nil => exact ⟨_, rfl⟩
    | cons f items => cases f <;> cases cur <;> cases o <;> exact ⟨_, rfl⟩
  | body items => cases o <;> exact ⟨_, rfl⟩
  | ret f r items =>
    by_cases h : f ∈ funs
    · cases r <;> simp [idle, remove, h]
    · cases r <;> simp [idle, remove, h]
  | fire items => exact ⟨_, rfl⟩
  | clear items => cases o <;> exact ⟨_, rfl⟩
  | dead => exact ⟨_, rfl⟩

theorem inv0_idle {s : State} (o : Outcome) (h : Inv0 s) : Inv0 (idle o s) := by
  obtain ⟨l, h⟩ := h
  obtain ⟨l', hl'⟩ := idle_log o s l
  by_cases hb : o = .raise ∧ ∃ items, s.pc = .body items
  · obtain ⟨rfl, items, hp⟩ := hb
    obtain ⟨cur, funs, setting, pc, quit, log⟩ := s
    cases hp
    cases h with
    | body c l hl => exact ⟨_, .returned .run c [] (Or.inl rfl) .nil⟩
    | free q pc l hp hl hq => simp at hp
    | set c pc l hp hl => simp at hp
    | reg f c pc l hf hp hl => simp at hp
    | quit c pc l hp hl => simp at hp
  · refine ⟨l', ?_⟩
    rw [← hl']
    exact inv_idle o h fun ho items e => hb ⟨ho, items, e⟩

theorem inv0_step {s s' : State} (a : Act) (h : Inv0 s) (he : step a s = some s') : Inv0 s' := by
  cases a with
  | idle o => cases he; exact inv0_idle o h
  | busy =>
    simp only [step] at he
    split at he
    · cases he; exact h
    · cases he
  | ask c =>
    obtain ⟨l, h⟩ := h
    refine ⟨l ++ [.accepted c], inv_step (.ask c) h (by simp) ?_⟩
    simp only [step] at he ⊢
    split at he
    · rename_i hc
      cases he
      rw [if_pos (by simpa [idleCheck] using hc)]
    · cases he
  | register =>
    obtain ⟨l, h⟩ := h
    refine ⟨l, inv_step .register h (by simp) ?_⟩
    simp only [step] at he ⊢
    split at he
    · rename_i hc
      cases he
      rw [if_pos hc]
    · cases he

theorem inv0_run (as : List Act) : ∀ {s s' : State}, Inv0 s → run as s = some s' → Inv0 s' := by
  induction as with
  | nil => intro s s' h he; cases he; exact h
  | cons a as ih =>
    intro s s' h he
    simp only [run, Option.bind_eq_some_iff] at he
    obtain ⟨s1, h1, h2⟩ := he
    exact ih (inv0_step a h h1) h2

theorem inv0_reached {as : List Act} {s : State} (h : run as {} = some s) : Inv0 s := inv0_run as ⟨[], inv_init⟩ h

/-- How many steps of the idle thread there are at most before the server is free. -/
def rank0 (s : State) : Nat :=
  match s.pc, s.funs with
  | .clear _, _ => 1
  | .fire _, _ => 2
  | .ret _ .false _, _ => 7
  | .ret _ _ _, _ => 3
  | .body _, _ => 4
  | .at (.build _ :: _), _ => 4
  | .at (.run :: _), _ => 8
  | .top, [.run] => 9
  | .at [], [.run] => 10
  | .top, _ => 5
  | .at [], _ => 6
  | .dead, _ => 0

theorem rank0_le (s : State) : rank0 s ≤ 10 := by
  unfold rank0
  split <;> decide

theorem rank0_step {s : State} (o : Outcome) (h : Inv0 s) (hc : s.cur ≠ none) (hq : s.quit = false) (hm : s.setting = false) (hk : o ≠ .keep) :
    (idle o s).cur = none ∨ (idle o s).quit = true ∨
      ((idle o s).quit = false ∧ (idle o s).setting = false ∧ rank0 (idle o s) < rank0 s) := by
  obtain ⟨l, h⟩ := h
  obtain ⟨cur, funs, setting, pc, quit, log⟩ := s
  cases h with
  | free => exact absurd rfl hc
  | ended => exact absurd rfl hc
  | set => cases hm
  | quit => cases hq
  | reg f c pc l hf hp hl =>
    right; right
    rcases hf with rfl | rfl <;> rcases hp with rfl | rfl | rfl
    · simp [idle, rank0]
    · simp [idle, rank0]
    · cases o with
      | keep => exact absurd rfl hk
      | _ => simp [idle, call, rank0]
    · simp [idle, rank0]
    · simp [idle, rank0]
    · cases o with
      | keep => exact absurd rfl hk
      | _ => simp [idle, call, rank0]
  | body c l hl =>
    cases o with
    | raise => right; right; simp [idle, rank0]
    | _ => left; simp [idle]
  | started c l hl => right; right; simp [idle, remove, rank0]
  | returned f c l hf hl => right; right; simp [idle, remove, rank0]
  | broken c l hl => right; left; simp [idle, remove]
  | fire c l hl => right; right; simp [idle, rank0]
  | clear c l hl =>
    cases o with
    | raise => right; left; simp [idle]
    | _ => left; simp [idle]

theorem rank0_run (n : Nat) : ∀ (os : List Outcome) (s : State), rank0 s ≤ n → n ≤ os.length → (∀ o ∈ os, o ≠ .keep) → Inv0 s → s.quit = false →
    s.setting = false → ∃ k ≤ n, (idles (os.take k) s).cur = none ∨ (idles (os.take k) s).quit = true := by
  induction n with
  | zero =>
    intro os s hr _ _ h hq hm
    refine ⟨0, Nat.le_refl _, Or.inl ?_⟩
    show s.cur = none
    apply Classical.byContradiction
    intro hc
    obtain ⟨l, h⟩ := h
    obtain ⟨cur, funs, setting, pc, quit, log⟩ := s
    cases h with
    | free => exact hc rfl
    | ended => exact hc rfl
    | set => cases hm
    | quit => cases hq
    | reg f c pc l hf hp hl => rcases hf with rfl | rfl <;> rcases hp with rfl | rfl | rfl <;> simp [rank0] at hr
    | _ => simp [rank0] at hr
  | succ n ih =>
    intro os s hr hl hk h hq hm
    by_cases hc : s.cur = none
    · exact ⟨0, Nat.zero_le _, Or.inl hc⟩
    cases os with
    | nil => simp at hl
    | cons o os =>
      rcases rank0_step o h hc hq hm (hk o (List.mem_cons_self ..)) with h1 | h1 | ⟨h3, h4, h5⟩
      · exact ⟨1, by omega, Or.inl h1⟩
      · exact ⟨1, by omega, Or.inr h1⟩
      · obtain ⟨k, hk1, hk2⟩ := ih os (idle o s) (by omega) (by simp at hl; omega) (fun x hx => hk x (List.mem_cons_of_mem _ hx))
          (inv0_idle o h) h3 h4
        exact ⟨k + 1, by omega, hk2⟩

/-- C238. The server becomes free again: whenever a command is registered, at most ten steps of the idle thread in which no function asks to
be called again bring the end of the command, or of the server. -/
theorem free_again (as : List Act) (s : State) (h : run as {} = some s) (hm : s.setting = false) (hq : s.quit = false)
    (os : List Outcome) (ho : ∀ o ∈ os, o ≠ .keep) (hl : 10 ≤ os.length) :
    ∃ k ≤ 10, (idles (os.take k) s).cur = none ∨ (idles (os.take k) s).quit = true :=
  rank0_run 10 os s (rank0_le s) hl ho (inv0_reached h) hq hm

/-- C238. While a command is set and not yet registered, no step of the other thread changes it or fires an event, and it can be
registered. -/
theorem register_next (as : List Act) (s : State) (h : run as {} = some s) (hm : s.setting = true) :
    (∃ s', step .register s = some s' ∧ Fn.run ∈ s'.funs) ∧
      ∀ o, (idle o s).setting = true ∧ (idle o s).cur = s.cur ∧ (idle o s).log = s.log := by
  constructor
  · refine ⟨_, by simp only [step, if_pos hm]; rfl, ?_⟩
    simp only [register]
    split
    · assumption
    · simp
  · intro o
    obtain ⟨l, hi⟩ := inv0_reached h
    obtain ⟨cur, funs, setting, pc, quit, log⟩ := s
    cases hi with
    | set c pc l hp hl => rcases hp with rfl | rfl <;> exact ⟨rfl, rfl, rfl⟩
    | _ => cases hm

/-- C238. A command that is running always has its function, or is about to finish: it is registered, or its event is fired and it is
cleared next, or the server ends. -/
theorem never_lost (as : List Act) (s : State) (h : run as {} = some s) (c : Nat) (hc : s.cur = some c) :
    s.setting = true ∨ Fn.run ∈ s.funs ∨ Fn.build c ∈ s.funs ∨ (∃ items, s.pc = .fire items) ∨ (∃ items, s.pc = .clear items) ∨
      s.quit = true := by
  obtain ⟨l, hi⟩ := inv0_reached h
  obtain ⟨cur, funs, setting, pc, quit, log⟩ := s
  cases hi with
  | free => cases hc
  | ended => cases hc
  | reg f d pc l hf hp hl => cases hc; rcases hf with rfl | rfl <;> simp
  | returned f d l hf hl => cases hc; rcases hf with rfl | rfl <;> simp
  | broken d l hl => cases hc; simp
  | _ => simp

/-- C238. A function is always in the table when it is removed, and `runAsyncCommand` is never called without a command. -/
theorem never_missing (as : List Act) (s : State) (h : run as {} = some s) :
    (∀ f r items, s.pc = .ret f r items → f ∈ s.funs) ∧ (∀ items, s.pc = .at (.run :: items) → s.cur ≠ none) := by
  obtain ⟨l, hi⟩ := inv0_reached h
  obtain ⟨cur, funs, setting, pc, quit, log⟩ := s
  cases hi with
  | free q pc l hp hl hq => rcases hp with rfl | rfl | rfl <;> simp
  | set c pc l hp hl => rcases hp with rfl | rfl <;> simp
  | reg f c pc l hf hp hl => rcases hp with rfl | rfl | rfl <;> simp
  | quit c pc l hp hl => rcases hp with rfl | rfl | rfl <;> simp
  | body c l hl => simp
  | fire c l hl => simp
  | clear c l hl => simp
  | _ =>
    refine ⟨?_, by simp⟩
    intro f r items e
    cases e
    simp

/-- C238. A client is told that the server is busy only if a command is running, or has just finished and its function is still there. -/
theorem busy_only (as : List Act) (s : State) (h : run as {} = some s) (hb : step .busy s ≠ none) :
    s.cur ≠ none ∨ s.pc = .ret .run .false [] := by
  have hi : idleCheck s = false := by
    simp only [step] at hb
    split at hb
    · rename_i hc; exact hc.2
    · exact absurd rfl hb
  obtain ⟨l, h0⟩ := inv0_reached h
  obtain ⟨cur, funs, setting, pc, quit, log⟩ := s
  cases h0 with
  | free q pc l hp hl hq => simp [idleCheck] at hi
  | ended l hl => exact Or.inr rfl
  | _ => exact Or.inl (by simp)

/-- An example: a command that ends at once, then one for a build, with the steps of the threads mixed. -/
def ex : List Act :=
  [.idle .keep, .ask 1, .idle .keep, .register, .idle .keep, .idle .done, .busy, .idle .done, .busy, .idle .keep, .ask 2, .idle .keep, .register,
    .idle .keep, .idle .start, .idle .keep, .idle .keep, .idle .keep, .idle .keep]

theorem ex_run : ∃ s, run ex {} = some s ∧ s.log = [.accepted 1, .finished (some 1), .accepted 2] := ⟨_, rfl, by decide⟩

example : Spec.Smooth ex {} = true := by decide

/-- C237 is false: if an exception comes while a command that ends at once is finished, the client gets a second event for it. -/
theorem finished_twice : ∃ (as : List Act) (s : State), run as {} = some s ∧
    s.log = [.accepted 1, .finished (some 1), .finished (some 1)] :=
  ⟨[.ask 1, .register, .idle .keep, .idle .done, .idle .raise, .idle .keep, .idle .keep], _, rfl, by decide⟩

theorem finished_twice_disorder : ¬ Spec.Orderly [.accepted 1, .finished (some 1), .finished (some 1)] := by
  intro h
  cases h with
  | next c l h => cases h

end Bb.Server
