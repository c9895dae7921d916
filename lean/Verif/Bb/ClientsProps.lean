import Verif.Bb.ClientsModel
/-!
# Properties of how clients are served
-/

namespace Bb.Clients

namespace Spec

/-- One client at a time: who is being served after an event, if the event may come.  A client is served until it leaves; only its
commands are run, and it gets the replies. -/
def session : Option Nat → Ev → Option (Option Nat)
  | cur, .connected _ => some cur
  | cur, .turn _ => if cur = none then some none else none
  | cur, .served k => if cur = none ∨ cur = some k then some (some k) else none
  | cur, .ran k to _ => if cur = some k ∧ to = some k then some cur else none
  | cur, .left k => if cur = none ∨ cur = some k then some none else none

/-- Who is being served after all that happened, if it happened in order. -/
def sessions (l : List Ev) : Option (Option Nat) := l.foldl (fun c e => c.bind fun c => session c e) (some none)

/-- The clients in the order in which they connected, and in the order of their turns. -/
def connects (l : List Ev) : List Nat := l.filterMap fun e => match e with | .connected k => some k | _ => none
def turns (l : List Ev) : List Nat := l.filterMap fun e => match e with | .turn k => some k | _ => none

end Spec

theorem sessions_snoc (l : List Ev) (e : Ev) : Spec.sessions (l ++ [e]) = (Spec.sessions l).bind fun c => Spec.session c e := by
  simp [Spec.sessions]

structure Inv (s : State) : Prop where
  /-- the channels are those of the client that controls -/
  ui : s.haveui = true → s.ctrl ≠ none ∧ s.chan = s.ctrl ∧ s.reply = s.ctrl
  noui : s.haveui = false → s.chan = none ∧ s.reply = none
  /-- nobody waits without cause -/
  wait : s.waiting ≠ [] → s.ctrl ≠ none ∨ s.quit = true
  log : Spec.sessions s.log = some (if s.haveui then s.ctrl else none)
  any : s.hadanyui = false → s.haveui = false

theorem inv_init (t : Timeout) : Inv { timeout := t } := ⟨by simp, by simp, by simp, rfl, by simp⟩

theorem inv_accept (s : State) (k : Nat) (h : Inv s) : Inv (accept s k) ∧ (s.ctrl ≠ none → (accept s k).ctrl = s.ctrl) ∧ (accept s k).haveui = s.haveui ∧
    (accept s k).quit = s.quit ∧ (accept s k).chan = s.chan := by
  obtain ⟨h1, h2, h3, h4, h5⟩ := h
  unfold accept
  split
  · rename_i c hc
    refine ⟨⟨h1, h2, fun _ => Or.inl (by simp [hc]), ?_, h5⟩, by simp [hc], rfl, rfl, rfl⟩
    rw [sessions_snoc, h4]
    rfl
  · rename_i hc
    have hu : s.haveui = false := by
      cases hu : s.haveui with
      | false => rfl
      | true => exact absurd hc (h1 hu).1
    refine ⟨⟨by simp [hu], by simpa [hu] using h2 hu, by simp, ?_, h5⟩, by simp [hc], rfl, rfl, rfl⟩
    have : s.log ++ [Ev.connected k, Ev.turn k] = (s.log ++ [.connected k]) ++ [.turn k] := by simp
    rw [this, sessions_snoc, sessions_snoc, h4]
    simp [hu, Spec.session]

theorem inv_accepts (ks : List Nat) : ∀ s, Inv s → Inv (ks.foldl accept s) ∧ (s.ctrl ≠ none → (ks.foldl accept s).ctrl = s.ctrl) ∧
    (ks.foldl accept s).haveui = s.haveui ∧ (ks.foldl accept s).quit = s.quit ∧ (ks.foldl accept s).chan = s.chan := by
  induction ks with
  | nil => intro s h; exact ⟨h, fun _ => rfl, rfl, rfl, rfl⟩
  | cons k ks ih =>
    intro s h
    obtain ⟨h1, h2, h3, h4, h5⟩ := inv_accept s k h
    obtain ⟨i1, i2, i3, i4, i5⟩ := ih _ h1
    refine ⟨i1, ?_, i3.trans h3, i4.trans h4, i5.trans h5⟩
    intro hc
    have := h2 hc
    exact (i2 (by rw [this]; exact hc)).trans this

theorem inv_disconnect (i : In) (s : State) (h : Inv s) : Inv (disconnect i s) := by
  obtain ⟨h1, h2, h3, h4, h5⟩ := h
  have hb : ∀ s' : State, s'.ctrl = none → s'.haveui = false → s'.chan = none → s'.reply = none → Spec.sessions s'.log = some none →
      Inv (nextClient i s') := by
    intro s' a1 a2 a3 a4 a5
    unfold nextClient
    split
    · rename_i k hw hq
      refine ⟨by simp [a2], by simp [a3, a4], by simp, ?_, fun _ => a2⟩
      rw [sessions_snoc, a5]
      simp [a2, Spec.session]
    · rename_i hx
      split
      · exact ⟨by simp [a2], by simp [a3, a4], by simp, by simpa [a2] using a5, fun _ => a2⟩
      · refine ⟨by simp [a2], by simp [a3, a4], ?_, by simpa [a2] using a5, fun _ => a2⟩
        intro hw
        right
        cases hq : s'.quit with
        | true => rfl
        | false =>
          exfalso
          obtain ⟨k, hk⟩ : ∃ k, s'.waiting.getLast? = some k := ⟨_, List.getLast?_eq_some_getLast hw⟩
          exact hx k hk hq
  unfold disconnect
  have hc : (closeCtrl s).ctrl = none ∧ (closeCtrl s).haveui = s.haveui ∧ (closeCtrl s).chan = s.chan ∧ (closeCtrl s).reply = s.reply ∧
      Spec.sessions (closeCtrl s).log = some none := by
    unfold closeCtrl
    split
    · rename_i k hk
      refine ⟨rfl, rfl, rfl, rfl, ?_⟩
      rw [sessions_snoc, h4]
      cases hu : s.haveui <;> simp [Spec.session, hk]
    · rename_i hk
      refine ⟨hk, rfl, rfl, rfl, ?_⟩
      rw [h4, hk]
      simp
  obtain ⟨c1, c2, c3, c4, c5⟩ := hc
  unfold closeUi
  split
  · exact hb _ c1 rfl rfl rfl c5
  · rename_i hu
    have hu' : s.haveui = false := by rw [← c2]; simpa using hu
    exact hb _ c1 (by rw [c2, hu']) (by rw [c3]; exact (h2 hu').1) (by rw [c4]; exact (h2 hu').2) c5

theorem inv_quit (s : State) (h : Inv s) : Inv { s with quit := true } := ⟨h.ui, h.noui, fun _ => Or.inr rfl, h.log, h.any⟩

theorem inv_fromCtrl (i : In) (before : Option Nat) (s : State) (h : Inv s) (hb : before ≠ none → s.ctrl = before) : Inv (fromCtrl i before s) := by
  unfold fromCtrl
  split
  · rename_i k _
    have hc : s.ctrl = some k := hb (by simp)
    refine ⟨by simp [hc], by simp, h.wait, ?_, by simp⟩
    rw [sessions_snoc, h.log]
    cases s.haveui <;> simp [Spec.session, hc]
  · exact inv_disconnect i s h
  · exact h

theorem inv_timeouts (i : In) (s : State) (h : Inv s) : Inv (timeouts i s) := by
  unfold timeouts
  split
  · exact inv_quit s h
  · exact h

theorem inv_idleCommands (i : In) (s : State) (h : Inv s) : Inv (idleCommands i s) := by
  unfold idleCommands
  split
  · exact inv_quit s h
  · exact h

theorem chan_ui {s : State} (h : Inv s) {k : Nat} (hk : s.chan = some k) : s.haveui = true ∧ s.ctrl = some k ∧ s.reply = some k := by
  cases hu : s.haveui with
  | false => rw [(h.noui hu).1] at hk; cases hk
  | true =>
    obtain ⟨-, h1, h2⟩ := h.ui hu
    exact ⟨rfl, by rw [← h1, hk], by rw [h2, ← h1, hk]⟩

theorem inv_fromChan (i : In) (before : Option Nat) (s : State) (h : Inv s) : Inv (fromChan i before s) := by
  unfold fromChan
  split
  · exact inv_disconnect i s h
  · exact inv_quit s h
  · rename_i k c hk _
    apply inv_idleCommands
    obtain ⟨h1, h2, h3⟩ := chan_ui h hk
    refine ⟨h.ui, h.noui, h.wait, ?_, h.any⟩
    rw [sessions_snoc, h.log]
    simp [h1, h2, h3, Spec.session]
  · exact inv_idleCommands i s h

theorem inv_turn (s : State) (i : In) (h : Inv s) : Inv (turn s i) := by
  unfold turn
  split
  · exact h
  · obtain ⟨h1, h2, -⟩ := inv_accepts i.accepts s h
    split
    · exact inv_quit _ h1
    · exact inv_fromChan _ _ _ (inv_timeouts _ _ (inv_fromCtrl _ _ _ h1 h2))

theorem inv_run (is : List In) : ∀ s, Inv s → Inv (run s is) := by
  induction is with
  | nil => intro s h; exact h
  | cons i is ih => intro s h; exact ih _ (inv_turn s i h)

/-- C239. Clients are served one at a time, each until it leaves; only its commands are run, and it gets the replies. -/
theorem one_at_a_time (t : Timeout) (is : List In) : Spec.sessions (run { timeout := t } is).log ≠ none := by
  rw [(inv_run is _ (inv_init t)).log]
  simp

/-- C239. While clients wait, one is in control, or the server ends. -/
theorem no_idle_wait (t : Timeout) (is : List In) (h : (run { timeout := t } is).waiting ≠ []) :
    (run { timeout := t } is).ctrl ≠ none ∨ (run { timeout := t } is).quit = true := (inv_run is _ (inv_init t)).wait h

/-- A client that is served and one that waits. -/
example : (run { timeout := .none } [{ accepts := [1, 2] }, { ctrl := some .fds }, { chan := some (.command 7) }]).log =
    [.connected 1, .turn 1, .connected 2, .served 1, .ran 1 (some 1) 7] ∧
    (run { timeout := .none } [{ accepts := [1, 2] }, { ctrl := some .fds }]).waiting = [2] := by decide

/-! ## The order -/

/-- Never more than one client waits in a turn. -/
def FewWait (s : State) (i : In) : Prop := (i.accepts.foldl accept s).waiting.length ≤ 1

def FewWaitAll : State → List In → Prop
  | _, [] => True
  | s, i :: is => FewWait s i ∧ FewWaitAll (turn s i) is

def Ord (s : State) : Prop := Spec.connects s.log = Spec.turns s.log ++ s.waiting

theorem connects_append (a b : List Ev) : Spec.connects (a ++ b) = Spec.connects a ++ Spec.connects b := by simp [Spec.connects]
theorem turns_append (a b : List Ev) : Spec.turns (a ++ b) = Spec.turns a ++ Spec.turns b := by simp [Spec.turns]

theorem ord_accept (s : State) (k : Nat) (h : Ord s) (hw : s.ctrl = none → s.waiting = []) :
    Ord (accept s k) ∧ ((accept s k).ctrl = none → (accept s k).waiting = []) := by
  unfold Ord at h ⊢
  unfold accept
  split
  · rename_i c hc
    refine ⟨?_, by simp [hc]⟩
    rw [connects_append, turns_append, h]
    simp [Spec.connects, Spec.turns]
  · rename_i hc
    refine ⟨?_, by simp⟩
    rw [connects_append, turns_append, h, hw hc]
    simp [Spec.connects, Spec.turns]

theorem ord_accepts (ks : List Nat) : ∀ s, Ord s → (s.ctrl = none → s.waiting = []) → Ord (ks.foldl accept s) := by
  induction ks with
  | nil => intro s h _; exact h
  | cons k ks ih => intro s h hw; exact ih _ (ord_accept s k h hw).1 (ord_accept s k h hw).2

theorem ord_disconnect (i : In) (s : State) (h : Ord s) (hl : s.waiting.length ≤ 1) :
    Ord (disconnect i s) ∧ (disconnect i s).waiting.length ≤ 1 := by
  have hb : ∀ s' : State, Ord s' → s'.waiting.length ≤ 1 → Ord (nextClient i s') ∧ (nextClient i s').waiting.length ≤ 1 := by
    intro s' h hl
    unfold Ord at h ⊢
    unfold nextClient
    split
    · rename_i k hk _
      match hw : s'.waiting, hl with
      | [], _ => rw [hw] at hk; cases hk
      | [x], _ =>
        rw [hw] at hk h
        cases hk
        refine ⟨?_, by simp⟩
        rw [connects_append, turns_append, h]
        simp [Spec.connects, Spec.turns]
    · split <;> exact ⟨h, hl⟩
  have hc : Ord (closeCtrl s) ∧ (closeCtrl s).waiting = s.waiting := by
    unfold Ord at h ⊢
    unfold closeCtrl
    split
    · refine ⟨?_, rfl⟩
      rw [connects_append, turns_append, h]
      simp [Spec.connects, Spec.turns]
    · exact ⟨h, rfl⟩
  have hu : Ord (closeUi i (closeCtrl s)) ∧ (closeUi i (closeCtrl s)).waiting = s.waiting := by
    unfold closeUi
    split
    · exact ⟨hc.1, hc.2⟩
    · exact hc
  exact hb _ hu.1 (by rw [hu.2]; exact hl)

theorem ord_fromCtrl (i : In) (b : Option Nat) (s : State) (h : Ord s) (hl : s.waiting.length ≤ 1) :
    Ord (fromCtrl i b s) ∧ (fromCtrl i b s).waiting.length ≤ 1 := by
  unfold fromCtrl
  split
  · refine ⟨?_, hl⟩
    unfold Ord at h ⊢
    rw [connects_append, turns_append, h]
    simp [Spec.connects, Spec.turns]
  · exact ord_disconnect i s h hl
  · exact ⟨h, hl⟩

theorem ord_timeouts (i : In) (s : State) (h : Ord s) : Ord (timeouts i s) ∧ (timeouts i s).waiting = s.waiting := by
  unfold timeouts
  split <;> exact ⟨h, rfl⟩

theorem ord_idle (i : In) (s : State) (h : Ord s) : Ord (idleCommands i s) := by
  unfold idleCommands
  split <;> exact h

theorem ord_fromChan (i : In) (b : Option Nat) (s : State) (h : Ord s) (hl : s.waiting.length ≤ 1) : Ord (fromChan i b s) := by
  unfold fromChan
  split
  · exact (ord_disconnect i s h hl).1
  · exact h
  · apply ord_idle
    unfold Ord at h ⊢
    rw [connects_append, turns_append, h]
    simp [Spec.connects, Spec.turns]
  · exact ord_idle i s h

theorem ord_turn (s : State) (i : In) (hi : Inv s) (h : Ord s) (hf : FewWait s i) : Ord (turn s i) := by
  unfold turn
  split
  · exact h
  · rename_i hq
    have hw : s.ctrl = none → s.waiting = [] := by
      intro hc
      apply Classical.byContradiction
      intro hw
      rcases hi.wait hw with h' | h'
      · exact h' hc
      · exact hq h'
    split
    · exact ord_accepts i.accepts s h hw
    · obtain ⟨h2, h3⟩ := ord_fromCtrl i s.ctrl _ (ord_accepts i.accepts s h hw) hf
      obtain ⟨h4, h5⟩ := ord_timeouts i _ h2
      exact ord_fromChan _ _ _ h4 (by rw [h5]; exact h3)

theorem ord_run (is : List In) : ∀ s, Inv s → Ord s → FewWaitAll s is → Ord (run s is) := by
  induction is with
  | nil => intro s _ h _; exact h
  | cons i is ih => intro s hi h hf; exact ih _ (inv_turn s i hi) (ord_turn s i hi h hf.1) hf.2

/-- C240 (partial). As long as no more than one client waits, they have their turns in the order in which they connected. -/
theorem in_order_partial (t : Timeout) (is : List In) (hf : FewWaitAll { timeout := t } is) :
    Spec.turns (run { timeout := t } is).log <+: Spec.connects (run { timeout := t } is).log := by
  have := ord_run is _ (inv_init t) rfl hf
  rw [show Spec.connects _ = _ from this]
  exact List.prefix_append _ _

/-- Two clients, one after the other. -/
example : FewWaitAll { timeout := .never } [{ accepts := [1, 2] }, { ctrl := some .fds }, { chan := some .eof }] ∧
    Spec.turns (run { timeout := .never } [{ accepts := [1, 2] }, { ctrl := some .fds }, { chan := some .eof }]).log = [1, 2] := by
  refine ⟨⟨?_, ?_, ?_, trivial⟩, by decide⟩ <;> unfold FewWait <;> decide

/-- C240. It is not so if more wait: the last one that came is served first. -/
theorem last_first (t : Timeout) (a b c : Nat) :
    Spec.connects (run { timeout := t } [{ accepts := [a, b, c] }, { ctrl := some .fds }, { chan := some .eof }]).log = [a, b, c] ∧
    Spec.turns (run { timeout := t } [{ accepts := [a, b, c] }, { ctrl := some .fds }, { chan := some .eof }]).log = [a, c] := by
  cases t <;> simp [run, turn, raises, accept, fromCtrl, timeouts, timedOut, neverUsed, fromChan, idleCommands, disconnect, closeCtrl, closeUi, nextClient,
    Spec.connects, Spec.turns]

/-- C240. A client may wait for ever while any number of clients that came later are served: for each number there is a run in which the
client 1, which came second, has not had its turn although that many later ones have. -/
theorem starved (n : Nat) : ∃ is : List In, (run { timeout := .never } is).quit = false ∧ (run { timeout := .never } is).waiting = [1] ∧
    (Spec.turns (run { timeout := .never } is).log).length = n + 1 ∧ 1 ∉ Spec.turns (run { timeout := .never } is).log := by
  have key : ∃ is : List In, ∃ k, (run { timeout := .never } is).quit = false ∧ (run { timeout := .never } is).waiting = [1] ∧
      (run { timeout := .never } is).ctrl = some k ∧ (run { timeout := .never } is).chan = none ∧ (run { timeout := .never } is).haveui = false ∧
      (run { timeout := .never } is).timeout = .never ∧
      (Spec.turns (run { timeout := .never } is).log).length = n + 1 ∧ 1 ∉ Spec.turns (run { timeout := .never } is).log := by
    induction n with
    | zero => exact ⟨[{ accepts := [0, 1] }], 0, by decide⟩
    | succ n ih =>
      obtain ⟨is, k, h1, h2, h3, h4, h5, h6, h7, h8⟩ := ih
      refine ⟨is ++ [{ accepts := [n + 2], ctrl := some .eof }], n + 2, ?_⟩
      have hr : run { timeout := .never } (is ++ [{ accepts := [n + 2], ctrl := some .eof }]) =
          turn (run { timeout := .never } is) { accepts := [n + 2], ctrl := some .eof } := by
        simp [run]
      rw [hr]
      generalize run { timeout := .never } is = s at *
      have ht : turn s { accepts := [n + 2], ctrl := some .eof } =
          { s with ctrl := some (n + 2), log := s.log ++ [.connected (n + 2)] ++ [.left k] ++ [.turn (n + 2)] } := by
        obtain ⟨⟩ := s
        simp only at h1 h2 h3 h4 h5 h6
        subst h1 h2 h3 h4 h5 h6
        simp [turn, raises, accept, fromCtrl, timeouts, timedOut, neverUsed, fromChan, idleCommands, disconnect, closeCtrl, closeUi, nextClient]
      rw [ht]
      refine ⟨h1, h2, rfl, h4, h5, h6, ?_, ?_⟩
      · simp only [turns_append]
        simp [h7, Spec.turns] at *
        try omega
      · simp only [turns_append]
        simp [Spec.turns] at *
        exact h8
  obtain ⟨is, k, h1, h2, -, -, -, -, h7, h8⟩ := key
  exact ⟨is, h1, h2, h7, h8⟩

/-! ## The end of the server -/

theorem timeouts_quit (i : In) (s : State) (hq : s.quit = false) (h : (timeouts i s).quit = true) : timedOut i s = true ∨ neverUsed i s = true := by
  unfold timeouts at h
  split at h
  · rename_i h'
    simpa using h'
  · rw [hq] at h; cases h

theorem disconnect_quit (i : In) (s : State) (hq : s.quit = false) (h : (disconnect i s).quit = true) :
    i.idleOk = false ∨ (s.timeout = .none ∧ i.more = false ∧ s.waiting = [] ∧ (disconnect i s).ctrl = none ∧ (disconnect i s).waiting = []) := by
  have hc : (closeCtrl s).ctrl = none ∧ (closeCtrl s).quit = s.quit ∧ (closeCtrl s).waiting = s.waiting ∧ (closeCtrl s).timeout = s.timeout := by
    unfold closeCtrl
    split
    · exact ⟨rfl, rfl, rfl, rfl⟩
    · rename_i hk; exact ⟨hk, rfl, rfl, rfl⟩
  obtain ⟨c1, c2, c3, c4⟩ := hc
  have hu : (closeUi i (closeCtrl s)).ctrl = none ∧ (closeUi i (closeCtrl s)).waiting = s.waiting ∧ (closeUi i (closeCtrl s)).timeout = s.timeout ∧
      ((closeUi i (closeCtrl s)).quit = true → i.idleOk = false) := by
    unfold closeUi
    split
    · exact ⟨c1, c3, c4, by simp [c2, hq]⟩
    · exact ⟨c1, c3, c4, by simp [c2, hq]⟩
  obtain ⟨u1, u2, u3, u4⟩ := hu
  unfold disconnect at h ⊢
  generalize closeUi i (closeCtrl s) = s' at *
  cases hs : s'.quit with
  | true => exact Or.inl (u4 hs)
  | false =>
    right
    rw [← u2, ← u3]
    unfold nextClient at h ⊢
    rw [hs] at h ⊢
    cases hw : s'.waiting.getLast? with
    | some k => rw [hw] at h; simp at h
    | none =>
      rw [hw] at h
      have hw' : s'.waiting = [] := by simpa using hw
      simp only at h ⊢
      split at h
      · rename_i hx
        rw [if_pos hx]
        exact ⟨hx.1, hx.2, hw', u1, hw'⟩
      · rw [hs] at h; cases h

theorem idle_quit (i : In) (s : State) (hq : s.quit = false) (h : (idleCommands i s).quit = true) : i.dead = true := by
  unfold idleCommands at h
  split at h
  · assumption
  · rw [hq] at h; cases h

theorem disconnect_ui (i : In) (s : State) : (disconnect i s).haveui = false := by
  unfold disconnect
  have : (closeUi i (closeCtrl s)).haveui = false := by
    unfold closeUi
    split
    · rfl
    · rename_i h; simpa using h
  unfold nextClient
  split
  · exact this
  · split <;> exact this

namespace Spec

/-- The time is over in which a client must have come: nobody is served, and it has been so for the timeout, or the server has no timeout
and nobody was ever served for half a minute. -/
def TimeOver (s : State) (now : Nat) : Prop :=
  s.haveui = false ∧ ((∃ t, s.timeout = .after t ∧ s.lastui + t < now) ∨ (s.timeout = .none ∧ s.hadanyui = false ∧ s.lastui + 30 < now))

end Spec

theorem fromChan_noui (i : In) (b : Option Nat) (s : State) (h : s.chan = none) : fromChan i b s = idleCommands i s := by
  unfold fromChan
  rw [h]
  cases b <;> simp

/-- C241 (partial). The server ends although a client is connected or waits only if the client that is served asks for it, the idle thread
has ended, the work of the client that left did not end in time, the client in control has sent something that is no message, or the client in control has not told where its events go and the time is
over. -/
theorem stays_partial (t : Timeout) (is : List In) (i : In) (hq : (run { timeout := t } is).quit = false)
    (h : (turn (run { timeout := t } is) i).quit = true)
    (hs : (turn (run { timeout := t } is) i).ctrl ≠ none ∨ (turn (run { timeout := t } is) i).waiting ≠ []) :
    (i.ctrl = some .junk ∧ (run { timeout := t } is).ctrl ≠ none) ∨
      (i.chan = some .terminate ∧ (run { timeout := t } is).haveui = true) ∨ i.dead = true ∨ i.idleOk = false ∨
      Spec.TimeOver (turn (run { timeout := t } is) i) i.now := by
  have hinv := inv_run is _ (inv_init t)
  generalize run { timeout := t } is = s at *
  obtain ⟨a1, a2, a3, a4, a5⟩ := inv_accepts i.accepts s hinv
  have b1 := inv_fromCtrl i s.ctrl _ a1 a2
  have b2 := inv_timeouts i _ b1
  cases hj : raises i s with
  | true =>
    left
    unfold raises at hj
    simp at hj
    exact ⟨hj.2, fun hn => by rw [hn] at hj; simp at hj⟩
  | false =>
  right
  have hturn : turn s i = fromChan i s.chan (timeouts i (fromCtrl i s.ctrl (i.accepts.foldl accept s))) := by
    unfold turn; rw [if_neg (by simp [hq]), if_neg (by simp [hj])]
  rw [hturn] at h hs ⊢
  have hid : ∀ x : State, (idleCommands i x).ctrl = x.ctrl ∧ (idleCommands i x).waiting = x.waiting ∧ (idleCommands i x).haveui = x.haveui ∧
      (idleCommands i x).timeout = x.timeout ∧ (idleCommands i x).lastui = x.lastui ∧ (idleCommands i x).hadanyui = x.hadanyui := by
    intro x; unfold idleCommands; split <;> exact ⟨rfl, rfl, rfl, rfl, rfl, rfl⟩
  have hto : ∀ x : State, (timeouts i x).ctrl = x.ctrl ∧ (timeouts i x).waiting = x.waiting ∧ (timeouts i x).haveui = x.haveui ∧
      (timeouts i x).timeout = x.timeout ∧ (timeouts i x).lastui = x.lastui ∧ (timeouts i x).hadanyui = x.hadanyui ∧ (timeouts i x).chan = x.chan := by
    intro x; unfold timeouts; split <;> exact ⟨rfl, rfl, rfl, rfl, rfl, rfl, rfl⟩
  cases h2 : (fromCtrl i s.ctrl (i.accepts.foldl accept s)).quit with
  | true =>
    -- the connection in control was closed
    unfold fromCtrl at h2
    split at h2
    · rw [show _ = s.quit from a4, hq] at h2; cases h2
    · rename_i k hk1 hk2
      rcases disconnect_quit i _ (by rw [a4, hq]) h2 with h' | ⟨-, -, -, h', h''⟩
      · exact Or.inr (Or.inr (Or.inl h'))
      · exfalso
        have hd : fromCtrl i s.ctrl (i.accepts.foldl accept s) = disconnect i (i.accepts.foldl accept s) := by
          unfold fromCtrl; rw [hk1, hk2]
        rw [hd] at hs b1
        have hch := (b1.noui (disconnect_ui i _)).1
        rw [fromChan_noui _ _ _ (by rw [(hto _).2.2.2.2.2.2, hch])] at hs
        rw [(hid _).1, (hid _).2.1, (hto _).1, (hto _).2.1] at hs
        rcases hs with hs | hs
        · exact hs h'
        · exact hs h''
    · rw [a4, hq] at h2; cases h2
  | false =>
    generalize hx : fromCtrl i s.ctrl (i.accepts.foldl accept s) = x at *
    cases h3 : (timeouts i x).quit with
    | true =>
      right; right; right
      have hov : x.haveui = false ∧ ((∃ t, x.timeout = .after t ∧ x.lastui + t < i.now) ∨ (x.timeout = .none ∧ x.hadanyui = false ∧ x.lastui + 30 < i.now)) := by
        rcases timeouts_quit i x h2 h3 with h' | h'
        · unfold timedOut at h'
          split at h'
          · rename_i t ht
            simp at h'
            exact ⟨h'.1.1, Or.inl ⟨t, ht, h'.2⟩⟩
          · cases h'
        · unfold neverUsed at h'
          simp at h'
          exact ⟨b1.any h'.1.1, Or.inr ⟨h'.1.2, h'.1.1, h'.2⟩⟩
      rw [fromChan_noui _ _ _ (by rw [(hto _).2.2.2.2.2.2, (b1.noui hov.1).1])]
      unfold Spec.TimeOver
      rw [(hid _).2.2.1, (hid _).2.2.2.1, (hid _).2.2.2.2.1, (hid _).2.2.2.2.2, (hto _).2.2.1, (hto _).2.2.2.1, (hto _).2.2.2.2.1, (hto _).2.2.2.2.2.1]
      exact hov
    | false =>
      unfold fromChan at h
      split at h
      · rename_i c1 k1 hk1 hk2 hk3
        have hf : fromChan i s.chan (timeouts i x) = disconnect i (timeouts i x) := by
          unfold fromChan; rw [hk1, hk2, hk3]
        rw [hf] at hs
        rcases disconnect_quit i _ h3 h with h' | ⟨-, -, -, h', h''⟩
        · exact Or.inr (Or.inr (Or.inl h'))
        · rcases hs with hs | hs
          · exact absurd h' hs
          · exact absurd h'' hs
      · rename_i k _ hk _ ht
        exact Or.inl ⟨ht, (chan_ui hinv hk).1⟩
      · exact Or.inr (Or.inl (idle_quit i _ (by exact h3) h))
      · exact Or.inr (Or.inl (idle_quit i _ h3 h))

/-- A client asks the server to end while another waits. -/
example : (turn (run { timeout := .never } [{ accepts := [1, 2] }, { ctrl := some .fds }]) { chan := some .terminate }).quit = true ∧
    (turn (run { timeout := .never } [{ accepts := [1, 2] }, { ctrl := some .fds }]) { chan := some .terminate }).waiting = [2] := by decide

/-- C241. A client that was accepted is dropped if the time is over before it has told where its events go: the time is not counted from
when the client came, but from when the last one left. -/
theorem dropped (k t : Nat) (ht : t ≠ 0) (now : Nat) (hn : t < now) :
    (turn { timeout := .after t } { accepts := [k], now := now }).quit = true ∧
    (turn { timeout := .after t } { accepts := [k], now := now }).ctrl = some k := by
  simp [turn, raises, accept, fromCtrl, timeouts, timedOut, neverUsed, fromChan, idleCommands, ht, hn]

example : (turn { timeout := .after 60 } { accepts := [1], now := 61 }).quit = true := by decide

/-- C241. Anyone who connects can end the server with something that is no message, also while others wait. -/
theorem junk_ends (t : Timeout) (is : List In) (i : In) (hq : (run { timeout := t } is).quit = false) (k : Nat)
    (hc : (run { timeout := t } is).ctrl = some k) (hj : i.ctrl = some .junk) : (turn (run { timeout := t } is) i).quit = true := by
  unfold turn
  rw [if_neg (by simp [hq]), if_pos (by simp [raises, hc, hj])]

example : (run { timeout := .never } [{ accepts := [1, 2] }, { ctrl := some .junk }]).quit = true ∧
    (run { timeout := .never } [{ accepts := [1, 2] }, { ctrl := some .junk }]).waiting = [2] := by decide

/-- C241. While a client is served, no time is over: the server ends only as the client wants, or if its threads fail. -/
theorem served_stays (t : Timeout) (is : List In) (i : In) (hq : (run { timeout := t } is).quit = false) (hu : (run { timeout := t } is).haveui = true)
    (hc : i.ctrl = none) (hk : i.chan ≠ some .terminate) (he : i.chan ≠ some .eof) (hd : i.dead = false) :
    (turn (run { timeout := t } is) i).quit = false ∧ (turn (run { timeout := t } is) i).haveui = true ∧
    (turn (run { timeout := t } is) i).ctrl = (run { timeout := t } is).ctrl := by
  have hinv := inv_run is _ (inv_init t)
  generalize run { timeout := t } is = s at *
  obtain ⟨a1, a2, a3, a4, a5⟩ := inv_accepts i.accepts s hinv
  have hany : (i.accepts.foldl accept s).hadanyui = true := by
    cases h : (i.accepts.foldl accept s).hadanyui with
    | true => rfl
    | false => have := a1.any h; rw [a3, hu] at this; cases this
  have hcc := a2 (hinv.ui hu).1
  have hturn : turn s i = fromChan i s.chan (timeouts i (fromCtrl i s.ctrl (i.accepts.foldl accept s))) := by
    unfold turn; rw [if_neg (by simp [hq]), if_neg (by simp [raises, hc])]
  rw [hturn]
  have hf : fromCtrl i s.ctrl (i.accepts.foldl accept s) = i.accepts.foldl accept s := by
    unfold fromCtrl; rw [hc]; cases s.ctrl <;> rfl
  rw [hf]
  generalize i.accepts.foldl accept s = x at *
  have ht : timeouts i x = x := by
    have h1 : timedOut i x = false := by
      unfold timedOut
      rw [a3, hu]
      split <;> rfl
    have h2 : neverUsed i x = false := by
      unfold neverUsed
      rw [hany]
      rfl
    unfold timeouts
    rw [h1, h2]
    rfl
  rw [ht]
  have hi : ∀ y : State, idleCommands i y = y := by intro y; unfold idleCommands; simp [hd]
  unfold fromChan
  split
  · rename_i h; exact absurd h he
  · rename_i h; exact absurd h hk
  · rw [hi]; exact ⟨a4.trans hq, a3.trans hu, hcc⟩
  · rw [hi]; exact ⟨a4.trans hq, a3.trans hu, hcc⟩

/-- A command of a client, long after the timeout. -/
example : (turn (run { timeout := .after 60 } [{ accepts := [1] }, { ctrl := some .fds }]) { chan := some (.command 7), now := 100000 }).quit = false := by
  decide

theorem disconnect_lastui (i : In) (s : State) (h : s.haveui = true) : (disconnect i s).lastui = i.now := by
  unfold disconnect
  have hc : (closeCtrl s).haveui = true := by unfold closeCtrl; split <;> exact h
  have hu : (closeUi i (closeCtrl s)).lastui = i.now := by unfold closeUi; rw [if_pos hc]
  generalize closeUi i (closeCtrl s) = x at hu
  unfold nextClient
  split
  · exact hu
  · split <;> exact hu

/-- C241. The time counts from when the last client that was served left. -/
theorem left_at (t : Timeout) (is : List In) (i : In) (hu : (run { timeout := t } is).haveui = true)
    (hl : (turn (run { timeout := t } is) i).haveui = false) : (turn (run { timeout := t } is) i).lastui = i.now := by
  have hinv := inv_run is _ (inv_init t)
  generalize run { timeout := t } is = s at *
  obtain ⟨a1, a2, a3, a4, a5⟩ := inv_accepts i.accepts s hinv
  have b1 := inv_fromCtrl i s.ctrl _ a1 a2
  have ht : ∀ x : State, (timeouts i x).haveui = x.haveui ∧ (timeouts i x).lastui = x.lastui ∧ (timeouts i x).chan = x.chan := by
    intro x; unfold timeouts; split <;> exact ⟨rfl, rfl, rfl⟩
  have hi : ∀ x : State, (idleCommands i x).haveui = x.haveui ∧ (idleCommands i x).lastui = x.lastui := by
    intro x; unfold idleCommands; split <;> exact ⟨rfl, rfl⟩
  unfold turn at hl ⊢
  split at hl
  · rw [hu] at hl; cases hl
  · rename_i hq
    rw [if_neg hq]
    split at hl
    · rw [show _ = s.haveui from a3, hu] at hl; cases hl
    · rename_i hr
      rw [if_neg hr]
      -- what the controlling connection gives
      have hf : (fromCtrl i s.ctrl (i.accepts.foldl accept s)).haveui = true ∨
          ((fromCtrl i s.ctrl (i.accepts.foldl accept s)).haveui = false ∧ (fromCtrl i s.ctrl (i.accepts.foldl accept s)).lastui = i.now) := by
        unfold fromCtrl
        split
        · exact Or.inl rfl
        · exact Or.inr ⟨disconnect_ui i _, disconnect_lastui i _ (by rw [a3, hu])⟩
        · exact Or.inl (by rw [a3, hu])
      generalize fromCtrl i s.ctrl (i.accepts.foldl accept s) = x at *
      rcases hf with hf | ⟨hf, hn⟩
      · unfold fromChan at hl ⊢
        split at hl
        · exact disconnect_lastui i _ (by rw [(ht x).1, hf])
        · rw [show _ = x.haveui from (ht x).1, hf] at hl; cases hl
        · rw [(hi _).1, show _ = x.haveui from (ht x).1, hf] at hl; cases hl
        · rw [(hi _).1, (ht x).1, hf] at hl; cases hl
      · rw [fromChan_noui _ _ _ (by rw [(ht x).2.2, (b1.noui hf).1]), (hi _).2, (ht x).2.1, hn]

example : (turn (run { timeout := .after 60 } [{ accepts := [1] }, { ctrl := some .fds }]) { chan := some .eof, now := 500 }).lastui = 500 := by decide

end Bb.Clients
