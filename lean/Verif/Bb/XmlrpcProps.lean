import Verif.Bb.XmlrpcModel
/-!
# Properties of the commands over the network
-/

namespace Bb.Xmlrpc

/-! ## Observers -/

theorem post_run (tok : Token) (name : String) (s : State) :
    post tok (.runCommand name) s = (some (runCommand (decide (tok = .observer)) name s).1, (runCommand (decide (tok = .observer)) name s).2) := rfl

/-- C242 (partial). A synchronous command that is run for an observer is one that is marked as one that changes nothing; the others are
refused and nothing happens. -/
theorem observer_partial (name : String) (s : State) :
    ((post .observer (.runCommand name) s).2.ran ≠ s.ran → name ∈ readonlySync) ∧
    (name ∈ otherSync → name ∉ readonlySync → post .observer (.runCommand name) s = (some .notReadonly, s)) := by
  rw [post_run]
  constructor
  · intro h
    apply Classical.byContradiction
    intro hn
    apply h
    unfold runCommand
    by_cases ho : name ∈ otherSync
    · rw [if_pos (Or.inr ho), if_pos ⟨rfl, hn⟩]
    · rw [if_neg (by simp [hn, ho])]
      split
      · rfl
      · split <;> rfl
  · intro ho hn
    unfold runCommand
    rw [if_pos (Or.inr ho), if_pos ⟨rfl, hn⟩]

/-- C242. The commands that change nothing are run for an observer as for everyone. -/
theorem observer_reads (name : String) (h : name ∈ readonlySync) (s : State) (tok : Token) :
    post tok (.runCommand name) s = (some .result, { s with ran := s.ran ++ [name] }) := by
  rw [post_run]
  unfold runCommand
  rw [if_pos (Or.inl h), if_neg (by simp [h])]

/-- C242. Everyone else may run every command. -/
theorem others_run (name : String) (h : name ∈ readonlySync ∨ name ∈ otherSync) (s : State) (tok : Token) (ht : tok ≠ .observer) :
    post tok (.runCommand name) s = (some .result, { s with ran := s.ran ++ [name] }) := by
  rw [post_run]
  unfold runCommand
  rw [if_pos h, if_neg (by simp [ht])]

/-- An observer may ask for a variable, but not set one. -/
example : (post .observer (.runCommand "getVariable") {}).2.ran = ["getVariable"] ∧
    post .observer (.runCommand "setVariable") {} = (some .notReadonly, {}) := by decide +kernel

theorem async_not_sync : ∀ name ∈ asyncs, name ∉ readonlySync ∧ name ∉ otherSync := by decide +kernel

/-- C242. The asynchronous commands are not asked whether they change something: every one of them is started for an observer if none is
run, as for everyone. -/
theorem observer_starts (name : String) (h : name ∈ asyncs) (s : State) (hs : s.async = none) (tok : Token) :
    post tok (.runCommand name) s = (some .started, { s with async := some name }) := by
  rw [post_run]
  obtain ⟨h1, h2⟩ := async_not_sync name h
  unfold runCommand
  rw [if_neg (by simp [h1, h2]), if_neg (by simp [h]), if_neg (by simp [hs])]

/-- An observer starts a build, or resets the server. -/
example : post .observer (.runCommand "buildTargets") {} = (some .started, { async := some "buildTargets" }) ∧ "resetCooker" ∈ asyncs := by
  decide +kernel

/-- C242. An observer may also end the server, and remove the client that is there. -/
theorem observer_ends (s : State) : (post .observer .terminateServer s).2.quit = true ∧ (post .observer .removeClient s).2.haveui = false := by
  refine ⟨rfl, ?_⟩
  show (removeClient s).2.haveui = false
  unfold removeClient
  split
  · rfl
  · rename_i h; simpa using h

/-- C242. One asynchronous command is run at a time: while one is run, no request changes which. -/
theorem busy_keeps (tok : Token) (r : Req) (s : State) (c : String) (h : s.async = some c) : (post tok r s).2.async = some c := by
  cases r with
  | runCommand name =>
    rw [post_run]
    unfold runCommand
    dsimp only
    split
    · split <;> exact h
    · split
      · exact h
      · rw [if_pos (by simp [h])]; exact h
  | addClient t => show (addClient t s).2.async = _; unfold addClient; split <;> exact h
  | removeClient => show (removeClient s).2.async = _; unfold removeClient; split <;> exact h
  | terminateServer => exact h

example : post (.given 5) (.runCommand "buildFile") { async := some "buildTargets" } = (some .busy, { async := some "buildTargets" }) := by
  decide +kernel

/-! ## Clients -/

/-- The replies to a list of requests, in order, and the state after them. -/
def run : State → List (Token × Req) → List (Option Reply) × State
  | s, [] => ([], s)
  | s, (tok, r) :: rs => ((post tok r s).1 :: (run (post tok r s).2 rs).1, (run (post tok r s).2 rs).2)

namespace Spec

/-- A client was let in. -/
def LetIn (r : Option Reply) : Prop := ∃ t, r = some (.token (some t))

end Spec

/-- C243 (partial). While a client is there, no other is let in, until somebody removes it. -/
theorem one_client_partial (rs : List (Token × Req)) : ∀ s : State, s.haveui = true → (∀ x ∈ rs, x.2 ≠ .removeClient) →
    ∀ r ∈ (run s rs).1, ¬ Spec.LetIn r := by
  induction rs with
  | nil => intro s _ _ r hr; cases hr
  | cons x rs ih =>
    intro s hs hn r hr
    obtain ⟨tok, q⟩ := x
    have hq : q ≠ .removeClient := hn (tok, q) (by simp)
    have key : (post tok q s).2.haveui = true ∧ ¬ Spec.LetIn (post tok q s).1 := by
      cases q with
      | runCommand name =>
        rw [post_run]
        unfold runCommand
        dsimp only
        split
        · split <;> exact ⟨hs, by rintro ⟨t, ht⟩; cases ht⟩
        · split
          · exact ⟨hs, by rintro ⟨t, ht⟩; cases ht⟩
          · split <;> exact ⟨hs, by rintro ⟨t, ht⟩; cases ht⟩
      | addClient t =>
        show (addClient t s).2.haveui = true ∧ ¬ Spec.LetIn (some (addClient t s).1)
        unfold addClient
        rw [if_pos hs]
        exact ⟨hs, by rintro ⟨t, ht⟩; cases ht⟩
      | removeClient => exact absurd rfl hq
      | terminateServer => exact ⟨hs, by rintro ⟨t, ht⟩; cases ht⟩
    rcases List.mem_cons.mp hr with rfl | hr
    · exact key.2
    · exact ih _ key.1 (fun x hx => hn x (by simp [hx])) r hr

/-- C243 (partial). After a client was let in, no other is, until somebody removes it. -/
theorem let_in_once_partial (tok : Token) (q : Req) (s : State) (h : Spec.LetIn (post tok q s).1) (rs : List (Token × Req))
    (hn : ∀ x ∈ rs, x.2 ≠ .removeClient) : ∀ r ∈ (run (post tok q s).2 rs).1, ¬ Spec.LetIn r := by
  apply one_client_partial rs _ _ hn
  obtain ⟨t, ht⟩ := h
  cases q with
  | runCommand name =>
    rw [post_run] at ht
    unfold runCommand at ht
    dsimp only at ht
    split at ht
    · split at ht <;> cases ht
    · split at ht
      · cases ht
      · split at ht <;> cases ht
  | addClient t' =>
    have ht : some (addClient t' s).1 = some (Reply.token (some t)) := ht
    show (addClient t' s).2.haveui = true
    unfold addClient at ht ⊢
    split at ht
    · cases ht
    · rename_i hs; rw [if_neg hs]
  | removeClient =>
    have ht : some (removeClient s).1 = some (Reply.token (some t)) := ht
    unfold removeClient at ht
    split at ht <;> cases ht
  | terminateServer => cases ht

/-- A client is let in, a second is not, and is let in once the first is removed. -/
example : (run {} [(.missing, .addClient 1), (.missing, .addClient 2), (.given 1, .removeClient), (.missing, .addClient 3)]).1 =
    [some (.token (some 1)), some (.token none), some .none, some (.token (some 3))] := by decide

/-- C243. The token is not looked at: what is done and answered is the same for the client that was let in and for everyone else who is
not an observer. -/
theorem token_ignored (tok tok' : Token) (h : tok ≠ .observer) (h' : tok' ≠ .observer) (r : Req) (s : State) : post tok r s = post tok' r s := by
  unfold post refused
  simp only [h, h', decide_false, Bool.false_and]

/-- C243. Nobody is refused, whatever the token. -/
theorem never_refused (tok : Token) (r : Req) (s : State) : (post tok r s).1 ≠ none := by
  cases r <;> simp [post, refused]

/-- Somebody who was not let in sets a variable, and removes the client that was. -/
example : (run {} [(.missing, .addClient 1), (.given 2, .runCommand "setVariable"), (.missing, .removeClient)]).1 =
    [some (.token (some 1)), some .result, some .none] ∧
    (run {} [(.missing, .addClient 1), (.given 2, .runCommand "setVariable"), (.missing, .removeClient)]).2.ran = ["setVariable"] := by
  decide +kernel

end Bb.Xmlrpc
