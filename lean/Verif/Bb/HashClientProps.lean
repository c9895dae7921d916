import Verif.Bb.HashClientModel
/-!
# Properties of the client of the hash equivalence server
-/

namespace Bb.HashClient

namespace Spec

/-- What the server is to do for a call. -/
def wanted : Call → Done
  | .request n => .ran n
  | .getUnihash x => .looked .get x
  | .unihashExists x => .looked .exist x

end Spec

/-- Nothing was done that nobody asked for: `asked` are the questions.  No answer will be late. -/
def Clean (asked : Done → Prop) (s : S) : Prop := (∀ d ∈ s.log, asked d) ∧ .late ∉ s.env

/-- Client and server agree on the mode, and every answer was read. -/
def Agree (s : S) : Prop := ∀ m q, s.sock = .alive m q → m = s.mode ∧ q = []

def NotAlive (s : S) : Prop := ∀ m q, s.sock ≠ .alive m q

/-- What holds after a coroutine. -/
def Post {α : Type} (asked : Done → Prop) (Q : α → S → Prop) (r : Option α × S) : Prop :=
  Clean asked r.2 ∧ match r.1 with
    | some a => Q a r.2
    | none => NotAlive r.2

theorem post_bind {α β : Type} {A : Done → Prop} {Q : α → S → Prop} {R : β → S → Prop} (x : M α) (f : α → M β) (s : S)
    (hx : Post A Q (x s)) (hf : ∀ a s', Clean A s' → Q a s' → Post A R (f a s')) : Post A R (bind x f s) := by
  unfold bind
  unfold Post at hx
  revert hx
  generalize x s = r
  intro hx
  obtain ⟨o, s'⟩ := r
  cases o with
  | none => exact hx
  | some a => exact hf a s' hx.1 hx.2

theorem clean_append {A : Done → Prop} {s : S} {d : List Done} (h : Clean A s) (hd : ∀ x ∈ d, A x) (so : Sock) :
    Clean A { s with sock := so, env := s.env.tail, log := s.log ++ d } := by
  refine ⟨fun x hx => ?_, fun hl => h.2 (List.mem_of_mem_tail hl)⟩
  rcases List.mem_append.mp hx with hx | hx
  · exact h.1 x hx
  · exact hd x hx

theorem clean_tail {A : Done → Prop} {s : S} (h : Clean A s) (so : Sock) (m : Mode) : Clean A { s with sock := so, mode := m, env := s.env.tail } :=
  ⟨h.1, fun hl => h.2 (List.mem_of_mem_tail hl)⟩

theorem not_late {A : Done → Prop} {s : S} (h : Clean A s) : s.env.headD .ok ≠ .late := by
  have h2 := h.2
  cases he : s.env with
  | nil => decide
  | cons a b =>
    intro h3
    rw [he] at h2
    exact h2 (by rw [← h3]; simp)

/-- What an exchange does. -/
theorem post_exchange {A : Done → Prop} {Q : Reply → S → Prop} (msg : Msg) (s : S) (hc : Clean A s)
    (hs : ∀ m q m' r d, s.sock = .alive m q → serve m msg = some (m', r, d) → q = [] ∧ (∀ x ∈ d, A x) ∧ (msg.json = true → r.json = true) ∧
      ∀ env, Q r { s with sock := .alive m' [], env := env, log := s.log ++ d }) : Post A Q (exchange msg s) := by
  unfold exchange
  split
  · rename_i m q hm
    split
    · exact ⟨clean_tail hc _ _, fun m q h => by cases h⟩
    · exact ⟨clean_tail hc _ _, fun m q h => by cases h⟩
    · rename_i _ _ m' r d _ hr
      obtain ⟨rfl, h1, hj, h2⟩ := hs m q m' r d hm hr
      have hb : (msg.json && !r.json) = false := by
        cases hx : msg.json
        · rfl
        · simp [hj hx]
      simp only [readFirst, List.nil_append, hb, Bool.false_eq_true, if_false]
      exact ⟨clean_append hc h1 _, h2 _⟩
    · rename_i _ _ m' r d _ hr
      obtain ⟨-, h1, -⟩ := hs m q _ _ _ hm hr
      exact ⟨clean_append hc h1 _, fun m q h => by cases h⟩
    · rename_i hl _
      exact absurd hl (not_late hc)
  · rename_i hn
    exact ⟨hc, hn⟩

/-- What trying again does: `Pre` must hold whenever there is a connection, and does for a new one. -/
theorem post_wrap {α : Type} {A : Done → Prop} {Q : α → S → Prop} (Pre : S → Prop) (p : M α)
    (hnew : ∀ s, s.sock = .alive .normal [] → s.mode = .normal → Pre s)
    (hp : ∀ s, Clean A s → Pre s → Post A Q (p s)) :
    ∀ n s, Clean A s → (s.sock ≠ .none → Pre s) → Post A Q (wrap p n s) := by
  have one : ∀ s, Clean A s → (s.sock ≠ .none → Pre s) → Post A Q (bind connect (fun _ => p) s) := by
    intro s hc h
    refine post_bind (Q := fun _ s' => Pre s') connect _ s ?_ (fun _ s' hc' hq => hp s' hc' hq)
    unfold connect
    split
    · rename_i hn
      split
      · exact ⟨clean_tail hc _ _, fun m q h => by rw [show s.sock = _ from h] at hn; cases hn⟩
      · exact ⟨clean_tail hc _ _, fun m q h => by cases h⟩
      · exact ⟨clean_tail hc _ _, hnew _ rfl rfl⟩
    · rename_i hn
      exact ⟨hc, h hn⟩
  intro n
  induction n with
  | zero => exact one
  | succ n ih =>
    intro s hc h
    have := one s hc h
    unfold wrap
    revert this
    generalize bind connect (fun _ => p) s = r
    intro hr
    obtain ⟨o, s'⟩ := r
    cases o with
    | some a => exact hr
    | none => exact ih _ hr.1 (fun h => absurd rfl h)

/-- Ending a stream: it succeeds only if the server was in it. -/
theorem post_toEnd (A : Done → Prop) (s : S) (hc : Clean A s) (h : Agree s) :
    Post A (fun _ s' => s'.sock = .alive .normal []) (toEnd s) := by
  unfold toEnd
  refine post_bind (Q := fun r s' => r = .ok ∧ s'.sock = .alive .normal []) _ _ s ?_ ?_
  · refine post_wrap Agree _ ?_ ?_ 3 s hc (fun _ => h)
    · intro s h1 h2 m q hm; rw [h1] at hm; cases hm; exact ⟨h2.symm, rfl⟩
    · intro s hc h
      refine post_exchange _ s hc ?_
      intro m q m' r d hm hs
      cases m <;> simp [serve] at hs
      all_goals
        obtain ⟨rfl, rfl, rfl⟩ := hs
        exact ⟨(h _ _ hm).2, by simp, nofun, fun _ => ⟨rfl, rfl⟩⟩
  · intro r s' hc' hq
    simp only [hq.1, if_true]
    exact ⟨hc', hq.2⟩

/-- Ending a stream that the server is not in never succeeds. -/
theorem post_toEnd_twice (A : Done → Prop) (s : S) (hc : Clean A s) (h : s.sock = .alive .normal []) : Post A (fun _ _ => False) (toEnd s) := by
  unfold toEnd
  refine post_bind (Q := fun _ _ => False) _ _ s ?_ (fun _ _ _ h => h.elim)
  refine post_wrap (fun s => s.sock = .alive .normal []) _ (fun _ h _ => h) ?_ 3 s hc (fun _ => h)
  intro s hc h
  refine post_exchange _ s hc ?_
  intro m q m' r d hm hs
  rw [h] at hm
  cases hm
  simp [serve] at hs

theorem post_toNormal (A : Done → Prop) (s : S) (hc : Clean A s) (h : Agree s) : Post A (fun _ s' => Agree s' ∧ s'.mode = .normal) (toNormal s) := by
  unfold toNormal
  split
  · rename_i hm
    exact ⟨hc, h, hm⟩
  · refine post_bind _ _ s (post_toEnd A s hc h) ?_
    intro _ s' hc' hq
    refine ⟨hc', fun m q hm => ?_, rfl⟩
    rw [show s'.sock = _ from hm] at hq
    cases hq
    exact ⟨rfl, rfl⟩

/-- A request. -/
theorem post_request (A : Done → Prop) (n : Nat) (ha : A (.ran n)) (s : S) (hc : Clean A s) (h : Agree s) :
    Post A (fun r s' => Agree s' ∧ r = .val (.ran n) ∧ s'.log.getLast? = some (.ran n)) (invoke (.req n) s) := by
  unfold invoke
  refine post_bind _ _ s (post_toNormal A s hc h) ?_
  intro _ s' hc' hq
  refine post_wrap (fun s => Agree s ∧ s.mode = .normal) _ ?_ ?_ 3 s' hc' (fun _ => hq)
  · intro s h1 h2
    exact ⟨fun m q hm => by rw [h1] at hm; cases hm; exact ⟨h2.symm, rfl⟩, h2⟩
  · intro s hc hq
    refine post_exchange _ s hc ?_
    intro m q m' r d hm hs
    obtain rfl : m = .normal := by rw [(hq.1 m q hm).1, hq.2]
    simp [serve] at hs
    obtain ⟨rfl, rfl, rfl⟩ := hs
    refine ⟨(hq.1 _ q hm).2, by simpa using ha, fun _ => rfl, fun env => ⟨?_, rfl, by simp⟩⟩
    intro m q hm
    cases hm
    exact ⟨hq.2.symm, rfl⟩

/-- Going into a stream from the normal mode. -/
theorem post_toStream (A : Done → Prop) (m : Mode) (s : S) (hc : Clean A s) (h : Agree s) : Post A (fun _ s' => s'.sock = .alive m []) (toStream m s) := by
  unfold toStream
  refine post_bind (Q := fun r s' => r = .quoted ∧ s'.sock = .alive m []) _ _ s ?_ ?_
  · unfold invoke
    refine post_bind _ _ s (post_toNormal A s hc h) ?_
    intro _ s' hc' hq
    refine post_wrap (fun s => Agree s ∧ s.mode = .normal) _ ?_ ?_ 3 s' hc' (fun _ => hq)
    · intro s h1 h2
      exact ⟨fun m q hm => by rw [h1] at hm; cases hm; exact ⟨h2.symm, rfl⟩, h2⟩
    · intro s hc hq
      refine post_exchange _ s hc ?_
      intro m1 q m' r d hm hs
      obtain rfl : m1 = .normal := by rw [(hq.1 m1 q hm).1, hq.2]
      simp [serve] at hs
      obtain ⟨rfl, rfl, rfl⟩ := hs
      exact ⟨(hq.1 _ q hm).2, by simp, fun _ => rfl, fun env => ⟨rfl, rfl⟩⟩
  · intro r s' hc' hq
    simp only [hq.1, if_true]
    exact ⟨hc', hq.2⟩

/-- Going into a stream when the client believes to be in another one and the server is not: it never succeeds. -/
theorem post_toStream_bad (A : Done → Prop) (m : Mode) (s : S) (hc : Clean A s) (h : s.sock = .alive .normal []) (hm : s.mode ≠ .normal) :
    Post A (fun _ _ => False) (toStream m s) := by
  unfold toStream
  refine post_bind (Q := fun _ _ => False) _ _ s ?_ (fun _ _ _ h => h.elim)
  unfold invoke
  refine post_bind (Q := fun _ _ => False) _ _ s ?_ (fun _ _ _ h => h.elim)
  unfold toNormal
  rw [if_neg hm]
  exact post_bind _ _ s (post_toEnd_twice A s hc h) (fun _ _ _ h => h.elim)

/-- `toEnd` does not change the mode of the client if it succeeds on a connection that was there; with a new one it fails. -/
theorem toEnd_mode (A : Done → Prop) (s : S) (hc : Clean A s) (h : Agree s) (hm : s.mode ≠ .normal) :
    Post A (fun _ s' => s'.sock = .alive .normal [] ∧ s'.mode ≠ .normal) (toEnd s) := by
  unfold toEnd
  refine post_bind (Q := fun r s' => r = .ok ∧ s'.sock = .alive .normal [] ∧ s'.mode ≠ .normal) _ _ s ?_ ?_
  · refine post_wrap (fun s => Agree s) _ ?_ ?_ 3 s hc (fun _ => h)
    · intro s h1 h2 m q hm; rw [h1] at hm; cases hm; exact ⟨h2.symm, rfl⟩
    · intro s hc h
      refine post_exchange _ s hc ?_
      intro m q m' r d hm hs
      have hmm := (h m q hm).1
      cases m <;> simp [serve] at hs
      all_goals
        obtain ⟨rfl, rfl, rfl⟩ := hs
        refine ⟨(h _ _ hm).2, by simp, nofun, fun _ => ⟨rfl, rfl, ?_⟩⟩
        show s.mode ≠ .normal
        rw [← hmm]
        decide
  · intro r s' hc' hq
    simp only [hq.1, if_true]
    exact ⟨hc', hq.2⟩

theorem post_setMode (A : Done → Prop) (m : Mode) (s : S) (hc : Clean A s) (h : Agree s) :
    Post A (fun _ s' => Agree s' ∧ s'.mode = m) (setMode m s) := by
  unfold setMode
  split
  · rename_i he
    exact ⟨hc, h, he⟩
  · by_cases hn : s.mode = .normal
    · rw [if_pos hn]
      refine post_bind (Q := fun _ s' => Agree s') _ _ s ⟨hc, h⟩ ?_
      intro _ s' hc' hq
      refine post_bind _ _ s' (post_toStream A m s' hc' hq) ?_
      intro _ s2 hc2 hq2
      refine ⟨hc2, fun m' q' hm' => ?_, rfl⟩
      rw [show s2.sock = _ from hm'] at hq2
      cases hq2
      exact ⟨rfl, rfl⟩
    · rw [if_neg hn]
      refine post_bind _ _ s (toEnd_mode A s hc h hn) ?_
      intro _ s' hc' hq
      exact post_bind _ _ s' (post_toStream_bad A m s' hc' hq.1 hq.2) (fun _ _ _ h => h.elim)

theorem post_stream (A : Done → Prop) (m : Mode) (hm : m ≠ .normal) (x : Nat) (ha : A (.looked m x)) (s : S) (hc : Clean A s) (h : Agree s) :
    Post A (fun r s' => Agree s' ∧ r = .val (.looked m x) ∧ s'.log.getLast? = some (.looked m x)) (sendStream m x s) := by
  unfold sendStream
  refine post_wrap Agree _ ?_ ?_ 3 s hc (fun _ => h)
  · intro s h1 h2 m q hm; rw [h1] at hm; cases hm; exact ⟨h2.symm, rfl⟩
  · intro s hc h
    refine post_bind _ _ s (post_setMode A m s hc h) ?_
    intro _ s' hc' hq
    refine post_exchange _ s' hc' ?_
    intro m1 q m' r d hm1 hs
    obtain rfl : m1 = m := by rw [(hq.1 m1 q hm1).1, hq.2]
    have hs' : serve m1 (.line x) = some (m1, .val (.looked m1 x), [.looked m1 x]) := by
      cases m1
      · exact absurd rfl hm
      · rfl
      · rfl
    rw [hs'] at hs
    cases hs
    refine ⟨(hq.1 _ q hm1).2, by simpa using ha, nofun, fun env => ⟨?_, rfl, by simp⟩⟩
    intro m' q' hm'
    cases hm'
    exact ⟨hq.2.symm, rfl⟩

theorem post_call (A : Done → Prop) (c : Call) (ha : A (Spec.wanted c)) (s : S) (hc : Clean A s) (h : Agree s) :
    Post A (fun r s' => Agree s' ∧ r = .val (Spec.wanted c) ∧ s'.log.getLast? = some (Spec.wanted c)) (call c s) := by
  cases c with
  | request n => exact post_request A n ha s hc h
  | getUnihash x => exact post_stream A .get (by decide) x ha s hc h
  | unihashExists x => exact post_stream A .exist (by decide) x ha s hc h

theorem agree_of_post {A : Done → Prop} {c : Call} {r : Option Reply × S}
    (h : Post A (fun r s' => Agree s' ∧ r = .val (Spec.wanted c) ∧ s'.log.getLast? = some (Spec.wanted c)) r) : Agree r.2 := by
  obtain ⟨o, s⟩ := r
  cases o with
  | none => exact fun m q hm => absurd hm (h.2 m q)
  | some a => exact h.2.1

/-- C246. However the connections break, unless an answer comes after the client has stopped waiting for it, each call that gives something
gives the answer of the server to that question, and the server does nothing but what it was asked for. -/
theorem right_answers_partial (cs : List (Call × List Fault)) (hl : ∀ c ∈ cs, .late ∉ c.2) :
    (∀ (i : Nat) (r : Reply), (calls {} cs).1[i]? = some (some r) → ∃ c, cs[i]? = some c ∧ r = .val (Spec.wanted c.1)) ∧
    (∀ d ∈ (calls {} cs).2.log, ∃ c ∈ cs, d = Spec.wanted c.1) := by
  suffices H : ∀ (A : Done → Prop) (cs : List (Call × List Fault)), (∀ c ∈ cs, A (Spec.wanted c.1)) → (∀ c ∈ cs, .late ∉ c.2) →
      ∀ s : S, Agree s → (∀ d ∈ s.log, A d) →
      (∀ (i : Nat) (r : Reply), (calls s cs).1[i]? = some (some r) → ∃ c, cs[i]? = some c ∧ r = .val (Spec.wanted c.1)) ∧
      ∀ d ∈ (calls s cs).2.log, A d by
    exact H (fun d => ∃ c ∈ cs, d = Spec.wanted c.1) cs (fun c hc => ⟨c, hc, rfl⟩) hl {} (fun m q h => by cases h) (fun d h => by cases h)
  clear hl cs
  intro A cs
  induction cs with
  | nil => intro _ _ s _ hc; exact ⟨by simp [calls], hc⟩
  | cons c cs ih =>
    intro ha hl s h hc
    obtain ⟨c, env⟩ := c
    have hp := post_call A c (ha (c, env) (by simp)) { s with env := env } ⟨hc, hl (c, env) (by simp)⟩ h
    obtain ⟨h1, h2⟩ := ih (fun c hc => ha c (by simp [hc])) (fun c hc => hl c (by simp [hc])) _ (agree_of_post hp) hp.1.1
    refine ⟨?_, h2⟩
    intro i r hr
    cases i with
    | zero =>
      simp only [calls, List.getElem?_cons_zero, Option.some.injEq] at hr
      refine ⟨(c, env), by simp, ?_⟩
      have := hp.2
      rw [hr] at this
      exact this.2.1
    | succ i =>
      simp only [calls, List.getElem?_cons_succ] at hr
      obtain ⟨c', hc', hr'⟩ := h1 i r hr
      exact ⟨c', by simpa using hc', hr'⟩

/-- A report, look-ups in both streams and another report, with a connection that is lost twice. -/
example : (calls {} [(.request 1, []), (.getUnihash 2, [.after]), (.unihashExists 3, []), (.request 4, [.ok, .after])]).1 =
    [some (.val (.ran 1)), some (.val (.looked .get 2)), some (.val (.looked .exist 3)), some (.val (.ran 4))] := by decide +kernel

theorem calls_agree : ∀ (cs : List (Call × List Fault)), (∀ c ∈ cs, .late ∉ c.2) → ∀ s : S, Agree s → Agree (calls s cs).2 := by
  intro cs
  induction cs with
  | nil => exact fun _ _ h => h
  | cons c cs ih =>
    intro hl s h
    exact ih (fun c hc => hl c (by simp [hc])) _
      (agree_of_post (post_call (fun _ => True) c.1 trivial { s with env := c.2 } ⟨fun _ _ => trivial, hl c (by simp)⟩ h))

/-- C246. What a call gives, the server has done as the last thing, however the connections broke before. -/
theorem answered_done (cs : List (Call × List Fault)) (hl : ∀ c ∈ cs, .late ∉ c.2) (c : Call) (env : List Fault) (he : .late ∉ env) (r : Reply)
    (hr : (call c { (calls {} cs).2 with env := env }).1 = some r) :
    (call c { (calls {} cs).2 with env := env }).2.log.getLast? = some (Spec.wanted c) := by
  have := (post_call (fun _ => True) c trivial { (calls {} cs).2 with env := env } ⟨fun _ _ => trivial, he⟩ (calls_agree cs hl {} (fun m q h => by cases h))).2
  rw [hr] at this
  exact this.2.2

example : (call (.getUnihash 2) { (calls {} [(.request 1, [.after])]).2 with env := [.before] }).1 = some (.val (.looked .get 2)) := by
  decide +kernel

/-! What is missing from C246: answers that come late. -/

/-- Four times in a row the answer to a report comes too late. -/
def lateFour : List Fault := [.ok, .late, .ok, .late, .ok, .late, .ok, .late]

/-- After that each report is given the answer to the one before. -/
theorem late_shifts (x : Nat) (ys : List Nat) : (calls {} ((.request x, lateFour) :: ys.map fun y => (.request y, []))).1 =
    none :: (x :: ys).dropLast.map fun y => some (.val (.ran y)) := by
  have H : ∀ (ys : List Nat) (x : Nat) (l : List Done),
      (calls { sock := .alive .normal [.val (.ran x)], mode := .normal, env := [], log := l } (ys.map fun y => (Call.request y, []))).1 =
      (x :: ys).dropLast.map fun y => some (.val (.ran y)) := by
    intro ys
    induction ys with
    | nil => intros; rfl
    | cons y ys ih =>
      intro x l
      have := ih y (l ++ [.ran y])
      simp only [List.map_cons, calls, List.dropLast_cons_cons] at this ⊢
      exact congrArg _ this
  have := H ys x [.ran x, .ran x, .ran x, .ran x]
  simp only [calls]
  exact congrArg _ this

/-- The second task is given the hash of the first. -/
theorem late_wrong : (calls {} [(.request 1, lateFour), (.request 2, [])]).1 = [none, some (.val (.ran 1))] := late_shifts 1 [2]

/-- Of look-ups the same holds. -/
theorem late_lookup_wrong : (calls {} [(.getUnihash 1, []), (.getUnihash 2, [.late, .ok, .ok, .late, .ok, .ok, .late, .ok, .ok, .late]),
    (.getUnihash 3, []), (.getUnihash 4, [])]).1 = [some (.val (.looked .get 1)), none, some (.val (.looked .get 2)), some (.val (.looked .get 3))] := by
  decide +kernel

/-- And a request may be taken as a line of a stream, when the answer to the change of the mode is late. -/
theorem late_garbage : (calls {} [(.getUnihash 1, [.ok, .late, .ok, .late, .ok, .late, .ok, .late, .ok, .late, .ok, .late, .ok, .late, .ok, .late,
    .ok, .late, .ok, .late, .ok, .late, .ok, .late, .ok, .late, .ok, .late, .ok, .late, .ok, .late]), (.request 2, [])]).2.log = [.garbage] := by
  decide +kernel

/-- A report may be done twice. -/
theorem done_twice : (calls {} [(.request 1, [.ok, .after])]) = ([some (.val (.ran 1))],
    { sock := .alive .normal [], mode := .normal, env := [], log := [.ran 1, .ran 1] }) := by decide +kernel

/-! ### How much the client survives -/

namespace Spec

/-- How often the connection fails. -/
def faults (env : List Fault) : Nat := env.countP (· ≠ .ok)

end Spec

def fl (s : S) : Nat := Spec.faults s.env

/-- A coroutine that only fails because of the connection. -/
def Tries {α : Type} (Pre : S → Prop) (Q : α → S → Prop) (p : M α) : Prop := ∀ s, Pre s →
  fl (p s).2 ≤ fl s ∧ match (p s).1 with
    | some a => Q a (p s).2
    | none => fl (p s).2 < fl s

theorem tries_bind {α β : Type} {P : S → Prop} {Q : α → S → Prop} {R : β → S → Prop} (x : M α) (f : α → M β)
    (hx : Tries P Q x) (hf : ∀ a, Tries (Q a) R (f a)) : Tries P R (bind x f) := by
  intro s hs
  have h1 := hx s hs
  unfold bind
  revert h1
  generalize x s = r
  intro h1
  obtain ⟨o, s'⟩ := r
  cases o with
  | none => exact h1
  | some a =>
    obtain ⟨h2, h3⟩ := hf a s' h1.2
    refine ⟨Nat.le_trans h2 h1.1, ?_⟩
    show match (f a s').1 with | some b => R b (f a s').2 | none => fl (f a s').2 < fl s
    cases ho : (f a s').1 with
    | some b => rw [ho] at h3; exact h3
    | none => rw [ho] at h3; exact Nat.lt_of_lt_of_le h3 h1.1

theorem faults_tail (env : List Fault) : Spec.faults env.tail ≤ Spec.faults env := by
  cases env with
  | nil => exact Nat.le_refl _
  | cons a b => simp only [Spec.faults, List.tail_cons, List.countP_cons]; omega

theorem faults_head (env : List Fault) (h : env.headD .ok ≠ .ok) : Spec.faults env.tail < Spec.faults env := by
  cases env with
  | nil => exact absurd rfl h
  | cons a b =>
    have h' : a ≠ .ok := h
    simp [Spec.faults, h']

theorem tries_exchange (msg : Msg) (m m' : Mode) (r : Reply) (d : List Done) (P : S → Prop) (hs : serve m msg = some (m', r, d))
    (hj : msg.json = true → r.json = true) :
    Tries (fun s => s.sock = .alive m [] ∧ P s) (fun r' s => r' = r ∧ s.sock = .alive m' [] ∧ ∃ s0, P s0 ∧ s.mode = s0.mode) (exchange msg) := by
  intro s ⟨hm, hP⟩
  have hb : (msg.json && !r.json) = false := by
    cases hx : msg.json
    · rfl
    · simp [hj hx]
  have ht := faults_tail s.env
  have hh := faults_head s.env
  unfold exchange fl
  rw [hm]
  simp only [hs]
  cases hf : s.env.headD .ok with
  | ok =>
    simp only [readFirst, List.nil_append, hb, Bool.false_eq_true, if_false]
    exact ⟨ht, trivial, trivial, s, hP, rfl⟩
  | before => rw [hf] at hh; exact ⟨ht, hh (by decide)⟩
  | after => rw [hf] at hh; exact ⟨ht, hh (by decide)⟩
  | late => rw [hf] at hh; simp only [if_true]; exact ⟨ht, hh (by decide)⟩

theorem tries_connect (Pre : S → Prop) (hnew : ∀ s, s.sock = .alive .normal [] → s.mode = .normal → Pre s) :
    Tries (fun s => s.sock = .none ∨ (s.sock ≠ .none ∧ Pre s)) (fun _ => Pre) connect := by
  intro s hs
  have ht := faults_tail s.env
  have hh := faults_head s.env
  unfold connect fl
  split
  · split
    · rename_i hf; rw [hf] at hh; exact ⟨ht, hh (by decide)⟩
    · rename_i hf; rw [hf] at hh; exact ⟨ht, hh (by decide)⟩
    · exact ⟨ht, hnew _ rfl rfl⟩
  · rename_i hn
    refine ⟨Nat.le_refl _, ?_⟩
    rcases hs with h | h
    · exact absurd h hn
    · exact h.2

theorem tries_wrap {α : Type} {Q : α → S → Prop} (Pre : S → Prop) (p : M α) (hnew : ∀ s, s.sock = .alive .normal [] → s.mode = .normal → Pre s)
    (hp : Tries Pre Q p) : ∀ n, Tries (fun s => s.sock = .none ∨ (s.sock ≠ .none ∧ Pre s)) Q (wrap p n) ∧
      ∀ s, (s.sock = .none ∨ (s.sock ≠ .none ∧ Pre s)) → fl s ≤ n → ∃ a, (wrap p n s).1 = some a ∧ Q a (wrap p n s).2 := by
  have one := tries_bind connect (fun _ => p) (tries_connect Pre hnew) (fun _ => hp)
  intro n
  induction n with
  | zero =>
    refine ⟨one, fun s hs hf => ?_⟩
    obtain ⟨h1, h2⟩ := one s hs
    cases ho : (bind connect (fun _ => p) s).1 with
    | some a => rw [ho] at h2; exact ⟨a, ho, h2⟩
    | none => rw [ho] at h2; exact absurd h2 (by simp only; omega)
  | succ n ih =>
    obtain ⟨ih1, ih2⟩ := ih
    refine ⟨fun s hs => ?_, fun s hs hf => ?_⟩
    · have h1 := one s hs
      unfold wrap
      revert h1
      generalize bind connect (fun _ => p) s = r
      intro h1
      obtain ⟨o, s'⟩ := r
      cases o with
      | some a => exact h1
      | none =>
        obtain ⟨h2, h3⟩ := ih1 { s' with sock := .none } (.inl rfl)
        have h4 : fl { s' with sock := .none } < fl s := h1.2
        refine ⟨by simp only; omega, ?_⟩
        simp only
        revert h2 h3
        generalize wrap p n { s' with sock := .none } = r
        intro h2 h3
        cases ho : r.1 with
        | some a => rw [ho] at h3; exact h3
        | none => simp only; omega
    · have h1 := one s hs
      unfold wrap
      revert h1
      generalize bind connect (fun _ => p) s = r
      intro h1
      obtain ⟨o, s'⟩ := r
      cases o with
      | some a => exact ⟨a, rfl, h1.2⟩
      | none =>
        have h4 : fl { s' with sock := .none } < fl s := h1.2
        exact ih2 { s' with sock := .none } (.inl rfl) (by omega)

/-- C247. A client in the normal mode survives three failures of the connection during a request. -/
theorem request_survives (s : S) (n : Nat) (hm : s.mode = .normal) (hs : s.sock = .none ∨ s.sock = .alive .normal [])
    (hf : Spec.faults s.env ≤ 3) : (call (.request n) s).1 = some (.val (.ran n)) := by
  have hp := tries_exchange (.req n) .normal .normal (.val (.ran n)) [.ran n] (fun _ => True) rfl (fun _ => rfl)
  obtain ⟨a, h1, h2⟩ := (tries_wrap _ _ (fun s h _ => ⟨h, trivial⟩) hp 3).2 s
    (by rcases hs with h | h
        · exact .inl h
        · exact .inr ⟨by rw [h]; decide, h, trivial⟩) hf
  show (bind toNormal (fun _ => wrap (exchange (.req n)) 3) s).1 = _
  unfold bind toNormal
  rw [if_pos hm]
  simp only
  rw [h1, h2.1]

example : (call (.request 7) { env := [.ok, .after, .before, .ok, .before] }).1 = some (.val (.ran 7)) :=
  request_survives { env := [.ok, .after, .before, .ok, .before] } 7 rfl (.inl rfl) (by decide)

/-- Four are too many. -/
theorem request_gives_up (n : Nat) : (call (.request n) { env := [.before, .before, .before, .before] }).1 = none := rfl

/-- What a look-up does on a connection in the normal mode, or in its own. -/
theorem tries_lookup (m : Mode) (hm : m ≠ .normal) (x : Nat) :
    Tries (fun s => s.sock = .alive s.mode [] ∧ (s.mode = .normal ∨ s.mode = m)) (fun r _ => r = .val (.looked m x))
      (bind (setMode m) fun _ => exchange (.line x)) := by
  have hs' : serve m (.line x) = some (m, .val (.looked m x), [.looked m x]) := by
    cases m
    · exact absurd rfl hm
    · rfl
    · rfl
  refine tries_bind (Q := fun _ s => s.sock = .alive m [] ∧ True) _ _ ?_ ?_
  · intro s ⟨h1, h2⟩
    by_cases he : s.mode = m
    · unfold setMode
      rw [if_pos he]
      exact ⟨Nat.le_refl _, by rw [← he]; exact h1, trivial⟩
    · have hn : s.mode = .normal := by rcases h2 with h | h
                                       · exact h
                                       · exact absurd h he
      have hx := tries_exchange (.enter m) .normal m .quoted [] (fun s => s.mode = .normal) (by cases m <;> rfl) (fun _ => rfl)
      have hw := (tries_wrap _ _ (fun s h h' => ⟨h, h'⟩) hx 3).1
      have hts : Tries (fun s => s.sock = .alive .normal [] ∧ s.mode = .normal) (fun _ s => s.sock = .alive m []) (toStream m) := by
        refine tries_bind (Q := fun r s => r = .quoted ∧ s.sock = .alive m []) _ _ ?_ ?_
        · refine tries_bind (Q := fun _ s => s.sock = .alive .normal [] ∧ s.mode = .normal) _ _ ?_ ?_
          · intro s hs
            unfold toNormal
            rw [if_pos hs.2]
            exact ⟨Nat.le_refl _, hs⟩
          · intro _ s hs
            obtain ⟨h1, h2⟩ := hw s (.inr ⟨by rw [hs.1]; nofun, hs⟩)
            refine ⟨h1, ?_⟩
            revert h2
            cases (wrap (exchange (.enter m)) 3 s).1 with
            | none => exact id
            | some a => exact fun h => ⟨h.1, h.2.1⟩
        · intro r s hs
          simp only [hs.1, if_true]
          exact ⟨Nat.le_refl _, hs.2⟩
      have hset : Tries (fun s => s.sock = .alive .normal [] ∧ s.mode = .normal) (fun _ s => s.sock = .alive m [] ∧ True)
          (bind (toStream m) fun _ => setClient m) :=
        tries_bind _ _ hts (fun _ s hs => ⟨Nat.le_refl _, hs, trivial⟩)
      have hr : setMode m s = bind (toStream m) (fun _ => setClient m) s := by
        unfold setMode
        rw [if_neg he, if_pos hn]
        rfl
      rw [hr]
      exact hset s ⟨by rw [h1, hn], hn⟩
  · intro _
    have hx := tries_exchange (.line x) m m (.val (.looked m x)) [.looked m x] (fun _ => True) hs' nofun
    intro s hs
    obtain ⟨h1, h2⟩ := hx s hs
    refine ⟨h1, ?_⟩
    revert h2
    cases (exchange (.line x) s).1 with
    | none => exact id
    | some a => exact fun h => h.1

/-- C247. During a look-up three failures are survived, if the client is in the normal mode or in the one for this kind of look-up. -/
theorem lookup_survives (s : S) (m : Mode) (hm : m ≠ .normal) (x : Nat)
    (hs : s.sock = .none ∨ (s.sock = .alive s.mode [] ∧ (s.mode = .normal ∨ s.mode = m))) (hf : Spec.faults s.env ≤ 3) :
    (sendStream m x s).1 = some (.val (.looked m x)) := by
  obtain ⟨a, h1, h2⟩ := (tries_wrap _ _ (fun s h h' => ⟨by rw [h, h'], .inl h'⟩) (tries_lookup m hm x) 3).2 s
    (by rcases hs with h | h
        · exact .inl h
        · exact .inr ⟨by rw [h.1]; nofun, h⟩) hf
  unfold sendStream
  rw [h1, h2]

example : (call (.getUnihash 7) { env := [.ok, .ok, .after, .ok, .late, .before] }).1 = some (.val (.looked .get 7)) :=
  lookup_survives { env := [.ok, .ok, .after, .ok, .late, .before] } .get (by decide) 7 (.inl rfl) (by decide)

def Mono {α : Type} (p : M α) : Prop := ∀ s, fl (p s).2 ≤ fl s

theorem mono_bind {α β : Type} (x : M α) (f : α → M β) (hx : Mono x) (hf : ∀ a, Mono (f a)) : Mono (bind x f) := by
  intro s
  have h1 := hx s
  unfold bind
  revert h1
  generalize x s = r
  intro h1
  obtain ⟨o, s'⟩ := r
  cases o with
  | none => exact h1
  | some a => exact Nat.le_trans (hf a s') h1

theorem mono_exchange (msg : Msg) : Mono (exchange msg) := by
  intro s
  have ht := faults_tail s.env
  have hrd : ∀ m q s', fl (readFirst msg m q s').2 = fl s' := by intro m q s'; cases q <;> rfl
  unfold exchange
  split
  · split
    · exact ht
    · exact ht
    · rw [hrd]; exact ht
    · exact ht
    · split
      · exact ht
      · rw [hrd]; exact ht
  · exact Nat.le_refl _

theorem mono_connect : Mono connect := by
  intro s
  have ht := faults_tail s.env
  unfold connect
  split
  · split <;> exact ht
  · exact Nat.le_refl _

theorem mono_wrap {α : Type} (p : M α) (hp : Mono p) : ∀ n, Mono (wrap p n) := by
  have one := mono_bind connect (fun _ => p) mono_connect (fun _ => hp)
  intro n
  induction n with
  | zero => exact one
  | succ n ih =>
    intro s
    have h1 := one s
    unfold wrap
    revert h1
    generalize bind connect (fun _ => p) s = r
    intro h1
    obtain ⟨o, s'⟩ := r
    cases o with
    | some a => exact h1
    | none => exact Nat.le_trans (ih { s' with sock := .none }) h1

theorem mono_check (q : Reply) (r : Reply) : Mono (fun s => if r = q then (some (), s) else (none, s)) := by
  intro s
  dsimp only
  split <;> exact Nat.le_refl _

theorem mono_toEnd : Mono toEnd := mono_bind _ _ (mono_wrap _ (mono_exchange _) 3) (fun r => mono_check .ok r)

theorem mono_setClient (m : Mode) : Mono (setClient m) := fun _ => Nat.le_refl _

theorem mono_toNormal : Mono toNormal := by
  intro s
  unfold toNormal
  split
  · exact Nat.le_refl _
  · exact mono_bind _ _ mono_toEnd (fun _ => mono_setClient _) s

theorem mono_setMode (m : Mode) : Mono (setMode m) := by
  intro s
  unfold setMode
  split
  · exact Nat.le_refl _
  · refine mono_bind _ _ ?_ (fun _ => mono_bind _ _ (mono_bind _ _ (mono_bind _ _ mono_toNormal fun _ => mono_wrap _ (mono_exchange _) 3)
      (fun r => mono_check .quoted r)) (fun _ => mono_setClient m)) s
    split
    · exact fun _ => Nat.le_refl _
    · exact mono_toEnd

/-- C247. After any history in which no answer was late, a look-up survives two failures of the connection, and gives the right answer. -/
theorem lookups_survive (cs : List (Call × List Fault)) (hl : ∀ c ∈ cs, .late ∉ c.2) (c : Call) (hc : ∀ n, c ≠ .request n) (env : List Fault)
    (he : .late ∉ env) (hf : Spec.faults env ≤ 2) : (call c { (calls {} cs).2 with env := env }).1 = some (.val (Spec.wanted c)) := by
  have hA := calls_agree cs hl {} (fun m q h => by cases h)
  have H : ∀ (m : Mode) (x : Nat) (s : S), m ≠ .normal → Agree s → .late ∉ s.env → fl s ≤ 2 →
      (sendStream m x s).1 = some (.val (.looked m x)) := by
    intro m x s hm hs hl hf
    have h1 := mono_bind connect (fun _ => bind (setMode m) fun _ => exchange (.line x)) mono_connect
      (fun _ => mono_bind _ _ (mono_setMode m) fun _ => mono_exchange _) s
    have hr := (post_stream (fun _ => True) m hm x trivial s ⟨fun _ _ => trivial, hl⟩ hs).2
    suffices h : (sendStream m x s).1.isSome by
      obtain ⟨a, ha⟩ := Option.isSome_iff_exists.mp h
      rw [ha] at hr
      rw [ha, hr.2.1]
    clear hr
    unfold sendStream wrap
    revert h1
    generalize bind connect (fun _ => bind (setMode m) fun _ => exchange (.line x)) s = r
    intro h1
    obtain ⟨o, s'⟩ := r
    cases o with
    | some a => rfl
    | none =>
      obtain ⟨a, h2, -⟩ := (tries_wrap _ _ (fun s h h' => ⟨by rw [h, h'], .inl h'⟩) (tries_lookup m hm x) 2).2 { s' with sock := .none } (.inl rfl)
        (Nat.le_trans h1 hf)
      exact Option.isSome_iff_exists.mpr ⟨a, h2⟩
  cases c with
  | request n => exact absurd rfl (hc n)
  | getUnihash x => exact H .get x _ (by decide) hA he hf
  | unihashExists x => exact H .exist x _ (by decide) hA he hf

example : (call (.unihashExists 2) { (calls {} [(.getUnihash 1, [])]).2 with env := [.after, .ok, .before] }).1 = some (.val (.looked .exist 2)) := by
  decide +kernel

/-! A request that follows a look-up survives nothing, although the server can be reached: the client goes back to the normal mode first, and on a
new connection, which is in that mode, it tries that again and again. -/

theorem post_fin_new (A : Done → Prop) (n : Nat) (s : S) (hc : Clean A s) (h : s.sock = .none) :
    Post A (fun _ _ => False) (wrap (exchange .fin) n s) := by
  refine post_wrap (fun s => s.sock = .alive .normal []) _ (fun _ h _ => h) ?_ n s hc (fun h' => absurd h h')
  intro s hc h
  refine post_exchange _ s hc ?_
  intro m q m' r d hm hs
  rw [h] at hm
  cases hm
  simp [serve] at hs

/-- What is missing from C247. -/
theorem request_lost (s : S) (m : Mode) (hm : m ≠ .normal) (hs : s.sock = .alive m []) (hmo : s.mode = m) (f : Fault) (rest : List Fault)
    (he : s.env = f :: rest) (hf : f = .before ∨ f = .after) (hl : .late ∉ rest) (n : Nat) : (call (.request n) s).1 = none := by
  have h1 : ∀ s' : S, .late ∉ s'.env → s'.sock = .none → (wrap (exchange .fin) 2 s').1 = none := by
    intro s' h2 h3
    have := (post_fin_new (fun _ => True) 2 s' ⟨fun _ _ => trivial, h2⟩ h3).2
    revert this
    cases (wrap (exchange .fin) 2 s').1 with
    | none => exact fun _ => rfl
    | some a => exact fun h => h.elim
  have h2 : ∃ s', exchange .fin s = (none, s') ∧ s'.env = rest := by
    unfold exchange
    rw [hs, he]
    rcases hf with rfl | rfl
    · exact ⟨_, rfl, rfl⟩
    · cases m with
      | normal => exact absurd rfl hm
      | get => exact ⟨_, rfl, rfl⟩
      | exist => exact ⟨_, rfl, rfl⟩
  obtain ⟨s', h2, h3⟩ := h2
  have h4 : (wrap (exchange .fin) 3 s).1 = none := by
    have hb : bind connect (fun _ => exchange .fin) s = (none, s') := by
      have : connect s = (some (), s) := by unfold connect; rw [hs]
      unfold bind
      rw [this]
      exact h2
    unfold wrap
    rw [hb]
    exact h1 { s' with sock := .none } (by rw [← h3] at hl; exact hl) rfl
  have h5 : (toNormal s).1 = none := by
    unfold toNormal
    rw [if_neg (by rw [hmo]; exact hm)]
    unfold toEnd bind
    revert h4
    generalize wrap (exchange .fin) 3 s = r
    intro h4
    obtain ⟨o, s2⟩ := r
    cases h4
    rfl
  show (bind toNormal _ s).1 = none
  unfold bind
  revert h5
  generalize toNormal s = r
  intro h5
  obtain ⟨o, s2⟩ := r
  cases h5
  rfl

/-- The connection is lost once between a look-up and a report. -/
theorem request_lost_reachable : (calls {} [(.getUnihash 1, []), (.request 2, [.before]), (.request 2, [])]).1 =
    [some (.val (.looked .get 1)), none, some (.val (.ran 2))] := by decide +kernel

end Bb.HashClient
