import Verif.Bb.UiQueueModel
/-!
# Properties of the queue of events of the user interface
-/

namespace Bb.UiQueue

namespace Spec

/-- The events among the results of the calls. -/
def events (got : List (Option Nat)) : List Nat := got.filterMap id

end Spec

/-- What is on its way into the queue. -/
def pending : Lock → List Nat
  | .put0 e => [e]
  | _ => []

structure Inv (s : S) : Prop where
  order : Spec.events s.got ++ s.queue ++ pending s.lock = s.sent
  flag : match s.lock with
    | .put1 => s.queue ≠ []
    | .put2 => s.queue ≠ [] ∧ s.flag = true
    | .get1 => s.queue ≠ [] ∧ s.flag = true
    | .get2 => s.flag = true
    | .get3 => s.queue = [] ∧ s.flag = true
    | _ => s.flag = !s.queue.isEmpty
  woken : s.woken = some true → match s.lock with
    | .get1 => True
    | .get2 => True
    | .get3 => True
    | .get4 => True
    | _ => s.queue ≠ []
  inside : match s.lock with
    | .get0 => s.woken.isSome = true
    | .get1 => s.woken.isSome = true
    | .get2 => s.woken.isSome = true
    | .get3 => s.woken.isSome = true
    | .get4 => s.woken.isSome = true
    | _ => True
  length : s.got.length = s.flags.length
  gives : ∀ x ∈ s.got.zip s.flags, x.2 = true → x.1 ≠ none

theorem inv_step {s s' : S} (h : Inv s) (hs : Step s s') : Inv s' := by
  obtain ⟨h1, h2, h3, h4, h5, h6⟩ := h
  cases hs with
  | putLock e hl =>
    simp only [hl, pending, List.append_nil] at h1 h2 h3 h4
    exact ⟨by simp only [pending, h1], h2, h3, trivial, h5, h6⟩
  | append e hl =>
    simp only [hl, pending] at h1 h2 h3 h4
    exact ⟨by simpa [pending] using h1, by simp, fun _ => by simp, trivial, h5, h6⟩
  | set hl =>
    simp only [hl, pending] at h1 h2 h3 h4
    exact ⟨h1, ⟨h2, rfl⟩, h3, trivial, h5, h6⟩
  | putUnlock hl =>
    simp only [hl, pending] at h1 h2 h3 h4
    refine ⟨h1, ?_, h3, trivial, h5, h6⟩
    show s.flag = !s.queue.isEmpty
    rw [h2.2]
    cases hq : s.queue with
    | nil => exact absurd hq h2.1
    | cons a b => rfl
  | wake hw hf =>
    refine ⟨h1, h2, ?_, ?_, h5, h6⟩
    · intro _
      show match s.lock with
        | .get1 => True
        | .get2 => True
        | .get3 => True
        | .get4 => True
        | _ => s.queue ≠ []
      cases hl : s.lock <;> simp only [hl, hf, hw, Option.isSome_none] at h2 h4 ⊢
      all_goals first
        | exact trivial
        | exact absurd h4 (by decide)
        | exact h2
        | exact h2.1
        | (intro hq; rw [hq] at h2; exact absurd h2 (by decide))
    · cases s.lock <;> first | exact trivial | rfl
  | timeOver hw =>
    refine ⟨h1, h2, fun h => (by cases h), ?_, h5, h6⟩
    cases s.lock <;> first | exact trivial | rfl
  | getLock hl hw =>
    simp only [hl, pending] at h1 h2 h3 h4
    exact ⟨h1, h2, h3, hw, h5, h6⟩
  | empty w hl hq hw =>
    simp only [hl, pending, hq, hw, List.append_nil] at h1 h2 h3 h4
    refine ⟨?_, ?_, fun _ => trivial, ?_, by simp [h5], ?_⟩
    · simpa [pending, Spec.events, hq] using h1
    · show s.flag = !s.queue.isEmpty
      rw [hq]; exact h2
    · show s.woken.isSome = true
      rw [hw]; rfl
    · intro x hx
      rw [List.zip_append h5] at hx
      rcases List.mem_append.mp hx with hx | hx
      · exact h6 x hx
      · have : x = (none, w) := by simpa using hx
        subst this
        intro hwt
        have hwt : w = true := hwt
        rw [hwt] at h3
        exact absurd rfl (h3 rfl)
  | notEmpty hl hq =>
    simp only [hl, pending] at h1 h2 h3 h4
    refine ⟨h1, ⟨hq, ?_⟩, fun _ => trivial, h4, h5, h6⟩
    rw [h2]
    cases hq' : s.queue with
    | nil => exact absurd hq' hq
    | cons a b => rfl
  | pop e q w hl hq hw =>
    simp only [hl, pending, hq, List.append_nil] at h1 h2 h3 h4
    refine ⟨?_, h2.2, fun _ => trivial, h4, by simp [h5], ?_⟩
    · simpa [pending, Spec.events] using h1
    · intro x hx
      rw [List.zip_append h5] at hx
      rcases List.mem_append.mp hx with hx | hx
      · exact h6 x hx
      · have : x = (some e, w) := by simpa using hx
        subst this
        exact fun _ h => by cases h
  | last hl hq =>
    simp only [hl, pending] at h1 h2 h3 h4
    exact ⟨h1, ⟨hq, h2⟩, fun _ => trivial, h4, h5, h6⟩
  | more hl hq =>
    simp only [hl, pending] at h1 h2 h3 h4
    refine ⟨h1, ?_, fun _ => trivial, h4, h5, h6⟩
    show s.flag = !s.queue.isEmpty
    rw [h2]
    cases hq' : s.queue with
    | nil => exact absurd hq' hq
    | cons a b => rfl
  | clear hl =>
    simp only [hl, pending] at h1 h2 h3 h4
    exact ⟨h1, by show false = !s.queue.isEmpty; rw [h2.1]; rfl, fun _ => trivial, h4, h5, h6⟩
  | getUnlock hl =>
    simp only [hl, pending] at h1 h2 h3 h4
    exact ⟨h1, h2, fun h => (by cases h), trivial, h5, h6⟩

theorem inv_reach {s : S} (h : Reach s) : Inv s := by
  induction h with
  | init => exact ⟨rfl, rfl, fun h => (by cases h), trivial, rfl, fun x hx => (by cases hx)⟩
  | step s s' _ hs ih => exact inv_step ih hs

/-- C249. The user interface gets the events in the order in which they came, each once. -/
theorem in_order (s : S) (h : Reach s) : Spec.events s.got <+: s.sent := by
  rw [← (inv_reach h).order, List.append_assoc]
  exact List.prefix_append _ _

/-- C249. None is lost: what it has not got yet is in the queue. -/
theorem none_lost (s : S) (h : Reach s) (hl : s.lock = .free) : Spec.events s.got ++ s.queue = s.sent := by
  have := (inv_reach h).order
  rw [hl] at this
  simpa [pending] using this

/-- C249. It does not wait while there is an event, and only then. -/
theorem no_lost_wakeup (s : S) (h : Reach s) (hl : s.lock = .free) : s.flag = true ↔ s.queue ≠ [] := by
  have := (inv_reach h).flag
  rw [hl] at this
  simp only at this
  rw [this]
  cases s.queue with
  | nil => simp
  | cons a b => simp

/-- C249. Whoever was woken by the flag gets an event. -/
theorem woken_gets (s : S) (h : Reach s) (i : Nat) (hf : s.flags[i]? = some true) : ∃ e, s.got[i]? = some (some e) := by
  have hinv := inv_reach h
  have hi : i < s.flags.length := (List.getElem?_eq_some_iff.mp hf).1
  have hg : i < s.got.length := by rw [hinv.length]; exact hi
  have hfi : s.flags[i] = true := (List.getElem?_eq_some_iff.mp hf).2
  have hz : (s.got[i], s.flags[i]) ∈ s.got.zip s.flags := by
    have hlen : i < (s.got.zip s.flags).length := by simp only [List.length_zip]; omega
    have := List.getElem_mem hlen
    rwa [List.getElem_zip] at this
  have := hinv.gives _ hz hfi
  cases hx : s.got[i] with
  | none => exact absurd hx this
  | some e => exact ⟨e, by rw [List.getElem?_eq_getElem hg, hx]⟩

inductive Steps : S → S → Prop where
  | refl (s : S) : Steps s s
  | tail {s t u : S} : Steps s t → Step t u → Steps s u

/-- C249. From every state in which nobody has the lock and an event is in the queue, a call of the user interface gives the first one. -/
theorem delivered (s : S) (h : Reach s) (hl : s.lock = .free) (hw : s.woken = none) (e : Nat) (q : List Nat) (hq : s.queue = e :: q) :
    ∃ s', Steps s s' ∧ s'.lock = .free ∧ s'.got = s.got ++ [some e] ∧ s'.queue = q := by
  have hf := (no_lost_wakeup s h hl).mpr (by rw [hq]; simp)
  have k1 := Step.wake s hw hf
  have k2 := Step.getLock { s with woken := some true } hl rfl
  have k3 := Step.notEmpty { s with woken := some true, lock := .get0 } rfl (by rw [hq]; simp)
  have k4 := Step.pop { s with woken := some true, lock := .get1 } e q true rfl hq rfl
  have base := (((Steps.refl s).tail k1).tail k2 |>.tail k3).tail k4
  cases q with
  | nil =>
    have k5 := Step.last { s with woken := some true, lock := .get2, queue := [], got := s.got ++ [some e], flags := s.flags ++ [true] } rfl rfl
    have k6 := Step.clear { s with woken := some true, lock := .get3, queue := [], got := s.got ++ [some e], flags := s.flags ++ [true] } rfl
    have k7 := Step.getUnlock
      { s with woken := some true, lock := .get4, flag := false, queue := [], got := s.got ++ [some e], flags := s.flags ++ [true] } rfl
    exact ⟨_, ((base.tail k5).tail k6).tail k7, rfl, rfl, rfl⟩
  | cons a b =>
    have k5 := Step.more { s with woken := some true, lock := .get2, queue := a :: b, got := s.got ++ [some e], flags := s.flags ++ [true] } rfl (by simp)
    have k6 := Step.getUnlock
      { s with woken := some true, lock := .get4, queue := a :: b, got := s.got ++ [some e], flags := s.flags ++ [true] } rfl
    exact ⟨_, (base.tail k5).tail k6, rfl, rfl, rfl⟩

/-- A state in which one event was got and another is being put in. -/
def demo : S := { queue := [], flag := false, lock := .put0 8, woken := none, sent := [7, 8], got := [none, some 7], flags := [false, true] }

example : Reach demo := by
  have r0 := Reach.init
  have r1 := r0.step _ _ (.timeOver _ rfl)
  have r2 := r1.step _ _ (.getLock _ rfl rfl)
  have r3 := r2.step _ _ (.empty _ false rfl rfl rfl)
  have r4 := r3.step _ _ (.getUnlock _ rfl)
  have r5 := r4.step _ _ (.putLock _ 7 rfl)
  have r6 := r5.step _ _ (.append _ 7 rfl)
  have r7 := r6.step _ _ (.set _ rfl)
  have r8 := r7.step _ _ (.wake _ rfl rfl)
  have r9 := r8.step _ _ (.putUnlock _ rfl)
  have r10 := r9.step _ _ (.getLock _ rfl rfl)
  have r11 := r10.step _ _ (.notEmpty _ rfl (by simp))
  have r12 := r11.step _ _ (.pop _ 7 [] true rfl rfl rfl)
  have r13 := r12.step _ _ (.last _ rfl rfl)
  have r14 := r13.step _ _ (.clear _ rfl)
  have r15 := r14.step _ _ (.getUnlock _ rfl)
  exact r15.step _ _ (.putLock _ 8 rfl)

end Bb.UiQueue
