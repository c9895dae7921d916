import Verif.Meta.LaunchModel

/-!
C295: a function is called for each item in its own process, with no more processes at a time than wanted, and errors stop the rest.
C296: results and errors of all items are reported.
-/

namespace Isar.Meta.Launch

variable {α β : Type}

theorem pass_perm (ended : α → Bool) : ∀ l : List α, ((pass ended l).1 ++ (pass ended l).2).Perm l
  | [] => List.Perm.refl _
  | [q] => by
    unfold pass
    split <;> exact List.Perm.refl _
  | q :: r :: rest => by
    unfold pass
    split
    · exact (List.perm_middle.trans ((pass_perm ended rest).cons r |>.cons q))
    · exact (pass_perm ended (r :: rest)).cons q

structure Inv (maxProcess : Nat) (truth : β → Bool) (outcome : α → Outcome β) (items : List α) (s : State α β) : Prop where
  all : (s.items ++ s.launched ++ s.finished).Perm items
  limit : s.launched.length ≤ maxProcess
  errors : s.errors = s.finished.filterMap fun q => errorOf (outcome q)
  results : s.results = s.finished.filterMap fun q => resultOf truth (outcome q)

theorem inv_pass {maxProcess : Nat} {truth : β → Bool} {outcome : α → Outcome β} {items : List α} (ended : α → Bool) {s : State α β} (h : Inv maxProcess truth outcome items s) :
    Inv maxProcess truth outcome items { s with
      launched := (pass ended s.launched).1, errors := s.errors ++ (pass ended s.launched).2.filterMap (fun q => errorOf (outcome q)),
      results := s.results ++ (pass ended s.launched).2.filterMap (fun q => resultOf truth (outcome q)), finished := s.finished ++ (pass ended s.launched).2 } := by
  have hp := pass_perm ended s.launched
  refine ⟨?_, ?_, ?_, ?_⟩
  · refine List.Perm.trans ?_ h.all
    show (s.items ++ (pass ended s.launched).1 ++ (s.finished ++ (pass ended s.launched).2)).Perm (s.items ++ s.launched ++ s.finished)
    rw [List.append_assoc, List.append_assoc]
    refine List.Perm.append_left _ ?_
    refine ((List.perm_append_comm (l₁ := s.finished)).append_left _).trans ?_
    rw [← List.append_assoc]
    exact hp.append_right _
  · have := hp.length_eq
    rw [List.length_append] at this
    have := h.limit
    show (pass ended s.launched).1.length ≤ maxProcess
    omega
  · show s.errors ++ _ = (s.finished ++ _).filterMap _
    rw [List.filterMap_append, h.errors]
  · show s.results ++ _ = (s.finished ++ _).filterMap _
    rw [List.filterMap_append, h.results]

theorem inv_round {maxProcess : Nat} {truth : β → Bool} {outcome : α → Outcome β} {items : List α} (ended : α → Bool) {s : State α β} (h : Inv maxProcess truth outcome items s) :
    Inv maxProcess truth outcome items (round maxProcess truth outcome ended s) := by
  unfold round
  dsimp only
  cases hi : s.items with
  | nil => exact inv_pass ended h
  | cons i is =>
    dsimp only
    by_cases hc : (s.errors.isEmpty && decide (s.launched.length < maxProcess)) = true
    · rw [if_pos hc]
      have hl := of_decide_eq_true (Bool.and_eq_true _ _ |>.mp hc).2
      refine inv_pass ended (s := { s with items := is, launched := s.launched ++ [i] }) ⟨?_, ?_, h.errors, h.results⟩
      · refine List.Perm.trans ?_ h.all
        rw [hi]
        refine List.Perm.append_right _ ?_
        show (is ++ (s.launched ++ [i])).Perm (i :: is ++ s.launched)
        rw [← List.append_assoc]
        exact List.perm_append_comm
      · show (s.launched ++ [i]).length ≤ maxProcess
        rw [List.length_append, List.length_singleton]
        omega
    · rw [if_neg hc]
      exact inv_pass ended h

theorem inv_run {maxProcess : Nat} {truth : β → Bool} {outcome : α → Outcome β} {items : List α} : ∀ (rounds : List (α → Bool)) (s : State α β), Inv maxProcess truth outcome items s →
    Inv maxProcess truth outcome items (run maxProcess truth outcome rounds s)
  | [], _, h => h
  | ended :: rounds, s, h => by
    unfold run
    split
    · exact inv_run rounds _ (inv_round ended h)
    · exact h

theorem inv_start (maxProcess : Nat) (truth : β → Bool) (outcome : α → Outcome β) (items : List α) : Inv maxProcess truth outcome items (start items) :=
  ⟨by show (items.reverse ++ [] ++ []).Perm items; rw [List.append_nil, List.append_nil]; exact List.reverse_perm items, Nat.zero_le _, rfl, rfl⟩

/-- **C295**: after any number of rounds there are no more processes than wanted, and each item is either waiting, running or finished, once. -/
theorem limit (maxProcess : Nat) (truth : β → Bool) (outcome : α → Outcome β) (items : List α) (rounds : List (α → Bool)) :
    let s := run maxProcess truth outcome rounds (start items)
    s.launched.length ≤ maxProcess ∧ (s.items ++ s.launched ++ s.finished).Perm items := by
  have h := inv_run rounds _ (inv_start maxProcess truth outcome items)
  exact ⟨h.limit, h.all⟩

/-- **C295**: when there is an error, no further item is started. -/
theorem errors_stop (maxProcess : Nat) (truth : β → Bool) (outcome : α → Outcome β) : ∀ (rounds : List (α → Bool)) (s : State α β), s.errors ≠ [] →
    (run maxProcess truth outcome rounds s).items = s.items ∧ (run maxProcess truth outcome rounds s).errors ≠ []
  | [], _, h => ⟨rfl, h⟩
  | ended :: rounds, s, h => by
    unfold run
    split
    · have he : s.errors.isEmpty = false := by
        cases hs : s.errors with
        | nil => exact absurd hs h
        | cons _ _ => rfl
      have h1 : (round maxProcess truth outcome ended s).items = s.items ∧ (round maxProcess truth outcome ended s).errors ≠ [] := by
        unfold round
        dsimp only
        cases hi : s.items with
        | nil => exact ⟨hi, fun h' => h (List.append_eq_nil_iff.mp h').1⟩
        | cons i is =>
          dsimp only
          rw [he, Bool.false_and, if_neg Bool.false_ne_true]
          exact ⟨hi, fun h' => h (List.append_eq_nil_iff.mp h').1⟩
      obtain ⟨h2, h3⟩ := errors_stop maxProcess truth outcome rounds _ h1.2
      exact ⟨h2.trans h1.1, h3⟩
    · exact ⟨rfl, h⟩

theorem filterMap_all {g : α → Option β} {f : α → β} : ∀ {l : List α}, (∀ i ∈ l, g i = some (f i)) → l.filterMap g = l.map f
  | [], _ => rfl
  | i :: l, h => by
    rw [List.filterMap_cons, h i (List.mem_cons_self ..), List.map_cons, filterMap_all fun j hj => h j (List.mem_cons_of_mem _ hj)]

theorem pass_less : ∀ l : List α, l ≠ [] → (pass (fun _ => true) l).1.length < l.length
  | [], h => absurd rfl h
  | [q], _ => Nat.zero_lt_one
  | q :: r :: rest, _ => by
    have hp := (pass_perm (fun _ => true) rest).length_eq
    rw [List.length_append] at hp
    show (r :: (pass (fun _ => true) rest).1).length < (q :: r :: rest).length
    simp only [List.length_cons]
    omega

theorem round_less {maxProcess : Nat} (hm : 0 < maxProcess) (truth : β → Bool) (outcome : α → Outcome β) (s : State α β) (hg : goesOn s = true) :
    2 * (round maxProcess truth outcome (fun _ => true) s).items.length + (round maxProcess truth outcome (fun _ => true) s).launched.length < 2 * s.items.length + s.launched.length := by
  have key : ∀ t : List α, t = [] ∨ (pass (fun _ => true) t).1.length < t.length := fun t => by
    cases t with
    | nil => exact Or.inl rfl
    | cons a t => exact Or.inr (pass_less _ (List.cons_ne_nil a t))
  unfold round
  dsimp only
  cases hi : s.items with
  | nil =>
    show 2 * s.items.length + (pass (fun _ => true) s.launched).1.length < _
    rw [hi]
    rcases key s.launched with h | h
    · unfold goesOn at hg
      rw [hi, h] at hg
      cases hg
    · omega
  | cons i is =>
    dsimp only
    by_cases hc : (s.errors.isEmpty && decide (s.launched.length < maxProcess)) = true
    · rw [if_pos hc]
      show 2 * is.length + (pass (fun _ => true) (s.launched ++ [i])).1.length < _
      rcases key (s.launched ++ [i]) with h | h
      · exact absurd h (by simp)
      · simp only [List.length_append, List.length_singleton] at h
        simp only [List.length_cons]
        omega
    · rw [if_neg hc]
      show 2 * s.items.length + (pass (fun _ => true) s.launched).1.length < _
      rw [hi]
      rcases key s.launched with h | h
      · exfalso
        apply hc
        unfold goesOn at hg
        rw [hi, h] at hg
        rw [h]
        have : s.errors.isEmpty = true := by simpa using hg
        rw [this]
        exact decide_eq_true hm
      · omega

theorem run_ends {maxProcess : Nat} (hm : 0 < maxProcess) (truth : β → Bool) (outcome : α → Outcome β) : ∀ (n : Nat) (s : State α β), 2 * s.items.length + s.launched.length ≤ n →
    goesOn (run maxProcess truth outcome (List.replicate n fun _ => true) s) = false
  | 0, s, h => by
    have h1 : s.items = [] := List.length_eq_zero_iff.mp (by omega)
    have h2 : s.launched = [] := List.length_eq_zero_iff.mp (by omega)
    show goesOn s = false
    unfold goesOn
    rw [h1, h2]
    rfl
  | n + 1, s, h => by
    rw [List.replicate_succ]
    unfold run
    by_cases hg : goesOn s = true
    · rw [if_pos hg]
      have := round_less hm truth outcome s hg
      exact run_ends hm truth outcome n _ (by omega)
    · rw [if_neg hg]
      exact Bool.not_eq_true _ |>.mp hg

/-- **C295**: with at least one process at a time and processes that end, the loop ends. -/
theorem ends {maxProcess : Nat} (hm : 0 < maxProcess) (truth : β → Bool) (outcome : α → Outcome β) (items : List α) :
    goesOn (run maxProcess truth outcome (List.replicate (2 * items.length) fun _ => true) (start items)) = false :=
  run_ends hm truth outcome _ _ (by show 2 * items.reverse.length + 0 ≤ _; rw [List.length_reverse]; omega)

/-- **C296**: when the loop has ended, no process is left; without errors every item is finished and, if no process is killed and each result counts as true, the results are those of all items;
each error of a process that has been waited for is reported.  Missing: processes that are killed and results that count as false (`lost`). -/
theorem reported_partial (maxProcess : Nat) (truth : β → Bool) (outcome : α → Outcome β) (items : List α) (rounds : List (α → Bool))
    (hend : goesOn (run maxProcess truth outcome rounds (start items)) = false) :
    let s := run maxProcess truth outcome rounds (start items)
    s.launched = [] ∧ (∀ i ∈ s.finished, ∀ e, outcome i = .error e → e ∈ s.errors) ∧
    (s.errors = [] → s.finished.Perm items ∧ (∀ i ∈ items, ∀ e, outcome i ≠ .error e) ∧
      ∀ f : α → β, (∀ i ∈ items, outcome i = .result (f i) ∧ truth (f i) = true) → s.results.Perm (items.map f)) := by
  intro s
  have h : Inv maxProcess truth outcome items s := inv_run rounds _ (inv_start maxProcess truth outcome items)
  have hend : goesOn s = false := hend
  unfold goesOn at hend
  obtain ⟨h1, h2⟩ := Bool.or_eq_false_iff.mp hend
  have hl : s.launched = [] := List.isEmpty_iff.mp (by simpa using h2)
  have herr : ∀ i ∈ s.finished, ∀ e, outcome i = .error e → e ∈ s.errors := by
    intro i hi e he
    rw [h.errors]
    exact List.mem_filterMap.mpr ⟨i, hi, by rw [he]; rfl⟩
  refine ⟨hl, herr, fun he => ?_⟩
  have hi : s.items = [] := by
    rw [he] at h1
    exact List.isEmpty_iff.mp (by simpa using h1)
  have hp : s.finished.Perm items := by
    have := h.all
    rw [hi, hl] at this
    exact this
  refine ⟨hp, fun i hi' e ho => ?_, fun f hf => ?_⟩
  · have := herr i (hp.mem_iff.mpr hi') e ho
    rw [he] at this
    cases this
  · rw [h.results]
    refine (hp.filterMap _).trans ?_
    have : items.filterMap (fun q => resultOf truth (outcome q)) = items.map f := by
      apply filterMap_all
      intro i hi'
      obtain ⟨h3, h4⟩ := hf i hi'
      rw [h3]
      show (if truth (f i) = true then some (f i) else none) = some (f i)
      rw [if_pos h4]
    rw [this]

/-- three items of which the second is killed and the third has a result that counts as false -/
def sample : Nat → Outcome Nat
  | 1 => .result 10
  | 2 => .killed
  | 3 => .result 0
  | _ => .error 7

/-- **C296 is false of the code**: a process that is killed is no error, and its item is missing in the results like one whose result counts as false. -/
theorem lost : let s := run 2 (· ≠ 0) sample (List.replicate 4 fun _ => true) (start [1, 2, 3])
    goesOn s = false ∧ s.errors = [] ∧ s.finished = [3, 2, 1] ∧ s.results = [10] := by decide

/-- **C295**, the limit: with 0 as the number of processes nothing is ever started and the loop does not end. -/
theorem no_processes (truth : β → Bool) (outcome : α → Outcome β) (i : α) (items : List α) : ∀ rounds : List (α → Bool),
    run 0 truth outcome rounds ⟨i :: items, [], [], [], []⟩ = ⟨i :: items, [], [], [], []⟩
  | [] => rfl
  | ended :: rounds => by
    unfold run
    exact no_processes truth outcome i items rounds

example : let s := run 2 (· ≠ 0) sample [fun _ => false, fun _ => false, fun n => n = 4, fun _ => true, fun _ => true, fun _ => true] (start [1, 1, 4, 1])
    s.errors = [7] ∧ s.items = [1, 1] ∧ goesOn s = false ∧ s.finished = [4, 1] := by decide

end Isar.Meta.Launch
