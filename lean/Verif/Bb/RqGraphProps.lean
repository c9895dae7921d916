import Verif.Bb.RqGraphLemmas2
/-!
# Properties of the task graph
-/

namespace Bb.Rq
open Spec

set_option linter.unusedSectionVars false

variable {T : Type} [DecidableEq T]

/-! ### Which tasks are run -/

/-- The run queue holds exactly the tasks that the targets need. -/
theorem needed_exactly {g : Graph T} (ok : g.Ok) (targets : List (Target T))
    (ht : ∀ tg ∈ targets, ∀ t, tg = .run t ∨ tg = .parents t → t ∈ g.tasks) (x : T) :
    x ∈ (prune g targets).tasks ↔ ∃ tg ∈ targets, Wanted g tg x := by
  unfold prune
  rw [List.mem_filter]
  simp only [decide_eq_true_eq]
  rw [mem_marked ok targets ht]
  refine ⟨fun h => h.2, fun h => ⟨?_, h⟩⟩
  obtain ⟨tg, hm, hw⟩ := h
  cases tg with
  | run t =>
    have := ht _ hm t (.inl rfl)
    rcases hw with rfl | hw
    · exact this
    · exact path_closed ok this hw
  | parents t => exact path_closed ok (ht _ hm t (.inr rfl)) hw

/-- With `--runonly` it holds exactly the tasks of these names and what they need. -/
theorem runonly_exactly {g : Graph T} (ok : g.Ok) (only : T → Bool) (x : T) :
    x ∈ (runOnly g only).tasks ↔ ∃ t ∈ g.tasks, only t = true ∧ Needs g t x := by
  unfold runOnly
  rw [needed_exactly ok]
  · constructor
    · rintro ⟨tg, hm, hw⟩
      obtain ⟨t, ht, rfl⟩ := List.mem_map.1 hm
      exact ⟨t, (List.mem_filter.1 ht).1, (List.mem_filter.1 ht).2, hw⟩
    · rintro ⟨t, ht, ho, hw⟩
      exact ⟨.run t, List.mem_map.2 ⟨t, List.mem_filter.2 ⟨ht, ho⟩, rfl⟩, hw⟩
  · intro tg hm t ht
    obtain ⟨t', ht', rfl⟩ := List.mem_map.1 hm
    rcases ht with e | e <;> cases e
    exact (List.mem_filter.1 ht').1

/-- What is left is a graph of the same kind: all dependencies of a task in it are in it. -/
theorem prune_ok {g : Graph T} (ok : g.Ok) (targets : List (Target T))
    (ht : ∀ tg ∈ targets, ∀ t, tg = .run t ∨ tg = .parents t → t ∈ g.tasks) :
    (prune g targets).Ok := by
  have sub : ∀ x ∈ (prune g targets).tasks, x ∈ g.tasks := fun x hx => (List.mem_filter.1 hx).1
  refine ⟨ok.nodup.sublist List.filter_sublist, fun t h => ok.depsNodup t (sub t h), ?_,
    fun t h => ok.noSelf t (sub t h)⟩
  intro t htt d hd
  rw [needed_exactly ok targets ht] at htt ⊢
  obtain ⟨tg, hm, hw⟩ := htt
  refine ⟨tg, hm, ?_⟩
  cases tg with
  | run a =>
    rcases hw with rfl | hw
    · exact .inr (.one hd)
    · exact .inr (Path.snoc hw hd)
  | parents a => exact Path.snoc hw hd

/-! ### Circular dependencies -/

/-- The build is refused if and only if some task depends on itself, directly or through others. -/
theorem circular_found {g : Graph T} (ok : g.Ok) : (∃ w, g.weights = .ok w) ↔ Acyclic g := by
  unfold Graph.weights
  by_cases hp : g.pairLoop = true
  · rw [if_pos hp]
    exact ⟨fun ⟨_, h⟩ => (by cases h), fun h => absurd h (pairLoop_cyclic hp)⟩
  · rw [if_neg hp]
    by_cases h : g.problems = []
    · rw [if_pos h]
      exact ⟨fun _ => (problems_nil_iff ok).1 h, fun _ => ⟨_, rfl⟩⟩
    · rw [if_neg h]
      exact ⟨fun ⟨_, h⟩ => (by cases h), fun ac => absurd ((problems_nil_iff ok).2 ac) h⟩

/-- The weight of a task: 10 if nothing depends on it, otherwise 1 more than the sum of the weights
of the tasks that depend on it. -/
theorem weight_exact {g : Graph T} (ok : g.Ok) {w : T → Nat} (h : g.weights = .ok w) (t : T) :
    w t = (if t ∈ g.tasks ∧ ∀ x ∈ g.tasks, t ∉ g.deps x then 10 else 1) +
      ((g.tasks.filter fun x => t ∈ g.deps x).map w).sum := by
  have ac : Acyclic g := (circular_found ok).1 ⟨w, h⟩
  have hn := (problems_nil_iff ok).2 ac
  unfold Graph.weights at h
  by_cases hp : g.pairLoop = true
  · rw [if_pos hp] at h; cases h
  rw [if_neg hp, if_pos hn] at h
  cases h
  obtain ⟨P, hk⟩ := kinv_final ok
  have hm : ∀ r ∈ g.revdeps t, r ∈ P := by
    intro r hr
    unfold Graph.problems at hn
    have := List.filter_eq_nil_iff.1 hn r (mem_revdeps.1 hr).1
    simp only [decide_eq_true_eq, not_or, Bool.not_eq_false] at this
    simpa using (hk.done r).1 this.1
  have := hk.weight t
  rw [this]
  congr 1
  · unfold base
    by_cases e : t ∈ g.endpoints
    · rw [if_pos e, if_pos (mem_endpoints.1 e)]
    · rw [if_neg e, if_neg (fun hh => e (mem_endpoints.2 hh))]
  · unfold wsum
    rw [List.filter_eq_self.2 fun r hr => by simpa using hm r hr]
    rfl

/-- A task weighs less than each task that it depends on. -/
theorem dependency_heavier {g : Graph T} (ok : g.Ok) {w : T → Nat} (h : g.weights = .ok w) {t d : T}
    (ht : t ∈ g.tasks) (hd : d ∈ g.deps t) : w t < w d := by
  rw [weight_exact ok h d]
  have hm : w t ∈ (g.tasks.filter fun x => d ∈ g.deps x).map w :=
    List.mem_map.2 ⟨t, List.mem_filter.2 ⟨ht, by simpa using hd⟩, rfl⟩
  have hle : ∀ (l : List Nat) (a : Nat), a ∈ l → a ≤ l.sum := by
    intro l
    induction l with
    | nil => intro a h; cases h
    | cons b l ih =>
      intro a h
      rw [List.sum_cons]
      rcases List.mem_cons.1 h with rfl | h
      · omega
      · have := ih a h; omega
  have h1 := hle _ _ hm
  by_cases e : d ∈ g.tasks ∧ ∀ x ∈ g.tasks, d ∉ g.deps x
  · rw [if_pos e]; omega
  · rw [if_neg e]; omega

/-! ### The order of the schedulers -/

theorem mem_insertW (x y : Nat) (l : List Nat) : y ∈ insertW x l ↔ y = x ∨ y ∈ l := by
  induction l with
  | nil => simp [insertW]
  | cons a l ih =>
    rw [insertW]
    by_cases h1 : x < a
    · rw [if_pos h1]; simp
    · rw [if_neg h1]
      by_cases h2 : x = a
      · rw [if_pos h2]
        subst h2
        simp
      · rw [if_neg h2, List.mem_cons, ih, List.mem_cons]
        constructor
        · rintro (h | h | h)
          · exact .inr (.inl h)
          · exact .inl h
          · exact .inr (.inr h)
        · rintro (h | h | h)
          · exact .inr (.inl h)
          · exact .inl h
          · exact .inr (.inr h)

theorem insertW_sorted (x : Nat) (l : List Nat) (h : l.Pairwise (· < ·)) :
    (insertW x l).Pairwise (· < ·) := by
  induction l with
  | nil => simp [insertW]
  | cons a l ih =>
    have ⟨h1, h2⟩ := List.pairwise_cons.1 h
    rw [insertW]
    by_cases e1 : x < a
    · rw [if_pos e1]
      refine List.pairwise_cons.2 ⟨fun y hy => ?_, h⟩
      rcases List.mem_cons.1 hy with rfl | hy
      · exact e1
      · exact Nat.lt_trans e1 (h1 y hy)
    · rw [if_neg e1]
      by_cases e2 : x = a
      · rw [if_pos e2]; exact h
      · rw [if_neg e2]
        refine List.pairwise_cons.2 ⟨fun y hy => ?_, ih h2⟩
        rcases (mem_insertW x y l).1 hy with rfl | hy
        · omega
        · exact h1 y hy

theorem sortedWeights_spec (ws : List Nat) :
    (sortedWeights ws).Pairwise (· < ·) ∧ ∀ y, y ∈ sortedWeights ws ↔ y ∈ ws := by
  have key : ∀ (ws acc : List Nat), acc.Pairwise (· < ·) →
      (ws.foldl (fun l x => insertW x l) acc).Pairwise (· < ·) ∧
      ∀ y, y ∈ ws.foldl (fun l x => insertW x l) acc ↔ y ∈ acc ∨ y ∈ ws := by
    intro ws
    induction ws with
    | nil => intro acc h; exact ⟨h, fun y => by simp⟩
    | cons a ws ih =>
      intro acc h
      obtain ⟨h1, h2⟩ := ih (insertW a acc) (insertW_sorted a acc h)
      refine ⟨h1, fun y => ?_⟩
      rw [List.foldl_cons, h2, mem_insertW, List.mem_cons]
      constructor
      · rintro ((h | h) | h)
        · exact .inr (.inl h)
        · exact .inl h
        · exact .inr (.inr h)
      · rintro (h | h | h)
        · exact .inl (.inr h)
        · exact .inl (.inl h)
        · exact .inr h
  obtain ⟨h1, h2⟩ := key ws [] .nil
  exact ⟨h1, fun y => by rw [sortedWeights, h2]; simp⟩

/-- Each task is in the list of the scheduler `speed` exactly once. -/
theorem speed_perm (tasks : List T) (hn : tasks.Nodup) (w : T → Nat) :
    (prioSpeed tasks w).Nodup ∧ ∀ t, t ∈ prioSpeed tasks w ↔ t ∈ tasks := by
  obtain ⟨h1, h2⟩ := sortedWeights_spec (tasks.map w)
  unfold prioSpeed
  refine ⟨(List.reverse_perm _).nodup_iff.2 ?_, fun t => ?_⟩
  · generalize sortedWeights (tasks.map w) = ws at h1
    clear h2
    induction ws with
    | nil => simp
    | cons a ws ih =>
      have ⟨ha, hw⟩ := List.pairwise_cons.1 h1
      rw [List.flatMap_cons, List.nodup_append]
      refine ⟨hn.sublist List.filter_sublist, ih hw, fun x hx y hy e => ?_⟩
      subst e
      obtain ⟨b, hb, hy⟩ := List.mem_flatMap.1 hy
      have e1 : w x = a := by simpa using (List.mem_filter.1 hx).2
      have e2 : w x = b := by simpa using (List.mem_filter.1 hy).2
      have := ha b hb
      omega
  · rw [List.mem_reverse, List.mem_flatMap]
    constructor
    · rintro ⟨_, _, h⟩; exact (List.mem_filter.1 h).1
    · intro h
      exact ⟨w t, (h2 _).2 (List.mem_map.2 ⟨t, h, rfl⟩), List.mem_filter.2 ⟨h, by simp⟩⟩

/-- In the list of the scheduler `speed` no task comes before a heavier one. -/
theorem speed_sorted (tasks : List T) (w : T → Nat) :
    (prioSpeed tasks w).Pairwise fun a b => w b ≤ w a := by
  obtain ⟨h1, _⟩ := sortedWeights_spec (tasks.map w)
  unfold prioSpeed
  rw [List.pairwise_reverse]
  generalize sortedWeights (tasks.map w) = ws at h1
  induction ws with
  | nil => simp
  | cons a ws ih =>
    have ⟨ha, hw⟩ := List.pairwise_cons.1 h1
    rw [List.flatMap_cons, List.pairwise_append]
    refine ⟨?_, ih hw, fun x hx y hy => ?_⟩
    · refine List.Pairwise.imp_of_mem (R := fun _ _ => True) ?_ ?_
      · intro x y hx hy _
        have e1 : w x = a := by simpa using (List.mem_filter.1 hx).2
        have e2 : w y = a := by simpa using (List.mem_filter.1 hy).2
        omega
      · exact List.pairwise_of_forall (fun _ _ => trivial)
    · obtain ⟨b, hb, hy⟩ := List.mem_flatMap.1 hy
      have e1 : w x = a := by simpa using (List.mem_filter.1 hx).2
      have e2 : w y = b := by simpa using (List.mem_filter.1 hy).2
      have := ha b hb
      omega

/-- So a task never comes before one that it depends on. -/
theorem speed_dependencies_first {g : Graph T} (ok : g.Ok) {w : T → Nat} (h : g.weights = .ok w)
    {t d : T} (ht : t ∈ g.tasks) (hd : d ∈ g.deps t) (A B : List T)
    (e : prioSpeed g.tasks w = A ++ t :: B) : d ∈ A := by
  have hlt := dependency_heavier ok h ht hd
  have hm : d ∈ prioSpeed g.tasks w :=
    ((speed_perm g.tasks ok.nodup w).2 d).2 (ok.closed t ht d hd)
  have hs := speed_sorted g.tasks w
  rw [e] at hm hs
  rcases List.mem_append.1 hm with h' | h'
  · exact h'
  · exfalso
    rw [List.pairwise_append] at hs
    rcases List.mem_cons.1 h' with rfl | h'
    · omega
    · have := (List.pairwise_cons.1 hs.2.1).1 d h'
      omega

/-- The scheduler `completion` only changes the order: each task is in its list as often as
before. -/
theorem completion_perm {N : Type} [DecidableEq N] (name : T → N) (allTasks : List N)
    (prio : List T) : (prioCompletion name allTasks prio).Perm prio := by
  have key : ∀ (l : List N) (s : List T × List T),
      ((l.foldl (moveName name) s).1 ++ (l.foldl (moveName name) s).2).Perm (s.1 ++ s.2) := by
    intro l
    induction l with
    | nil => intro s; exact .refl _
    | cons n l ih =>
      intro s
      refine (ih (moveName name s n)).trans ?_
      unfold moveName
      dsimp only
      rw [List.append_assoc]
      refine List.Perm.append_left _ ?_
      have := List.filter_append_perm (fun t => decide (name t = n)) s.2
      simpa using this
  exact key allTasks ([], prio)

theorem flatMap_congr' {α β : Type} {l : List α} {f h : α → List β} (e : ∀ a ∈ l, f a = h a) :
    l.flatMap f = l.flatMap h := by
  induction l with
  | nil => rfl
  | cons a l ih =>
    rw [List.flatMap_cons, List.flatMap_cons, e a List.mem_cons_self,
      ih fun b hb => e b (List.mem_cons_of_mem _ hb)]

/-- In the list of the scheduler `completion` the tasks are grouped by their names, in the order of
the list of names; tasks of one name keep their order. -/
theorem completion_sorted {N : Type} [DecidableEq N] (name : T → N) (names : List N)
    (hn : names.Nodup) (prio : List T) : prioCompletion name names prio =
      names.flatMap (fun n => prio.filter fun t => name t = n) ++
        prio.filter (fun t => name t ∉ names) := by
  have key : ∀ (l : List N) (s : List T × List T), l.Nodup → l.foldl (moveName name) s =
      (s.1 ++ l.flatMap (fun n => s.2.filter fun t => name t = n),
        s.2.filter (fun t => name t ∉ l)) := by
    intro l
    induction l with
    | nil =>
      intro s _
      rw [List.filter_eq_self.2 (fun a _ => by simp)]
      simp
    | cons m l ih =>
      intro s hl
      have ⟨hm, hl⟩ := List.nodup_cons.1 hl
      rw [List.foldl_cons, ih _ hl]
      unfold moveName
      dsimp only
      rw [List.flatMap_cons, List.append_assoc, List.filter_filter]
      congr 1
      · congr 2
        refine flatMap_congr' fun n hn => ?_
        rw [List.filter_filter]
        refine List.filter_congr fun t _ => ?_
        have hnm : n ≠ m := fun e => hm (e ▸ hn)
        by_cases e : name t = n
        · simp [e, hnm]
        · simp [e]
      · refine List.filter_congr fun t _ => ?_
        simp only [List.mem_cons, not_or, Bool.decide_and, Bool.and_comm]
  unfold prioCompletion
  rw [key names ([], prio) hn]
  simp

theorem mem_insertIdx_le {N : Type} [DecidableEq N] (l : List N) (i : Nat) (h : i ≤ l.length)
    (a x : N) : x ∈ l.insertIdx i a ↔ x = a ∨ x ∈ l := List.mem_insertIdx h

theorem mergeTask_spec {N : Type} [DecidableEq N] (s : List N × Nat) (new : N) (hn : s.1.Nodup)
    (hi : s.2 ≤ s.1.length) : (mergeTask s new).1.Nodup ∧
      (∀ x, x ∈ (mergeTask s new).1 ↔ x = new ∨ x ∈ s.1) ∧
      (mergeTask s new).2 ≤ (mergeTask s new).1.length := by
  unfold mergeTask
  by_cases h1 : s.1[s.2]? = some new
  · rw [if_pos h1]
    have hm : new ∈ s.1 := List.mem_of_getElem? h1
    refine ⟨hn, fun x => ⟨fun h => .inr h, fun h => ?_⟩, ?_⟩
    · rcases h with rfl | h
      · exact hm
      · exact h
    · have := (List.getElem?_eq_some_iff.1 h1).1
      exact this
  · rw [if_neg h1]
    by_cases h2 : new ∈ s.1
    · rw [if_pos h2]
      refine ⟨hn, fun x => ⟨fun h => .inr h, fun h => ?_⟩, ?_⟩
      · rcases h with rfl | h
        · exact h2
        · exact h
      · exact List.idxOf_lt_length_of_mem h2
    · rw [if_neg h2]
      refine ⟨?_, fun x => mem_insertIdx_le _ _ hi _ _, ?_⟩
      · refine (List.perm_insertIdx new s.1 hi).nodup_iff.2 ?_
        exact List.nodup_cons.2 ⟨h2, hn⟩
      · show s.2 + 1 ≤ (s.1.insertIdx s.2 new).length
        rw [List.length_insertIdx_of_le_length hi]
        omega

/-- The list of names holds the name of each task of each recipe exactly once. -/
theorem mergedNames_exact {N : Type} [DecidableEq N] (taskLists : List (List N)) :
    (mergedNames taskLists).Nodup ∧
      ∀ n, n ∈ mergedNames taskLists ↔ ∃ l ∈ taskLists, n ∈ l := by
  have inner : ∀ (l : List N) (s : List N × Nat), s.1.Nodup → s.2 ≤ s.1.length →
      (l.foldl mergeTask s).1.Nodup ∧ ∀ x, x ∈ (l.foldl mergeTask s).1 ↔ x ∈ l ∨ x ∈ s.1 := by
    intro l
    induction l with
    | nil => intro s h _; exact ⟨h, fun x => by simp⟩
    | cons a l ih =>
      intro s h hi
      obtain ⟨h1, h2, h3⟩ := mergeTask_spec s a h hi
      obtain ⟨h4, h5⟩ := ih _ h1 h3
      refine ⟨h4, fun x => ?_⟩
      rw [List.foldl_cons, h5, h2, List.mem_cons]
      constructor
      · rintro (h | h | h)
        · exact .inl (.inr h)
        · exact .inl (.inl h)
        · exact .inr h
      · rintro ((h | h) | h)
        · exact .inr (.inl h)
        · exact .inl h
        · exact .inr (.inr h)
  have outer : ∀ (ls : List (List N)) (all : List N), all.Nodup →
      (ls.foldl (fun all l => (l.foldl mergeTask (all, 0)).1) all).Nodup ∧
      ∀ x, x ∈ ls.foldl (fun all l => (l.foldl mergeTask (all, 0)).1) all ↔
        (∃ l ∈ ls, x ∈ l) ∨ x ∈ all := by
    intro ls
    induction ls with
    | nil => intro all h; exact ⟨h, fun x => by simp⟩
    | cons a ls ih =>
      intro all h
      obtain ⟨h1, h2⟩ := inner a (all, 0) h (Nat.zero_le _)
      obtain ⟨h3, h4⟩ := ih _ h1
      refine ⟨h3, fun x => ?_⟩
      rw [List.foldl_cons, h4, h2]
      simp only [List.mem_cons, exists_eq_or_imp]
      constructor
      · rintro (h | h | h)
        · exact .inl (.inr h)
        · exact .inl (.inl h)
        · exact .inr h
      · rintro ((h | h) | h)
        · exact .inr (.inl h)
        · exact .inl h
        · exact .inr (.inr h)
  obtain ⟨h1, h2⟩ := outer taskLists [] .nil
  unfold mergedNames
  refine ⟨(List.reverse_perm _).nodup_iff.2 h1, fun n => ?_⟩
  rw [List.mem_reverse, h2]
  simp

/-! ### Examples -/

/-- A small graph: 3 needs 1 and 2, which need 0; 4 needs nothing. -/
def exGraph : Graph Nat where
  tasks := [0, 1, 2, 3, 4]
  deps t := if t = 3 then [1, 2] else if t = 1 ∨ t = 2 then [0] else []

theorem exGraph_ok : exGraph.Ok := by
  refine ⟨by decide, ?_, ?_, ?_⟩ <;> intro t ht <;> revert t <;> decide

example : (prune exGraph [.run 1]).tasks = [0, 1] ∧ (prune exGraph [.parents 3]).tasks = [0, 1, 2] ∧
    exGraph.tasks.map exGraph.final.weight = [23, 11, 11, 10, 10] ∧
    prioSpeed exGraph.tasks exGraph.final.weight = [0, 2, 1, 4, 3] ∧ exGraph.problems = [] := by
  decide

/-- A graph with a loop of three tasks. -/
def exLoop : Graph Nat where
  tasks := [0, 1, 2, 3]
  deps t := if t = 3 then [0] else [(t + 1) % 3]

example : exLoop.problems = [0, 1, 2] ∧ exLoop.pairLoop = false := by decide

example : prioCompletion (fun t : Nat => t % 2) [1, 0] [0, 2, 1, 4, 3] = [1, 3, 0, 2, 4] ∧
    mergedNames [[1, 2, 4], [1, 3, 4], [2, 5, 4]] = [4, 5, 2, 3, 1] := by decide

end Bb.Rq
