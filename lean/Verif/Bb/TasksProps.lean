import Verif.Bb.TasksModel
/-!
# Which tasks run before which
-/

namespace Bb.Tasks
open Py

namespace Spec

/-- The name of a task; `do_` may be left out. -/
def named (t x : Str) : Prop := ("do_".toList.isPrefixOf t = true ∧ x = t) ∨ ("do_".toList.isPrefixOf t = false ∧ x = "do_".toList ++ t)

/-- Whether a task exists after the lines, the last of which is the first of the list. -/
def Task : List Ev → Str → Prop
  | [], _ => False
  | .add t _ _ :: h, x => named t x ∨ Task h x
  | .del t :: h, x => ¬ named t x ∧ Task h x

/-- Whether it has been said that `s` runs before `t`.  Deleting a task takes back all that was said about it. -/
def Edge : List Ev → Str → Str → Prop
  | [], _, _ => False
  | .add n b a :: h, s, t => (named n t ∧ s ∈ a) ∨ (named n s ∧ t ∈ b) ∨ Edge h s t
  | .del n :: h, s, t => ¬ named n s ∧ ¬ named n t ∧ Edge h s t

/-- When a task is deleted, the tasks that were to run after it exist. -/
def Tidy : List Ev → Prop
  | [] => True
  | .add _ _ _ :: h => Tidy h
  | .del n :: h => Tidy h ∧ ∀ s t, named n s → Edge h s t → Task h t

end Spec
open Spec

theorem named_iff {t x : Str} : named t x ↔ x = full t := by
  unfold named full
  have h : (t.take 3 = "do_".toList) ↔ "do_".toList.isPrefixOf t = true := by
    rw [List.isPrefixOf_iff_prefix, List.prefix_iff_eq_take]
    exact ⟨fun h => h.symm, fun h => h.symm⟩
  by_cases hp : t.take 3 = "do_".toList
  · rw [if_pos hp]
    have := h.1 hp
    rw [this]
    exact ⟨fun h => h.elim (fun h => h.2) (fun h => nomatch h.1), fun h => Or.inl ⟨rfl, h⟩⟩
  · rw [if_neg hp]
    have : "do_".toList.isPrefixOf t = false := by
      cases hx : "do_".toList.isPrefixOf t with
      | false => rfl
      | true => exact absurd (h.2 hx) hp
    rw [this]
    exact ⟨fun h => h.elim (fun h => nomatch h.1) (fun h => h.2), fun h => Or.inr ⟨rfl, h⟩⟩

theorem mem_addNew {l : List Str} {x y : Str} : y ∈ addNew l x ↔ y ∈ l ∨ y = x := by
  unfold addNew
  split
  · rename_i h
    exact ⟨Or.inl, fun h' => h'.elim id (fun e => e ▸ h)⟩
  · rw [List.mem_append, List.mem_singleton]

theorem nodup_addNew {l : List Str} {x : Str} (h : l.Nodup) : (addNew l x).Nodup := by
  unfold addNew
  split
  · exact h
  · rename_i hx
    rw [List.nodup_append]
    refine ⟨h, List.nodup_cons.2 ⟨fun h => (nomatch h), List.nodup_nil⟩, ?_⟩
    intro a ha b hb e
    cases List.mem_singleton.1 hb
    exact hx (e ▸ ha)

theorem mem_addAll {a : List Str} : ∀ {l : List Str} {y : Str}, y ∈ a.foldl addNew l ↔ y ∈ l ∨ y ∈ a := by
  induction a with
  | nil => intro l y; exact ⟨Or.inl, fun h => h.elim id (fun h => nomatch h)⟩
  | cons x a ih =>
    intro l y
    rw [List.foldl_cons, ih, mem_addNew, List.mem_cons, or_assoc]

theorem nodup_addAll {a : List Str} : ∀ {l : List Str}, l.Nodup → (a.foldl addNew l).Nodup := by
  induction a with
  | nil => intro l h; exact h
  | cons x a ih => intro l h; exact ih (nodup_addNew h)

theorem mem_before (n : Str) : ∀ (b : List Str) (d : Str → List Str) (s t : Str),
    s ∈ (b.foldl (fun d e => if n ∈ d e then d else setDeps d e (n :: d e)) d) t ↔ s ∈ d t ∨ (s = n ∧ t ∈ b) := by
  intro b
  induction b with
  | nil => intro d s t; exact ⟨Or.inl, fun h => h.elim id (fun h => nomatch h.2)⟩
  | cons e b ih =>
    intro d s t
    rw [List.foldl_cons, ih]
    have h1 : s ∈ (if n ∈ d e then d else setDeps d e (n :: d e)) t ↔ s ∈ d t ∨ (s = n ∧ t = e) := by
      split
      · rename_i hn
        exact ⟨Or.inl, fun h => h.elim id (fun h => by rw [h.1, h.2]; exact hn)⟩
      · unfold setDeps
        by_cases ht : t = e
        · rw [if_pos ht, List.mem_cons, ht]
          exact ⟨fun h => h.elim (fun h => Or.inr ⟨h, rfl⟩) Or.inl, fun h => h.elim Or.inr (fun h => Or.inl h.1)⟩
        · rw [if_neg ht]
          exact ⟨Or.inl, fun h => h.elim id (fun h => absurd h.2 ht)⟩
    rw [h1, List.mem_cons]
    constructor
    · rintro ((h | h) | h)
      · exact Or.inl h
      · exact Or.inr ⟨h.1, Or.inl h.2⟩
      · exact Or.inr ⟨h.1, Or.inr h.2⟩
    · rintro (h | ⟨h, h' | h'⟩)
      · exact Or.inl (Or.inl h)
      · exact Or.inl (Or.inr ⟨h, h'⟩)
      · exact Or.inr ⟨h, h'⟩

theorem nodup_before (n : Str) : ∀ (b : List Str) (d : Str → List Str), (∀ t, (d t).Nodup) →
    ∀ t, ((b.foldl (fun d e => if n ∈ d e then d else setDeps d e (n :: d e)) d) t).Nodup := by
  intro b
  induction b with
  | nil => intro d h t; exact h t
  | cons e b ih =>
    intro d h t
    refine ih _ ?_ t
    intro x
    dsimp only
    split
    · exact h x
    · rename_i hn
      unfold setDeps
      split
      · exact List.nodup_cons.2 ⟨hn, h e⟩
      · exact h x

theorem mem_del (n : Str) : ∀ (l : List Str) (d : Str → List Str), (∀ t, (d t).Nodup) → ∀ (s t : Str),
    s ∈ (l.foldl (fun d b => if n ∈ d b then setDeps d b ((d b).erase n) else d) d) t ↔ s ∈ d t ∧ ¬ (s = n ∧ t ∈ l) := by
  intro l
  induction l with
  | nil => intro d _ s t; exact ⟨fun h => ⟨h, fun h => nomatch h.2⟩, fun h => h.1⟩
  | cons e l ih =>
    intro d hd s t
    have hd' : ∀ t, ((if n ∈ d e then setDeps d e ((d e).erase n) else d) t).Nodup := by
      intro t
      split
      · unfold setDeps
        split
        · exact (hd e).erase n
        · exact hd t
      · exact hd t
    rw [List.foldl_cons, ih _ hd']
    have h1 : s ∈ (if n ∈ d e then setDeps d e ((d e).erase n) else d) t ↔ s ∈ d t ∧ ¬ (s = n ∧ t = e) := by
      split
      · unfold setDeps
        by_cases ht : t = e
        · rw [if_pos ht, (hd e).mem_erase_iff, ht]
          exact ⟨fun h => ⟨h.2, fun h' => h.1 h'.1⟩, fun h => ⟨fun e => h.2 ⟨e, rfl⟩, h.1⟩⟩
        · rw [if_neg ht]
          exact ⟨fun h => ⟨h, fun h' => ht h'.2⟩, fun h => h.1⟩
      · rename_i hn
        exact ⟨fun h => ⟨h, fun h' => hn (by rw [← h'.1, ← h'.2]; exact h)⟩, fun h => h.1⟩
    rw [h1, List.mem_cons]
    constructor
    · rintro ⟨⟨h, h2⟩, h3⟩
      exact ⟨h, fun h' => h'.2.elim (fun e => h2 ⟨h'.1, e⟩) (fun m => h3 ⟨h'.1, m⟩)⟩
    · rintro ⟨h, h2⟩
      exact ⟨⟨h, fun h' => h2 ⟨h'.1, Or.inl h'.2⟩⟩, fun h' => h2 ⟨h'.1, Or.inr h'.2⟩⟩

theorem nodup_del (n : Str) : ∀ (l : List Str) (d : Str → List Str), (∀ t, (d t).Nodup) →
    ∀ t, ((l.foldl (fun d b => if n ∈ d b then setDeps d b ((d b).erase n) else d) d) t).Nodup := by
  intro l
  induction l with
  | nil => intro d h t; exact h t
  | cons e l ih =>
    intro d h t
    refine ih _ ?_ t
    intro t
    dsimp only
    split
    · unfold setDeps
      split
      · exact (h e).erase n
      · exact h t
    · exact h t

/-- No list has anything twice. -/
structure Inv (st : State) : Prop where
  tasks : st.tasks.Nodup
  deps : ∀ t, (st.deps t).Nodup

theorem inv_step {st : State} (h : Inv st) (e : Ev) : Inv (step st e) := by
  cases e with
  | add n b a =>
    refine ⟨nodup_addNew h.tasks, fun t => nodup_before _ b _ (fun t => ?_) t⟩
    unfold setDeps
    split
    · exact nodup_addAll (h.deps _)
    · exact h.deps t
  | del n =>
    refine ⟨h.tasks.erase _, fun t => nodup_del _ _ _ (fun t => ?_) t⟩
    unfold setDeps
    split
    · exact List.nodup_nil
    · exact h.deps t

theorem run_snoc (evs : List Ev) (e : Ev) : run (evs ++ [e]) = step (run evs) e := by
  unfold run
  rw [List.foldl_append]; rfl

theorem inv_run (h : List Ev) : Inv (run h.reverse) := by
  induction h with
  | nil => exact ⟨List.nodup_nil, fun _ => List.nodup_nil⟩
  | cons e h ih =>
    rw [List.reverse_cons, run_snoc]
    exact inv_step ih e

theorem mem_add (st : State) (n : Str) (b a : List Str) (s t : Str) : s ∈ (addtask st n b a).deps t ↔
    s ∈ st.deps t ∨ (t = full n ∧ s ∈ a) ∨ (s = full n ∧ t ∈ b) := by
  unfold addtask
  dsimp only
  rw [mem_before]
  unfold setDeps
  by_cases ht : t = full n
  · rw [if_pos ht, mem_addAll, ← ht]
    constructor
    · rintro ((h | h) | h)
      · exact Or.inl h
      · exact Or.inr (Or.inl ⟨rfl, h⟩)
      · exact Or.inr (Or.inr h)
    · rintro (h | h | h)
      · exact Or.inl (Or.inl h)
      · exact Or.inl (Or.inr h.2)
      · exact Or.inr h
  · rw [if_neg ht]
    exact ⟨fun h => h.elim Or.inl (fun h => Or.inr (Or.inr h)), fun h => h.elim Or.inl (fun h => h.elim (fun h => absurd h.1 ht) Or.inr)⟩

theorem mem_deltask {st : State} (h : Inv st) (n s t : Str) : s ∈ (deltask st n).deps t ↔
    s ∈ st.deps t ∧ t ≠ full n ∧ ¬ (s = full n ∧ t ∈ st.tasks) := by
  unfold deltask
  dsimp only
  rw [mem_del _ _ _ (fun t => by
    unfold setDeps
    split
    · exact List.nodup_nil
    · exact h.deps t)]
  rw [h.tasks.mem_erase_iff]
  unfold setDeps
  by_cases ht : t = full n
  · rw [if_pos ht]
    exact ⟨fun h => (nomatch h.1), fun h => absurd ht h.2.1⟩
  · rw [if_neg ht]
    exact ⟨fun h => ⟨h.1, ht, fun h' => h.2 ⟨h'.1, ht, h'.2⟩⟩, fun h => ⟨h.1, fun h' => h.2.2 ⟨h'.1, h'.2.2⟩⟩⟩

/-- C143: a task exists if it has been added and not been deleted since. -/
theorem task_exact (h : List Ev) (x : Str) : x ∈ (run h.reverse).tasks ↔ Task h x := by
  induction h with
  | nil => exact ⟨fun h => (nomatch h), fun h => h.elim⟩
  | cons e h ih =>
    rw [List.reverse_cons, run_snoc]
    cases e with
    | add n b a =>
      show x ∈ addNew _ _ ↔ named n x ∨ Task h x
      rw [mem_addNew, ih, named_iff, or_comm]
    | del n =>
      show x ∈ List.erase _ _ ↔ ¬ named n x ∧ Task h x
      rw [(inv_run h).tasks.mem_erase_iff, ih, named_iff]

/-- C143: all that was said about the order of two tasks, and not taken back, is kept. -/
theorem edge_kept (h : List Ev) (s t : Str) : Edge h s t → s ∈ (run h.reverse).deps t := by
  induction h with
  | nil => exact fun h => h.elim
  | cons e h ih =>
    rw [List.reverse_cons, run_snoc]
    cases e with
    | add n b a =>
      intro he
      refine (mem_add _ n b a s t).2 ?_
      rcases he with he | he | he
      · exact Or.inr (Or.inl ⟨named_iff.1 he.1, he.2⟩)
      · exact Or.inr (Or.inr ⟨named_iff.1 he.1, he.2⟩)
      · exact Or.inl (ih he)
    | del n =>
      rintro ⟨h1, h2, h3⟩
      exact (mem_deltask (inv_run h) n s t).2 ⟨ih h3, fun e => h2 (named_iff.2 e), fun e => h1 (named_iff.2 e.1)⟩

theorem edge_only (h : List Ev) (hh : Tidy h) (s t : Str) : s ∈ (run h.reverse).deps t → Edge h s t := by
  induction h with
  | nil => exact fun h => nomatch h
  | cons e h ih =>
    rw [List.reverse_cons, run_snoc]
    cases e with
    | add n b a =>
      intro he
      rcases (mem_add _ n b a s t).1 he with he | he | he
      · exact Or.inr (Or.inr (ih hh he))
      · exact Or.inl ⟨named_iff.2 he.1, he.2⟩
      · exact Or.inr (Or.inl ⟨named_iff.2 he.1, he.2⟩)
    | del n =>
      intro he
      obtain ⟨h1, h2, h3⟩ := (mem_deltask (inv_run h) n s t).1 he
      have h4 := ih hh.1 h1
      exact ⟨fun hn => h3 ⟨named_iff.1 hn, (task_exact h t).2 (hh.2 s t hn h4)⟩, fun hn => h2 (named_iff.1 hn), h4⟩

/-- C143: a task waits for exactly the tasks of its recipe of which this was said, by either of them. -/
theorem order_exact_partial (h : List Ev) (hh : Tidy h) (s t : Str) :
    s ∈ tdepends (run h.reverse) t ↔ Task h s ∧ Task h t ∧ Edge h s t := by
  unfold tdepends
  by_cases ht : t ∈ (run h.reverse).tasks
  · rw [if_pos ht, List.mem_filter, decide_eq_true_eq, task_exact]
    exact ⟨fun h' => ⟨h'.2, (task_exact h t).1 ht, edge_only h hh s t h'.1⟩, fun h' => ⟨edge_kept h s t h'.2.2, h'.1⟩⟩
  · rw [if_neg ht]
    exact ⟨fun h' => (nomatch h'), fun h' => absurd ((task_exact h t).2 h'.2.1) ht⟩

/-- C143: without a condition, nothing that was said is lost. -/
theorem order_kept (h : List Ev) (s t : Str) (hs : Task h s) (ht : Task h t) (he : Edge h s t) : s ∈ tdepends (run h.reverse) t := by
  unfold tdepends
  rw [if_pos ((task_exact h t).2 ht), List.mem_filter, decide_eq_true_eq]
  exact ⟨edge_kept h s t he, (task_exact h s).2 hs⟩

/-- Recipes that delete no task. -/
theorem tidy_of_adds (h : List Ev) (hh : ∀ e, e ∈ h → ∃ n b a, e = .add n b a) : Tidy h := by
  induction h with
  | nil => exact trivial
  | cons e h ih =>
    obtain ⟨n, b, a, rfl⟩ := hh e List.mem_cons_self
    exact ih fun e he => hh e (List.mem_cons_of_mem _ he)

def A : Str := "do_a".toList
def B : Str := "do_b".toList

/-- Against C143: what was said about a task that has been deleted comes back, if the other task was added later. -/
theorem deleted_comes_back :
    A ∈ tdepends (run [.add A [B] [], .del A, .add A [] [], .add B [] []]) B ∧
    ¬ Edge [.add B [] [], .add A [] [], .del A, .add A [B] []] A B := by
  constructor
  · decide +kernel
  · rintro (⟨_, h⟩ | ⟨_, h⟩ | ⟨_, h⟩ | ⟨_, h⟩ | ⟨h, _⟩)
    · cases h
    · cases h
    · cases h
    · cases h
    · exact h (named_iff.2 rfl)

example : Tidy [.del B, .add A [B] [], .add B [] []] := by
  refine ⟨trivial, ?_⟩
  rintro s t hn (⟨_, h⟩ | ⟨_, h⟩ | ⟨_, h⟩ | ⟨_, h⟩ | h)
  · cases h
  · cases List.mem_singleton.1 h
    exact Or.inr (Or.inl (named_iff.2 rfl))
  · cases h
  · cases h
  · exact h.elim

end Bb.Tasks
