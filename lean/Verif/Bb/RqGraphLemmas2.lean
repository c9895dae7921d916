import Verif.Bb.RqGraphLemmas
/-!
# Lemmas about weights and circular dependencies
-/

namespace Bb.Rq
open Spec

set_option linter.unusedSectionVars false

variable {T : Type} [DecidableEq T]

theorem mem_revdeps {g : Graph T} {x t : T} : x ∈ g.revdeps t ↔ x ∈ g.tasks ∧ t ∈ g.deps x := by
  unfold Graph.revdeps
  rw [List.mem_filter]
  simp only [decide_eq_true_eq]

theorem mem_endpoints {g : Graph T} {t : T} :
    t ∈ g.endpoints ↔ t ∈ g.tasks ∧ ∀ x ∈ g.tasks, t ∉ g.deps x := by
  unfold Graph.endpoints
  rw [List.mem_filter, List.isEmpty_iff]
  refine and_congr_right fun _ => ⟨fun h x hx hd => ?_, fun h => ?_⟩
  · have : x ∈ g.revdeps t := mem_revdeps.2 ⟨hx, hd⟩
    rw [h] at this
    cases this
  · refine List.eq_nil_iff_forall_not_mem.2 fun x hx => ?_
    have := mem_revdeps.1 hx
    exact h x this.1 this.2

/-! ### One endpoint -/

theorem upd_apply {α : Type} (f : T → α) (k : T) (v : α) (x : T) :
    upd f k v x = if x = k then v else f x := rfl

/-- The effect of all dependencies of one endpoint. -/
theorem relax_fold (t : T) (D : List T) (hD : D.Nodup) (ht : t ∉ D) (w : W T) :
    (∀ x, (D.foldl (relax t) w).weight x = if x ∈ D then w.weight x + w.weight t else w.weight x) ∧
    (∀ x, (D.foldl (relax t) w).left x = if x ∈ D then w.left x - 1 else w.left x) ∧
    (∀ x, (D.foldl (relax t) w).done x = (w.done x || decide (x ∈ D ∧ w.left x - 1 = 0))) ∧
    (D.foldl (relax t) w).next = w.next ++ D.filter (fun x => w.left x - 1 = 0) := by
  induction D generalizing w with
  | nil => simp
  | cons d D ih =>
    have ⟨hd, hD'⟩ := List.nodup_cons.1 hD
    have htd : t ≠ d := fun e => ht (e ▸ List.mem_cons_self)
    obtain ⟨h1, h2, h3, h4⟩ := ih hD' (fun h => ht (List.mem_cons_of_mem _ h)) (relax t w d)
    simp only [List.foldl_cons]
    have ew : ∀ x, (relax t w d).weight x =
        if x = d then w.weight d + w.weight t else w.weight x := by
      intro x; unfold relax; dsimp only; split <;> rfl
    have el : ∀ x, (relax t w d).left x = if x = d then w.left d - 1 else w.left x := by
      intro x; unfold relax; dsimp only; split <;> rfl
    have ed : ∀ x, (relax t w d).done x = (w.done x || decide (x = d ∧ w.left d - 1 = 0)) := by
      intro x; unfold relax; dsimp only
      rw [upd_apply, if_pos rfl]
      by_cases e0 : w.left d - 1 = 0
      · rw [if_pos e0]
        dsimp only
        rw [upd_apply]
        by_cases e : x = d <;> simp [e, e0]
      · rw [if_neg e0]
        simp [e0]
    have en : (relax t w d).next = w.next ++ if w.left d - 1 = 0 then [d] else [] := by
      unfold relax; dsimp only
      rw [upd_apply, if_pos rfl]
      by_cases e0 : w.left d - 1 = 0
      · rw [if_pos e0, if_pos e0]
      · rw [if_neg e0, if_neg e0, List.append_nil]
    refine ⟨fun x => ?_, fun x => ?_, fun x => ?_, ?_⟩
    · rw [h1, ew, ew]
      rw [if_neg htd]
      by_cases e : x = d
      · subst e; simp [hd]
      · simp [e]
    · rw [h2, el]
      by_cases e : x = d
      · subst e; simp [hd]
      · simp [e]
    · rw [h3, ed, el]
      by_cases e : x = d
      · subst e; simp [hd]
      · simp [e]
    · rw [h4, en, List.append_assoc]
      congr 1
      have : D.filter (fun x => (relax t w d).left x - 1 = 0) = D.filter (fun x => w.left x - 1 = 0) := by
        refine List.filter_congr fun x hx => ?_
        have e : x ≠ d := fun e => hd (e ▸ hx)
        rw [el, if_neg e]
      rw [this]
      by_cases e0 : w.left d - 1 = 0
      · rw [if_pos e0, List.filter_cons_of_pos (by simp [e0])]; rfl
      · rw [if_neg e0, List.filter_cons_of_neg (by simp [e0])]; rfl

/-! ### The invariant -/

/-- The weight from the reverse dependencies that are in `P`. -/
def wsum (g : Graph T) (weight : T → Nat) (P : List T) (x : T) : Nat :=
  (((g.revdeps x).filter fun r => r ∈ P).map weight).sum

/-- The weight at the start. -/
def base (g : Graph T) (t : T) : Nat := if t ∈ g.endpoints then 10 else 1

/-- The tasks `P` are processed in this order, `Q` are waiting. -/
structure KInv (g : Graph T) (P Q : List T) (w : W T) : Prop where
  nodup : (P ++ Q).Nodup
  sub : ∀ x ∈ P ++ Q, x ∈ g.tasks
  topo : ∀ A x B, P = A ++ x :: B → ∀ r ∈ g.revdeps x, r ∈ A
  pend : ∀ x ∈ Q, ∀ r ∈ g.revdeps x, r ∈ P
  left : ∀ x, w.left x = ((g.revdeps x).filter fun r => r ∉ P).length
  reached : ∀ x ∈ g.tasks, w.left x = 0 → x ∈ P ++ Q
  done : ∀ x, w.done x = true ↔ x ∈ P ++ Q
  weight : ∀ x, w.weight x = base g x + wsum g w.weight P x

theorem revdeps_nodup {g : Graph T} (ok : g.Ok) (x : T) : (g.revdeps x).Nodup :=
  ok.nodup.sublist List.filter_sublist

/-- Taking one element out of a list without repetitions. -/
theorem filter_remove {l : List T} (h : l.Nodup) {P : List T} {t : T} (htP : t ∉ P) :
    (l.filter fun r => r ∉ P ++ [t]).length + (if t ∈ l then 1 else 0) =
      (l.filter fun r => r ∉ P).length := by
  induction l with
  | nil => simp
  | cons a l ih =>
    have ⟨ha, hl⟩ := List.nodup_cons.1 h
    have ih := ih hl
    by_cases e : a = t
    · subst e
      rw [List.filter_cons_of_neg (by simp), List.filter_cons_of_pos (by simpa using htP)]
      rw [if_neg ha] at ih
      simp only [List.mem_cons_self, if_true, List.length_cons]
      omega
    · have hm : (t ∈ a :: l) ↔ t ∈ l := by
        have e' : t ≠ a := fun x => e x.symm
        simp [e']
      by_cases hp : a ∈ P
      · rw [List.filter_cons_of_neg (by simp [hp]), List.filter_cons_of_neg (by simp [hp])]
        simp only [hm]
        exact ih
      · rw [List.filter_cons_of_pos (by simp [hp, e]), List.filter_cons_of_pos (by simp [hp])]
        simp only [hm, List.length_cons]
        omega

theorem sum_add {l : List T} (h : l.Nodup) {P : List T} {t : T} (htP : t ∉ P) (f : T → Nat) :
    ((l.filter fun r => r ∈ P ++ [t]).map f).sum =
      ((l.filter fun r => r ∈ P).map f).sum + (if t ∈ l then f t else 0) := by
  induction l with
  | nil => simp
  | cons a l ih =>
    have ⟨ha, hl⟩ := List.nodup_cons.1 h
    have ih := ih hl
    by_cases e : a = t
    · subst e
      rw [List.filter_cons_of_pos (by simp), List.filter_cons_of_neg (by simpa using htP)]
      rw [if_neg ha] at ih
      simp only [List.mem_cons_self, if_true, List.map_cons, List.sum_cons]
      omega
    · have hm : (t ∈ a :: l) ↔ t ∈ l := by
        have e' : t ≠ a := fun x => e x.symm
        simp [e']
      by_cases hp : a ∈ P
      · rw [List.filter_cons_of_pos (by simp [hp]), List.filter_cons_of_pos (by simp [hp])]
        simp only [hm, List.map_cons, List.sum_cons]
        omega
      · rw [List.filter_cons_of_neg (by simp [hp, e]), List.filter_cons_of_neg (by simp [hp])]
        simp only [hm]
        exact ih

theorem kinv_init {g : Graph T} (ok : g.Ok) : KInv g [] g.endpoints g.init where
  nodup := ok.nodup.sublist List.filter_sublist
  sub x hx := (mem_endpoints.1 hx).1
  topo A x B h := by simp at h
  pend x hx r hr := absurd (mem_revdeps.1 hr).2 ((mem_endpoints.1 hx).2 r (mem_revdeps.1 hr).1)
  left x := by
    show ((g.revdeps x).length : Int) = _
    rw [List.filter_eq_self.2 (fun a _ => by simp)]
  reached x hx h := by
    have h' : ((g.revdeps x).length : Int) = 0 := h
    have h0 : (g.revdeps x).length = 0 := by omega
    refine mem_endpoints.2 ⟨hx, fun r hr hd => ?_⟩
    have : r ∈ g.revdeps x := mem_revdeps.2 ⟨hr, hd⟩
    rw [List.length_eq_zero_iff.1 h0] at this
    cases this
  done x := by
    show decide (x ∈ g.endpoints) = true ↔ _
    simp
  weight x := by
    show (if x ∈ g.endpoints then 10 else 1) = _
    unfold base wsum
    rw [List.filter_eq_nil_iff.2 (fun a _ => by simp)]
    rfl

/-- One endpoint is processed. -/
theorem kinv_point {g : Graph T} (ok : g.Ok) {P Q : List T} {t : T} {w : W T}
    (h : KInv g P (t :: Q) w) :
    ∃ new, ((g.deps t).foldl (relax t) w).next = w.next ++ new ∧
      KInv g (P ++ [t]) (Q ++ new) ((g.deps t).foldl (relax t) w) := by
  have htt : t ∈ g.tasks := h.sub t (by simp)
  have hnd := h.nodup
  have htP : t ∉ P := fun hp => by
    rw [List.nodup_append] at hnd
    exact hnd.2.2 t hp t List.mem_cons_self rfl
  obtain ⟨h1, h2, h3, h4⟩ := relax_fold t (g.deps t) (ok.depsNodup t htt) (ok.noSelf t htt) w
  refine ⟨_, h4, ?_⟩
  generalize hw' : (g.deps t).foldl (relax t) w = w' at *
  -- the new left counts
  have hrd : ∀ x, (t ∈ g.revdeps x) ↔ x ∈ g.deps t := fun x => by
    rw [mem_revdeps]; exact ⟨fun h => h.2, fun h => ⟨htt, h⟩⟩
  have hleft : ∀ x, w'.left x = ((g.revdeps x).filter fun r => r ∉ P ++ [t]).length := by
    intro x
    have hfr := filter_remove (revdeps_nodup ok x) (P := P) (t := t) htP
    rw [h2 x]
    have hl := h.left x
    by_cases e : x ∈ g.deps t
    · rw [if_pos e]
      rw [if_pos ((hrd x).2 e)] at hfr
      omega
    · rw [if_neg e]
      rw [if_neg (fun hh => e ((hrd x).1 hh))] at hfr
      omega
  -- the new endpoints
  have hnew : ∀ x, x ∈ (g.deps t).filter (fun x => w.left x - 1 = 0) ↔
      x ∈ g.deps t ∧ w'.left x = 0 := by
    intro x
    rw [List.mem_filter]
    simp only [decide_eq_true_eq]
    refine and_congr_right fun hx => ?_
    rw [h2 x, if_pos hx]
  have hold : ∀ x ∈ P ++ t :: Q, ∀ r ∈ g.revdeps x, r ∈ P := by
    intro x hx r hr
    rcases List.mem_append.1 hx with hx | hx
    · obtain ⟨A, B, e⟩ := List.append_of_mem hx
      rw [e]
      exact List.mem_append_left _ (h.topo A x B e r hr)
    · exact h.pend x hx r hr
  have hdisj : ∀ x ∈ g.deps t, x ∉ P ++ t :: Q := by
    intro x hx hm
    exact htP (hold x hm t ((hrd x).2 hx))
  have hperm : ∀ x, x ∈ (P ++ [t]) ++ (Q ++ (g.deps t).filter (fun x => w.left x - 1 = 0)) ↔
      x ∈ P ++ t :: Q ∨ x ∈ (g.deps t).filter (fun x => w.left x - 1 = 0) := by
    intro x
    simp only [List.mem_append, List.mem_cons, List.not_mem_nil, or_false]
    constructor
    · rintro ((h | h) | h | h)
      · exact .inl (.inl h)
      · exact .inl (.inr (.inl h))
      · exact .inl (.inr (.inr h))
      · exact .inr h
    · rintro ((h | h | h) | h)
      · exact .inl (.inl h)
      · exact .inl (.inr h)
      · exact .inr (.inl h)
      · exact .inr (.inr h)
  constructor
  · -- nodup
    have e : (P ++ [t]) ++ (Q ++ (g.deps t).filter (fun x => w.left x - 1 = 0)) =
        (P ++ t :: Q) ++ (g.deps t).filter (fun x => w.left x - 1 = 0) := by simp
    rw [e, List.nodup_append]
    refine ⟨hnd, (ok.depsNodup t htt).sublist List.filter_sublist, fun a ha b hb hab => ?_⟩
    subst hab
    exact hdisj a (List.mem_filter.1 hb).1 ha
  · intro x hx
    rcases (hperm x).1 hx with hx | hx
    · exact h.sub x hx
    · exact ok.closed t htt x (List.mem_filter.1 hx).1
  · -- topological order
    intro A x B e r hr
    rcases List.eq_nil_or_concat B with rfl | ⟨B', b, rfl⟩
    · obtain ⟨e1, e2⟩ := List.append_inj' e rfl
      have e2 : t = x := by simpa using e2
      subst e2 e1
      exact h.pend t List.mem_cons_self r hr
    · have e' : P ++ [t] = (A ++ x :: B') ++ [b] := by
        rw [e]; simp
      obtain ⟨e1, _⟩ := List.append_inj' e' rfl
      exact h.topo A x B' e1 r hr
  · intro x hx r hr
    rcases List.mem_append.1 hx with hx | hx
    · exact List.mem_append_left _ (h.pend x (List.mem_cons_of_mem _ hx) r hr)
    · have h0 := ((hnew x).1 hx).2
      rw [hleft x] at h0
      refine Classical.byContradiction fun hc => ?_
      have : r ∈ (g.revdeps x).filter fun r => r ∉ P ++ [t] := List.mem_filter.2 ⟨hr, by simpa using hc⟩
      have := List.length_pos_of_mem this
      omega
  · exact hleft
  · intro x hx h0
    refine (hperm x).2 ?_
    by_cases e : x ∈ g.deps t
    · exact .inr ((hnew x).2 ⟨e, h0⟩)
    · rw [h2 x, if_neg e] at h0
      exact .inl (h.reached x hx h0)
  · intro x
    rw [h3 x, Bool.or_eq_true, decide_eq_true_eq, h.done x, hperm x, List.mem_filter]
    simp only [decide_eq_true_eq]
  · -- weights
    intro x
    have hwt : ∀ r ∈ (g.revdeps x).filter (fun r => r ∈ P ++ [t]), w'.weight r = w.weight r := by
      intro r hr
      have hrm : r ∈ P ++ [t] := by simpa using (List.mem_filter.1 hr).2
      rw [h1 r, if_neg]
      intro hd
      refine hdisj r hd ?_
      rcases List.mem_append.1 hrm with hp | hp
      · exact List.mem_append_left _ hp
      · rw [List.mem_singleton.1 hp]
        exact List.mem_append_right _ List.mem_cons_self
    have hs : wsum g w'.weight (P ++ [t]) x = wsum g w.weight (P ++ [t]) x := by
      unfold wsum
      rw [List.map_congr_left hwt]
    have hsa : wsum g w.weight (P ++ [t]) x =
        wsum g w.weight P x + (if t ∈ g.revdeps x then w.weight t else 0) :=
      sum_add (revdeps_nodup ok x) htP w.weight
    rw [hs, hsa, h1 x]
    have := h.weight x
    by_cases e : x ∈ g.deps t
    · rw [if_pos e, if_pos ((hrd x).2 e)]; omega
    · rw [if_neg e, if_neg (fun hh => e ((hrd x).1 hh))]; omega

/-! ### All passes -/

theorem kinv_next {g : Graph T} {P Q : List T} {w : W T} (h : KInv g P Q w) (l : List T) :
    KInv g P Q { w with next := l } :=
  ⟨h.nodup, h.sub, h.topo, h.pend, h.left, h.reached, h.done, h.weight⟩

theorem kinv_pass {g : Graph T} (ok : g.Ok) (E : List T) : ∀ {P : List T} {w : W T},
    KInv g P (E ++ w.next) w →
    KInv g (P ++ E) (E.foldl (fun w tid => (g.deps tid).foldl (relax tid) w) w).next
      (E.foldl (fun w tid => (g.deps tid).foldl (relax tid) w) w) := by
  induction E with
  | nil => intro P w h; simpa using h
  | cons t E ih =>
    intro P w h
    obtain ⟨new, hn, hk⟩ := kinv_point ok (Q := E ++ w.next) h
    simp only [List.foldl_cons]
    rw [List.append_assoc, ← hn] at hk
    have := ih hk
    rw [List.append_assoc] at this
    exact this

theorem kinv_passes {g : Graph T} (ok : g.Ok) : ∀ (fuel : Nat) (P E : List T) (w : W T),
    KInv g P E w → g.tasks.length < P.length + fuel → ∃ P', KInv g P' [] (g.passes fuel E w) := by
  intro fuel
  induction fuel with
  | zero =>
    intro P E w h hf
    have h1 : P.Nodup := (List.nodup_append.1 h.nodup).1
    have := nodup_length_le h1 fun x hx => h.sub x (List.mem_append_left _ hx)
    omega
  | succ fuel ih =>
    intro P E w h hf
    rw [Graph.passes]
    have hp : KInv g (P ++ E) (g.pass E w).next (g.pass E w) := by
      refine kinv_pass ok E (P := P) (w := { w with next := [] }) ?_
      simpa using kinv_next h []
    by_cases e : (g.pass E w).next = []
    · rw [if_pos e]
      rw [e] at hp
      exact ⟨_, hp⟩
    · rw [if_neg e]
      by_cases hE : E = []
      · subst hE
        exact absurd rfl e
      · refine ih _ _ _ hp ?_
        have : 0 < E.length := List.length_pos_iff.2 hE
        rw [List.length_append]
        omega

theorem kinv_final {g : Graph T} (ok : g.Ok) : ∃ P, KInv g P [] g.final :=
  kinv_passes ok _ [] _ _ (kinv_init ok) (by simp)

/-! ### Cycles -/

/-- A list with all the tasks in which reverse dependencies come first has no cycle. -/
theorem topo_acyclic {g : Graph T} (ok : g.Ok) {P : List T}
    (topo : ∀ A x B, P = A ++ x :: B → ∀ r ∈ g.revdeps x, r ∈ A) {a b : T} (ha : a ∈ g.tasks)
    (h : Path g a b) : ∀ A B, P = A ++ b :: B → a ∈ A := by
  induction h with
  | one h => intro A B e; exact topo A _ B e _ (mem_revdeps.2 ⟨ha, h⟩)
  | @more a c b h r ih =>
    intro A B e
    have hc := ih (ok.closed a ha c h) A B e
    obtain ⟨A1, A2, e1⟩ := List.append_of_mem hc
    rw [e1] at e
    have : a ∈ A1 := topo A1 c (A2 ++ b :: B) (by rw [e]; simp) a (mem_revdeps.2 ⟨ha, h⟩)
    rw [e1]
    exact List.mem_append_left _ this

/-- In a graph without cycles a set in which each task has a reverse dependency is empty. -/
theorem no_ascent {g : Graph T} (ac : Acyclic g) {U : T → Prop} (hU : ∀ x, U x → x ∈ g.tasks)
    (hr : ∀ x, U x → ∃ r ∈ g.revdeps x, U r) (x : T) : ¬ U x := by
  intro hx
  -- longer and longer chains without repetition
  have chain : ∀ n, ∃ (l : List T) (a : T), (a :: l).length = n + 1 ∧ (a :: l).Nodup ∧ U a ∧
      (∀ y ∈ a :: l, y ∈ g.tasks) ∧ ∀ y ∈ l, Path g a y := by
    intro n
    induction n with
    | zero => exact ⟨[], x, rfl, by simp, hx, by simpa using hU x hx, by simp⟩
    | succ n ih =>
      obtain ⟨l, a, hl, hnd, ha, hm, hp⟩ := ih
      obtain ⟨r, hr1, hr2⟩ := hr a ha
      have hd : a ∈ g.deps r := (mem_revdeps.1 hr1).2
      have hpr : ∀ y ∈ a :: l, Path g r y := by
        intro y hy
        rcases List.mem_cons.1 hy with rfl | hy
        · exact .one hd
        · exact .more hd (hp y hy)
      refine ⟨a :: l, r, by simpa using hl, List.nodup_cons.2 ⟨fun hc => ?_, hnd⟩, hr2, ?_, hpr⟩
      · exact ac r (hU r hr2) (hpr r hc)
      · intro y hy
        rcases List.mem_cons.1 hy with rfl | hy
        · exact hU _ hr2
        · exact hm y hy
  obtain ⟨l, a, hl, hnd, _, hm, _⟩ := chain g.tasks.length
  have := nodup_length_le hnd hm
  omega

theorem problems_nil_iff {g : Graph T} (ok : g.Ok) : g.problems = [] ↔ Acyclic g := by
  obtain ⟨P, h⟩ := kinv_final ok
  have hnd : P.Nodup := by simpa using h.nodup
  unfold Graph.problems
  rw [List.filter_eq_nil_iff]
  constructor
  · intro hp t ht hc
    have hd : g.final.done t = true := by
      have := hp t ht
      simp only [decide_eq_true_eq, not_or, Bool.not_eq_false] at this
      exact this.1
    have hm : t ∈ P := by simpa using (h.done t).1 hd
    obtain ⟨A, B, e⟩ := List.append_of_mem hm
    have := topo_acyclic ok h.topo ht hc A B e
    rw [e, List.nodup_append] at hnd
    exact hnd.2.2 t this t List.mem_cons_self rfl
  · intro ac t ht
    have hm : ∀ x ∈ g.tasks, x ∈ P := by
      intro x hx
      refine Classical.byContradiction fun hc => no_ascent ac (U := fun x => x ∈ g.tasks ∧ x ∉ P)
        (fun x h => h.1) (fun x hx => ?_) x ⟨hx, hc⟩
      refine Classical.byContradiction fun hno => ?_
      have hz : g.final.left x = 0 := by
        rw [h.left x, List.filter_eq_nil_iff.2 fun r hr => ?_]
        · rfl
        · simp only [decide_eq_true_eq, Classical.not_not]
          exact Classical.byContradiction fun hrp => hno ⟨r, hr, (mem_revdeps.1 hr).1, hrp⟩
      exact hx.2 (by simpa using h.reached x hx.1 hz)
    have hd : g.final.done t = true := (h.done t).2 (by simpa using hm t ht)
    have hl : g.final.left t = 0 := by
      rw [h.left t, List.filter_eq_nil_iff.2 fun r hr => ?_]
      · rfl
      · simp only [decide_eq_true_eq, Classical.not_not]
        exact hm r (mem_revdeps.1 hr).1
    simp [hd, hl]

theorem pairLoop_cyclic {g : Graph T} (h : g.pairLoop = true) : ¬ Acyclic g := by
  unfold Graph.pairLoop at h
  rw [List.any_eq_true] at h
  obtain ⟨t, ht, h⟩ := h
  rw [List.any_eq_true] at h
  obtain ⟨d, hd, h⟩ := h
  intro ac
  exact ac t ht (.more (by simpa using h) (.one (mem_revdeps.1 hd).2))

end Bb.Rq
