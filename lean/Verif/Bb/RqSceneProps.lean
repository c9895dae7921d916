import Verif.Bb.RqSceneLemmas
/-!
# The graph of setscene tasks
-/

namespace Bb.Rq
open Spec

set_option linter.unusedSectionVars false

variable {T : Type} [DecidableEq T]

theorem scene_some {g : Graph T} {S targets : List T} {sc : Scene T}
    (h : scene g S targets = some sc) :
    (∀ x ∈ g.tasks, x ∉ S → (collapse g S).squash x = []) ∧
    sc = { revdeps := (collapse g S).squash
           deps := fun t => S.filter fun x => t ∈ (collapse g S).squash x
           cov := (collapse g S).cov
           unskippable := unskippable g S targets
           cantskip := cantskip g S targets } := by
  unfold scene at h
  by_cases hc : g.tasks.any (fun t => decide (t ∉ S ∧ (collapse g S).squash t ≠ [])) = true
  · rw [if_pos hc] at h; cases h
  · rw [if_neg hc] at h
    refine ⟨fun x hx hxS => Classical.byContradiction fun hne => hc ?_, (Option.some.inj h).symm⟩
    exact List.any_eq_true.2 ⟨x, hx, decide_eq_true ⟨hxS, hne⟩⟩

/-- If no task depends on itself, the fatal error "Something went badly wrong during scenequeue
generation" does not occur. -/
theorem scene_defined {g : Graph T} (ok : g.Ok) (ac : Acyclic g) {S : List T}
    (hS : ∀ s ∈ S, s ∈ g.tasks) (targets : List T) : ∃ sc, scene g S targets = some sc := by
  unfold scene
  rw [if_neg]
  · exact ⟨_, rfl⟩
  · intro h
    obtain ⟨x, hx, hc⟩ := List.any_eq_true.1 h
    have hc' := of_decide_eq_true hc
    exact hc'.2 (squash_empty ok ac hS x hx hc'.1)

/-- What the result of setscene task `s` stands for: exactly the other tasks that it depends on
directly or through tasks that are not setscene tasks. -/
theorem cov_exact {g : Graph T} (ok : g.Ok) {S targets : List T} (hS : ∀ s ∈ S, s ∈ g.tasks)
    {sc : Scene T} (h : scene g S targets = some sc) {s : T} (hs : s ∈ S) (x : T) :
    x ∈ sc.cov s ↔ x ∉ S ∧ Via g S s x := by
  obtain ⟨h0, rfl⟩ := scene_some h
  obtain ⟨P, hp⟩ := pinv_collapse ok hS
  constructor
  · intro hx
    obtain ⟨_, h2, h3, _⟩ := hp.cov s x hx
    exact ⟨h3, h2⟩
  · rintro ⟨hxS, hv⟩
    have key : ∀ a y, Via g S a y → a ∈ S → y ∈ g.tasks ∧ (y ∉ S → y ∈ (collapse g S).cov a) := by
      intro a y hv
      induction hv with
      | one hd =>
        intro ha
        refine ⟨ok.closed _ (hS _ ha) _ hd, fun hy => ?_⟩
        rcases hp.first _ ha _ hd with hh | hh | ⟨l, hl, _⟩
        · exact hh.2
        · rw [h0 _ (ok.closed _ (hS _ ha) _ hd) hy] at hh; simp at hh
        · simp at hl
      | more hr hb hd ih =>
        intro ha
        have hb' := (ih ha).2 hb
        have ht := ok.closed _ (ih ha).1 _ hd
        refine ⟨ht, fun hy => ?_⟩
        rcases hp.flow _ _ hb' _ hd with hh | hh | ⟨l, hl, _⟩
        · exact hh.2
        · rw [h0 _ ht hy] at hh; simp at hh
        · simp at hl
    exact (key s x hv hs).2 hxS

/-- The setscene tasks that need the result of setscene task `d`: exactly those that depend on it
directly or through tasks that are not setscene tasks. -/
theorem revdeps_exact {g : Graph T} (ok : g.Ok) {S targets : List T} (hS : ∀ s ∈ S, s ∈ g.tasks)
    {sc : Scene T} (h : scene g S targets = some sc) {d : T} (hd : d ∈ S) (s : T) :
    s ∈ sc.revdeps d ↔ s ∈ S ∧ Via g S s d := by
  have hcov := fun (a : T) (ha : a ∈ S) (x : T) => cov_exact ok hS h (s := a) ha x
  obtain ⟨h0, rfl⟩ := scene_some h
  obtain ⟨P, hp⟩ := pinv_collapse ok hS
  constructor
  · intro hs
    obtain ⟨h1, h2, _⟩ := hp.squash d s hs
    exact ⟨h1, h2⟩
  · rintro ⟨hs, hv⟩
    cases hv with
    | one hx =>
      rcases hp.first s hs d hx with hh | hh | ⟨l, hl, _⟩
      · exact absurd hd hh.1
      · exact hh
      · simp at hl
    | more hr hb hx =>
      rcases hp.flow s _ ((hcov s hs _).2 ⟨hb, hr⟩) d hx with hh | hh | ⟨l, hl, _⟩
      · exact absurd hd hh.1
      · exact hh
      · simp at hl

/-- The dependencies between setscene tasks are the reverse ones, read backwards. -/
theorem scene_deps_exact {g : Graph T} (ok : g.Ok) {S targets : List T} (hS : ∀ s ∈ S, s ∈ g.tasks)
    {sc : Scene T} (h : scene g S targets = some sc) {s : T} (hs : s ∈ S) (d : T) :
    d ∈ sc.deps s ↔ d ∈ S ∧ Via g S s d := by
  have hrev := fun (a : T) (ha : a ∈ S) (x : T) => revdeps_exact ok hS h (d := a) ha x
  obtain ⟨h0, rfl⟩ := scene_some h
  simp only [List.mem_filter, decide_eq_true_eq]
  constructor
  · rintro ⟨h1, h2⟩
    exact ⟨h1, ((hrev d h1 s).1 h2).2⟩
  · rintro ⟨h1, h2⟩
    exact ⟨h1, (hrev d h1 s).2 ⟨hs, h2⟩⟩

/-- The tasks whose result is needed in any case: the roots of the build and what these depend on up
to and including the first setscene tasks. -/
theorem unskippable_exact {g : Graph T} (ok : g.Ok) {S targets : List T} {sc : Scene T}
    (h : scene g S targets = some sc) (x : T) :
    x ∈ sc.unskippable ↔
      ∃ r, Root g S targets r ∧ (r = x ∨ (r ∉ S ∧ Via g S r x)) := by
  obtain ⟨_, rfl⟩ := scene_some h
  show x ∈ unskippable g S targets ↔ _
  have hroot : ∀ r, r ∈ union g.endpoints (cantskip g S targets) ↔ Root g S targets r := by
    intro r
    rw [mem_union, mem_endpoints]
    unfold cantskip Root
    rw [List.mem_filter, decide_eq_true_eq]
    constructor
    · rintro (⟨h1, h2⟩ | ⟨h1, h2, h3⟩)
      · exact ⟨h1, Or.inl h2⟩
      · exact ⟨h3, Or.inr ⟨h1, h2⟩⟩
    · rintro ⟨h1, h2 | ⟨h2, h3⟩⟩
      · exact Or.inl ⟨h1, h2⟩
      · exact Or.inr ⟨h2, h3, h1⟩
  obtain ⟨i1, i2, i3⟩ := unskipLoop_spec ok (S := S)
    (fun x => ∃ r, Root g S targets r ∧ (r = x ∨ (r ∉ S ∧ Via g S r x)))
    (by
      rintro y ⟨r, hr, rfl | ⟨hrS, hv⟩⟩ hy d hd
      · exact ⟨r, hr, Or.inr ⟨hy, Via.one hd⟩⟩
      · exact ⟨r, hr, Or.inr ⟨hrS, Via.more hv hy hd⟩⟩)
    (g.tasks.length + 1) (union g.endpoints (cantskip g S targets))
    (fun y hy => ⟨((hroot y).1 hy).1, y, (hroot y).1 hy, Or.inl rfl⟩)
    (Nat.lt_succ_of_le (List.length_filter_le _ _))
  constructor
  · exact fun hx => (i2 x hx).2
  · rintro ⟨r, hr, rfl | ⟨hrS, hv⟩⟩
    · exact i1 _ ((hroot _).2 hr)
    · have key : ∀ a y, Via g S a y → a ∉ S → a ∈ unskippable g S targets →
          y ∈ unskippable g S targets := by
        intro a y hv
        induction hv with
        | one hd => exact fun ha hm => i3 _ hm ha _ hd
        | more _ hb hd ih => exact fun ha hm => i3 _ (ih ha hm) hb _ hd
      exact key r x hv hrS (i1 r ((hroot r).2 hr))

/-! ### A concrete case -/

/-- An image (0) needs two packages (1 and 2); both are built (3, 4) from a fetched source (5). The
packages and the fetched source can be restored. -/
def exScene : Graph Nat where
  tasks := [0, 1, 2, 3, 4, 5]
  deps t := if t = 0 then [1, 2] else if t = 1 then [3] else if t = 2 then [4] else if t = 3 then [5]
    else if t = 4 then [5] else []

theorem exScene_ok : exScene.Ok := ⟨by decide, by decide, by decide, by decide⟩

example : ∃ sc, scene exScene [1, 2, 5] [0] = some sc ∧ sc.cov 1 = [3] ∧ sc.cov 2 = [4] ∧
    sc.revdeps 5 = [1, 2] ∧ sc.deps 1 = [5] ∧ sc.unskippable = [0, 1, 2] ∧ sc.cantskip = [0] := by
  refine ⟨_, rfl, ?_⟩
  decide

end Bb.Rq
