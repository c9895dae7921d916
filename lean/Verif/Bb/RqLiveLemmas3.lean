import Verif.Bb.RqLiveLemmas2
/-!
# Lemmas about the execution of tasks: every step gets further
-/

namespace Bb.Rq
open Spec

set_option linter.unusedSectionVars false

variable {T P N : Type} [DecidableEq T] [DecidableEq P] [DecidableEq N]

/-! ### The measure -/

/-- How many of `l` are not in `done`. -/
def rest : List T → List T → Nat
  | [], _ => 0
  | x :: l, done => (if x ∈ done then 0 else 1) + rest l done

def modeRank : Mode → Nat
  | .running => 2
  | .cleanup => 1
  | _ => 0

/-- How much there is left to do. -/
def total (c : Cfg T P N) (s : St T P) : Nat :=
  2 * (rest c.setscene s.sqRunning + rest c.setscene s.hardNeeded + rest c.g.tasks s.running +
    s.deferred.length + modeRank s.mode) + s.stamps.length

theorem rest_mono {l a b : List T} (h : ∀ x ∈ a, x ∈ b) : rest l b ≤ rest l a := by
  induction l with
  | nil => exact Nat.le_refl _
  | cons x l ih =>
    unfold rest
    by_cases ha : x ∈ a
    · rw [if_pos ha, if_pos (h x ha)]; omega
    · rw [if_neg ha]
      by_cases hb : x ∈ b
      · rw [if_pos hb]; omega
      · rw [if_neg hb]; omega

theorem rest_lt {l a b : List T} (h : ∀ x ∈ a, x ∈ b) {t : T} (ht : t ∈ l) (ha : t ∉ a) (hb : t ∈ b) :
    rest l b < rest l a := by
  induction l with
  | nil => cases ht
  | cons x l ih =>
    have h1 := rest_mono (l := l) h
    unfold rest
    rcases List.mem_cons.1 ht with rfl | ht
    · rw [if_neg ha, if_pos hb]; omega
    · have h2 := ih ht
      by_cases hxa : x ∈ a
      · rw [if_pos hxa, if_pos (h x hxa)]; omega
      · rw [if_neg hxa]
        by_cases hxb : x ∈ b
        · rw [if_pos hxb]; omega
        · rw [if_neg hxb]; omega

/-- Nothing is taken back. -/
structure Le (s s' : St T P) : Prop where
  sqRunning : ∀ x ∈ s.sqRunning, x ∈ s'.sqRunning
  hardNeeded : ∀ x ∈ s.hardNeeded, x ∈ s'.hardNeeded
  running : ∀ x ∈ s.running, x ∈ s'.running
  deferred : s'.deferred.length ≤ s.deferred.length
  mode : modeRank s'.mode ≤ modeRank s.mode
  stamps : s'.stamps.length ≤ s.stamps.length

theorem Le.refl (s : St T P) : Le s s :=
  ⟨fun _ h => h, fun _ h => h, fun _ h => h, Nat.le_refl _, Nat.le_refl _, Nat.le_refl _⟩

theorem Le.trans {a b d : St T P} (h : Le a b) (h' : Le b d) : Le a d :=
  ⟨fun x hx => h'.sqRunning x (h.sqRunning x hx), fun x hx => h'.hardNeeded x (h.hardNeeded x hx),
    fun x hx => h'.running x (h.running x hx), Nat.le_trans h'.deferred h.deferred,
    Nat.le_trans h'.mode h.mode, Nat.le_trans h'.stamps h.stamps⟩

theorem Le.total {s s' : St T P} (h : Le s s') (c : Cfg T P N) : total c s' ≤ total c s := by
  have h1 := rest_mono (l := c.setscene) h.sqRunning
  have h2 := rest_mono (l := c.setscene) h.hardNeeded
  have h3 := rest_mono (l := c.g.tasks) h.running
  have h4 := h.deferred
  have h5 := h.mode
  have h6 := h.stamps
  unfold Rq.total
  omega

theorem Le.ltScene {s s' : St T P} (h : Le s s') {c : Cfg T P N} {t : T} (ht : t ∈ c.setscene)
    (h0 : t ∉ s.sqRunning) (h1 : t ∈ s'.sqRunning) : Rq.total c s' < Rq.total c s := by
  have h1 := rest_lt (l := c.setscene) h.sqRunning ht h0 h1
  have h2 := rest_mono (l := c.setscene) h.hardNeeded
  have h3 := rest_mono (l := c.g.tasks) h.running
  have h4 := h.deferred
  have h5 := h.mode
  have h6 := h.stamps
  unfold Rq.total
  omega

theorem Le.ltTask {s s' : St T P} (h : Le s s') {c : Cfg T P N} {t : T} (ht : t ∈ c.g.tasks)
    (h0 : t ∉ s.running) (h1 : t ∈ s'.running) : Rq.total c s' < Rq.total c s := by
  have h3 := rest_lt (l := c.g.tasks) h.running ht h0 h1
  have h2 := rest_mono (l := c.setscene) h.hardNeeded
  have h1 := rest_mono (l := c.setscene) h.sqRunning
  have h4 := h.deferred
  have h5 := h.mode
  have h6 := h.stamps
  unfold Rq.total
  omega

theorem le_updateCounters (c : Cfg T P N) (env : Env T) (fuel : Nat) (t : T) (fail : Bool)
    (s : St T P) : Le s (updateCounters c env fuel t fail s) := by
  have h := updateCounters_frame c env fuel t fail s
  exact ⟨h.sqRunning, by rw [h.hardNeeded]; exact fun _ h => h, by rw [h.running]; exact fun _ h => h,
    by rw [h.deferred]; exact Nat.le_refl _, by rw [h.mode]; exact Nat.le_refl _,
    by rw [h.stamps]; exact Nat.le_refl _⟩

theorem le_failOutright (c : Cfg T P N) (env : Env T) (t : T) (s : St T P) :
    Le s (failOutright c env t s) ∧ t ∈ (failOutright c env t s).sqRunning := by
  have h := le_updateCounters c env c.fuel t true (markMissing t s)
  refine ⟨Le.trans ?_ h, h.sqRunning t (mem_union.2 (Or.inr (by simp)))⟩
  exact ⟨fun x hx => mem_union.2 (Or.inl hx), fun _ h => h, fun _ h => h, Nat.le_refl _, Nat.le_refl _,
    Nat.le_refl _⟩

theorem le_sqSkip (c : Cfg T P N) (env : Env T) (e : Ev T) (t : T) (s : St T P) :
    Le s (sqSkip c env e t s) ∧ t ∈ (sqSkip c env e t s).sqRunning := by
  have h := le_updateCounters c env c.fuel t false
    { s with
      sqRunning := union s.sqRunning [t], sqBuildable := union s.sqBuildable [t]
      scCovered := union s.scCovered [t], log := e :: s.log }
  refine ⟨Le.trans ?_ h, h.sqRunning t (mem_union.2 (Or.inr (by simp)))⟩
  exact ⟨fun x hx => mem_union.2 (Or.inl hx), fun _ h => h, fun _ h => h, Nat.le_refl _, Nat.le_refl _,
    Nat.le_refl _⟩

theorem le_updateSceneTask (c : Cfg T P N) (env : Env T) (s : St T P) (t : T) :
    Le s (updateSceneTask c env s t) := by
  have h0 : Le s { s with outright := s.outright.filter fun x => x ≠ t } :=
    ⟨fun _ h => h, fun _ h => h, fun _ h => h, Nat.le_refl _, Nat.le_refl _, Nat.le_refl _⟩
  unfold updateSceneTask
  simp only
  by_cases h1 : c.noexec t = true
  · rw [if_pos h1]; exact h0.trans (le_sqSkip c env _ t _).1
  · rw [if_neg h1]
    by_cases h2 : (env.sstampNow t || env.stampRec t) = true
    · rw [if_pos h2]; exact h0.trans (le_sqSkip c env _ t _).1
    · rw [if_neg h2]; exact h0

theorem le_updateScene (c : Cfg T P N) (env : Env T) (tids : List T) (s : St T P) :
    Le s (updateScene c env tids s) := by
  have h : Le s (tids.foldl (updateSceneTask c env) s) := by
    induction tids generalizing s with
    | nil => exact Le.refl s
    | cons t tids ih =>
      rw [List.foldl_cons]
      exact (le_updateSceneTask c env s t).trans (ih _)
  refine h.trans ?_
  exact ⟨fun _ h => h, fun _ h => h, fun _ h => h, Nat.le_refl _, Nat.le_refl _, Nat.le_refl _⟩

theorem le_release (c : Cfg T P N) (env : Env T) (t : T) (s : St T P) :
    Le s (release c env t s) := by
  unfold release
  generalize (c.setscene.filter fun x => decide (s.deferred.lookup x = some t)) = w
  cases w with
  | nil => exact Le.refl s
  | cons f rest =>
    simp only
    have h := le_updateScene c env [f] { s with deferred := s.deferred.filter fun e => e.1 ≠ f }
    refine ⟨h.sqRunning, h.hardNeeded, h.running, ?_, h.mode, h.stamps⟩
    show (List.map _ (updateScene c env [f] _).deferred).length ≤ _
    rw [List.length_map, updateScene_deferred]
    exact List.length_filter_le _ _

theorem le_completeOutright (c : Cfg T P N) (env : Env T) (t : T) (s : St T P) :
    Le s (completeOutright c env t s) := by
  unfold completeOutright
  simp only
  refine Le.trans ?_ (le_release c env t _)
  exact ⟨fun _ h => h, fun _ h => h, fun _ h => h, Nat.le_refl _, Nat.le_refl _, Nat.le_refl _⟩

theorem le_updateHoldoff (c : Cfg T P N) (s : St T P) : Le s (updateHoldoff c s) := by
  unfold updateHoldoff
  by_cases hn : s.needUpdate = false
  · rw [if_pos hn]; exact Le.refl s
  · rw [if_neg hn]
    exact ⟨fun _ h => h, fun _ h => h, fun _ h => h, Nat.le_refl _, Nat.le_refl _, Nat.le_refl _⟩

/-! ### The invariants of this part -/

/-- All invariants. -/
structure Prog (c : Cfg T P N) (s : St T P) : Prop where
  good : Good c s
  scene : SInv c [] s
  task : TInv c [] s

/-- Nothing is left to do. -/
def Stuck (c : Cfg T P N) (s : St T P) : Prop :=
  s.stamps = [] → s.deferred = [] → s.failed = [] → sceneError c s = false ∧ unfinished c s = false

theorem tinv_mode {c : Cfg T P N} {pend : List T} {s : St T P} (h : TInv c pend s) {m : Mode}
    (hm : m = .failed → s.failed ≠ []) : TInv c pend { s with mode := m } :=
  ⟨h.same, h.runB, h.depB, h.covB, h.opn, h.fail, h.hold, h.sqd, hm⟩

theorem prog_finishStep {c : Cfg T P N} (ok : c.Live) {s : St T P} (h : Prog c s) (hst : Stuck c s) :
    Prog c (finishStep c s) ∧ total c (finishStep c s) ≤ total c s ∧
    (s.stamps = [] → s.mode = .running → total c (finishStep c s) < total c s) := by
  have hg := good_finishStep h.good
  unfold finishStep at hg ⊢
  by_cases h1 : 0 < s.active ∨ s.live ≠ []
  · rw [if_pos h1] at hg ⊢
    refine ⟨h, Nat.le_refl _, fun hs _ => ?_⟩
    obtain ⟨a1, a2, _⟩ := idle ok h.good hs
    rcases h1 with h1 | h1
    · omega
    · exact absurd a2 h1
  rw [if_neg h1] at hg ⊢
  have hs : s.stamps = [] := by
    have h2 := (h.good.invC ok.allowed).active
    have h3 : s.live = [] := Classical.byContradiction fun hh => h1 (Or.inr hh)
    rw [h3] at h2
    have h4 : ¬ 0 < s.active := fun hh => h1 (Or.inl hh)
    simp only [List.length_nil] at h2
    exact List.length_eq_zero_iff.1 (by omega)
  generalize hd : s.deferred = D at hg ⊢
  cases D with
  | cons e rest =>
    simp only at hg ⊢
    have hlt : total c { s with deferred := rest } < total c s := by
      unfold total
      simp only [hd, List.length_cons]
      omega
    refine ⟨⟨hg, h.scene.other rfl rfl rfl rfl rfl rfl rfl rfl, ?_⟩, Nat.le_of_lt hlt, fun _ _ => hlt⟩
    exact ⟨h.task.same, h.task.runB, h.task.depB, h.task.covB, h.task.opn, h.task.fail, h.task.hold,
      h.task.sqd, h.task.mode⟩
  | nil =>
    have key : ∀ m : Mode, (m = .failed → s.failed ≠ []) → modeRank m = 0 →
        Good c { s with mode := m } → Prog c { s with mode := m } ∧
          total c { s with mode := m } ≤ total c s ∧
          (s.stamps = [] → s.mode = .running → total c { s with mode := m } < total c s) := by
      intro m hm hr hg
      refine ⟨⟨hg, h.scene.other rfl rfl rfl rfl rfl rfl rfl rfl, tinv_mode h.task hm⟩, ?_, ?_⟩
      · unfold total
        simp only [hr]
        omega
      · intro _ hmm
        have e2 : modeRank s.mode = 2 := by rw [hmm]; rfl
        unfold total
        simp only [hr, e2]
        omega
    rw [hd] at key
    simp only at hg ⊢
    by_cases h2 : s.failed ≠ []
    · rw [if_pos h2] at hg ⊢
      exact key .failed (fun _ => h2) rfl hg
    · rw [if_neg h2] at hg ⊢
      have h2' : s.failed = [] := Classical.byContradiction h2
      obtain ⟨e1, e2⟩ := hst hs hd h2'
      have h3 : (sceneError c s || unfinished c s) = false := by rw [e1, e2]; rfl
      rw [h3] at hg ⊢
      rw [if_neg (by simp)] at hg ⊢
      exact key .complete (fun hh => by cases hh) rfl hg

/-- A task that can be next is a task. -/
theorem next_task {c : Cfg T P N} (ok : c.Ok) {s : St T P} (h : Inv0 c s) (hk : HoldOk c s) {t : T}
    (ht : t ∈ s.covered ∨ t ∈ s.notcovered) : t ∈ c.g.tasks := by
  have hcov : ∀ a ∈ c.setscene, ∀ x ∈ c.sc.cov a, x ∈ c.g.tasks := by
    intro a ha x hx
    have hv := ((cov_exact ok.graph ok.sub ok.scene ha x).1 hx).2
    clear hx
    induction hv with
    | one hh => exact ok.graph.closed _ (ok.sub _ ha) _ hh
    | more _ _ hh ih => exact ok.graph.closed _ ih _ hh
  have hunsk : ∀ x ∈ c.sc.unskippable, x ∈ c.g.tasks := by
    intro x hx
    obtain ⟨r, ⟨hr, _⟩, hh⟩ := (unskippable_exact ok.graph ok.scene x).1 hx
    rcases hh with rfl | ⟨_, hv⟩
    · exact hr
    · induction hv with
      | one hh => exact ok.graph.closed _ hr _ hh
      | more _ _ hh ih => exact ok.graph.closed _ (ih ((unskippable_exact ok.graph ok.scene _).2
          ⟨r, ⟨hr, by assumption⟩, Or.inr ⟨by assumption, by assumption⟩⟩)) _ hh
  have cl := ok.closed
  rcases ht with ht | ht
  · rw [hk.covered] at ht
    rcases List.mem_append.1 (List.mem_filter.1 ht).1 with hh | hh
    · exact ok.sub t (h.dec t (Or.inl hh)).2
    · obtain ⟨a, ha, hx⟩ := List.mem_flatMap.1 hh
      exact hcov a (h.dec a (Or.inl ha)).2 t hx
  · rw [hk.notcovered] at ht
    rcases mem_newNotcovered ht with hh | hh | ⟨a, ha, hx⟩ | ⟨hh, _⟩
    · exact ok.sub t (h.dec t (Or.inr hh)).2
    · exact hunsk t (cl.cant t hh).2
    · exact hcov a (h.dec a (Or.inr ha)).2 t hx
    · exact hunsk t hh

theorem tinv_quietRun {c : Cfg T P N} {s : St T P} (h : TInv c [] s) {t : T} (e : Ev T)
    (hb : t ∈ s.buildable) (he : ∀ x, e ≠ .fail x) (a : Int) :
    TInv c [t] { s with running := union s.running [t], log := e :: s.log, active := a } := by
  refine ⟨h.same, ?_, h.depB, h.covB, ?_, ?_, h.hold, h.sqd, h.mode⟩
  · intro x hx
    rcases mem_union.1 hx with hh | hh
    · exact h.runB x hh
    · have : x = t := by simpa using hh
      subst this; exact hb
  · intro x hx hc
    rcases mem_union.1 hx with hh | hh
    · rcases h.opn x hh hc with hh | hh | hh
      · exact Or.inl hh
      · exact Or.inr (Or.inl hh)
      · cases hh
    · exact Or.inr (Or.inr hh)
  · intro x
    refine ⟨fun hx => ?_, fun hx => List.mem_cons_of_mem _ ((h.fail x).2 hx)⟩
    rcases List.mem_cons.1 hx with hh | hh
    · exact absurd hh.symm (he x)
    · exact (h.fail x).1 hh

theorem prog_runTask {c : Cfg T P N} (ok : c.Live) (env : Env T) {s : St T P} (h : Prog c s)
    (hk : HoldOk c s) {t : T} (hn : NextOk c s t) :
    Prog c (runTask c env t s) ∧ total c (runTask c env t s) < total c s := by
  have hg := good_runTask ok.toOk env h.good hk hn
  have htt := next_task ok.toOk h.good.inv.toInv0 hk hn.cov
  have hb : t ∈ s.buildable := by rw [← h.task.same]; exact hn.sched
  have skip : ∀ e : Ev T, (∀ x, e ≠ .fail x) →
      SInv c [] (taskSkip c env e t s) ∧ TInv c [] (taskSkip c env e t s) ∧
      total c (taskSkip c env e t s) < total c s := by
    intro e he
    unfold taskSkip
    simp only
    have hS := sinv_completeOutright ok env t (s := setBuildable [t]
      { s with running := union s.running [t], log := e :: s.log })
      (h.scene.other rfl rfl rfl rfl rfl rfl rfl rfl)
    have hT := tinv_completeOutright env t (tinv_setBuildable
      (tinv_quietRun h.task e hb he s.active) [t])
    have hl := le_completeOutright c env t (setBuildable [t]
      { s with running := union s.running [t], log := e :: s.log })
    generalize completeOutright c env t (setBuildable [t]
      { s with running := union s.running [t], log := e :: s.log }) = s' at hS hT hl
    have hl0 : Le s { s' with active := s'.active + 1 - 1 } :=
      ⟨hl.sqRunning, hl.hardNeeded, fun x hx => hl.running x (mem_union.2 (Or.inl hx)), hl.deferred,
        hl.mode, hl.stamps⟩
    exact ⟨hS.other rfl rfl rfl rfl rfl rfl rfl rfl,
      ⟨hT.same, hT.runB, hT.depB, hT.covB, hT.opn, hT.fail, hT.hold, hT.sqd, hT.mode⟩,
      hl0.ltTask htt hn.running (hl.running t (mem_union.2 (Or.inr (by simp))))⟩
  unfold runTask at hg ⊢
  have h0 : ignored c env s t = false := by unfold ignored; rw [ok.allowed]
  rw [h0, if_neg (by simp)] at hg ⊢
  by_cases h1 : t ∈ s.covered
  · rw [if_pos h1] at hg ⊢
    obtain ⟨a1, a2, a3⟩ := skip (.covered t) (fun _ hh => by cases hh)
    exact ⟨⟨hg, a1, a2⟩, a3⟩
  rw [if_neg h1] at hg ⊢
  by_cases h2 : env.stampNow t = true
  · rw [if_pos h2] at hg ⊢
    obtain ⟨a1, a2, a3⟩ := skip (.existing t) (fun _ hh => by cases hh)
    exact ⟨⟨hg, a1, a2⟩, a3⟩
  rw [if_neg h2] at hg ⊢
  by_cases h3 : c.noexec t = true
  · rw [if_pos h3] at hg ⊢
    unfold taskComplete at hg ⊢
    simp only at hg ⊢
    have hS := sinv_completeOutright ok env t (s :=
      { s with running := union s.running [t], active := s.active + 1 - 1, log := .noexec t :: s.log })
      (h.scene.other rfl rfl rfl rfl rfl rfl rfl rfl)
    have hT := tinv_completeOutright env t
      (tinv_quietRun h.task (.noexec t) hb (fun _ hh => by cases hh) (s.active + 1 - 1))
    have hl := le_completeOutright c env t
      { s with running := union s.running [t], active := s.active + 1 - 1, log := .noexec t :: s.log }
    refine ⟨⟨hg, hS, hT⟩, ?_⟩
    refine Le.ltTask (t := t) ?_ htt hn.running (hl.running t (mem_union.2 (Or.inr (by simp))))
    exact ⟨hl.sqRunning, hl.hardNeeded, fun x hx => hl.running x (mem_union.2 (Or.inl hx)), hl.deferred,
        hl.mode, hl.stamps⟩
  rw [if_neg h3] at hg ⊢
  have hg4 := good_start ok.toOk h.good hk hn h1
  have hS4 : SInv c [] { s with
        stamps := s.stamps ++ [(t, c.stamp t)], running := union s.running [t]
        active := s.active + 1, log := .start t :: s.log } :=
    h.scene.other rfl rfl rfl rfl rfl rfl rfl rfl
  have hT4 : TInv c [] { s with
        stamps := s.stamps ++ [(t, c.stamp t)], running := union s.running [t]
        active := s.active + 1, log := .start t :: s.log } := by
    have h5 := tinv_quietRun h.task (.start t) hb (fun _ hh => by cases hh) (s.active + 1)
    refine ⟨h5.same, h5.runB, h5.depB, h5.covB, ?_, h5.fail, h5.hold, h5.sqd, h5.mode⟩
    intro x hx hc
    show x ∈ (s.stamps ++ [(t, c.stamp t)]).map Prod.fst ∨ _
    rw [List.map_append]
    rcases h5.opn x hx hc with hh | hh | hh
    · exact Or.inl (List.mem_append_left _ hh)
    · exact Or.inr (Or.inl hh)
    · exact Or.inl (List.mem_append_right _ (by simpa using hh))
  have hlt : total c { s with
        stamps := s.stamps ++ [(t, c.stamp t)], running := union s.running [t]
        active := s.active + 1, log := .start t :: s.log } < total c s := by
    have := rest_lt (l := c.g.tasks) (a := s.running) (b := union s.running [t])
      (fun x hx => mem_union.2 (Or.inl hx)) htt hn.running (mem_union.2 (Or.inr (by simp)))
    unfold total
    simp only [List.length_append, List.length_cons, List.length_nil]
    omega
  have hne : ({ s with
        stamps := s.stamps ++ [(t, c.stamp t)], running := union s.running [t]
        active := s.active + 1, log := .start t :: s.log } : St T P).stamps ≠ [] := by simp
  simp only at hg ⊢
  generalize { s with
        stamps := s.stamps ++ [(t, c.stamp t)], running := union s.running [t]
        active := s.active + 1, log := .start t :: s.log } = s' at hg4 hS4 hT4 hlt hne hg
  have hp : Prog c s' := ⟨hg4, hS4, hT4⟩
  by_cases h5 : canStart c s' = true
  · rw [if_pos h5]; exact ⟨hp, hlt⟩
  · rw [if_neg h5]
    obtain ⟨a1, a2, _⟩ := prog_finishStep ok hp fun hs => absurd hs hne
    exact ⟨a1, by omega⟩

theorem prog_tasksStep {c : Cfg T P N} (ok : c.Live) (env : Env T) {s : St T P} (h : Prog c s)
    (hk : HoldOk c s) (hnu : s.needUpdate = false)
    (hfree : s.stamps = [] → s.deferred = [] →
      c.setsceneOnly = false ∧ ∀ a ∈ c.setscene, Decided s a) :
    Prog c (tasksStep c env s) ∧ total c (tasksStep c env s) ≤ total c s ∧
    (s.stamps = [] → s.mode = .running → total c (tasksStep c env s) < total c s) := by
  unfold tasksStep
  cases hn : (if c.setsceneOnly then none else next c env s) with
  | some t =>
    have hn' : NextOk c s t := by
      refine next_ok (env := env) ?_
      by_cases h1 : c.setsceneOnly = true
      · rw [if_pos h1] at hn; cases hn
      · rw [if_neg h1] at hn; exact hn
    obtain ⟨a1, a2⟩ := prog_runTask ok env h hk hn'
    exact ⟨a1, Nat.le_of_lt a2, fun _ _ => a2⟩
  | none =>
    refine prog_finishStep ok h fun hs hd hf => ?_
    obtain ⟨h1, h2⟩ := hfree hs hd
    rw [h1, if_neg (by simp)] at hn
    refine ⟨sceneError_false ok h.good.inv.toInv0 h.scene h.task hk hnu hd h2, ?_⟩
    have hc := all_complete ok env h.good h.scene h.task hk hnu h2 hs hf hn
    unfold unfinished
    rw [List.any_eq_false]
    intro x hx
    obtain ⟨b1, b2, b3⟩ := hc x hx
    simp [b1, b2, b3]

theorem updateHoldoff_need (c : Cfg T P N) (s : St T P) : (updateHoldoff c s).needUpdate = false := by
  unfold updateHoldoff
  by_cases hn : s.needUpdate = false
  · rw [if_pos hn]; exact hn
  · rw [if_neg hn]

theorem prog_executeRest {c : Cfg T P N} (ok : c.Live) (env : Env T) {s : St T P} (h : Prog c s)
    (hfree : s.stamps = [] → s.deferred = [] → ∀ a ∈ c.setscene, Decided s a) :
    Prog c (executeRest c env s) ∧ total c (executeRest c env s) ≤ total c s ∧
    (s.stamps = [] → s.mode = .running → total c (executeRest c env s) < total c s) := by
  obtain ⟨h1, hk⟩ := good_updateHoldoff h.good
  have hp : Prog c (updateHoldoff c s) :=
    ⟨h1, sinv_updateHoldoff h.scene, tinv_updateHoldoff h.task⟩
  have hnu := updateHoldoff_need c s
  have hle := le_updateHoldoff c s
  have hsame : (updateHoldoff c s).stamps = s.stamps ∧ (updateHoldoff c s).deferred = s.deferred ∧
      (updateHoldoff c s).mode = s.mode ∧ ∀ a, Decided s a → Decided (updateHoldoff c s) a := by
    unfold updateHoldoff
    by_cases hn : s.needUpdate = false
    · rw [if_pos hn]; exact ⟨rfl, rfl, rfl, fun _ h => h⟩
    · rw [if_neg hn]; exact ⟨rfl, rfl, rfl, fun _ h => h⟩
  unfold executeRest
  simp only
  generalize updateHoldoff c s = s' at h1 hk hp hnu hle hsame
  obtain ⟨e1, e2, e3, e4⟩ := hsame
  have hle := hle.total c
  have hfree' : s'.stamps = [] → s'.deferred = [] → ∀ a ∈ c.setscene, Decided s' a :=
    fun hs hd a ha => e4 a (hfree (e1 ▸ hs) (e2 ▸ hd) a ha)
  have hall : s'.holdoff = [] → ∀ a ∈ c.setscene, Decided s' a := by
    intro hh a ha
    refine Classical.byContradiction fun hn => ?_
    have := (hk.holdoff a ha (fun h => hn (Or.inl h)) (fun h => hn (Or.inr h))).1
    rw [hh] at this; cases this
  by_cases h2 : s'.live = [] ∧ s'.sqdone = false ∧ s'.deferred = [] ∧ s'.holdoff = []
  · rw [if_pos h2]
    have hdec := hall h2.2.2.2
    have h3 := sceneError_false ok h1.inv.toInv0 hp.scene hp.task hk hnu h2.2.2.1 hdec
    rw [h3, if_neg (by simp)]
    have done : ∀ q, (q = true → c.setsceneOnly = false) →
        Prog c { s' with sqdone := q, mode := .complete } ∧
        total c { s' with sqdone := q, mode := .complete } ≤ total c s ∧
        (s.stamps = [] → s.mode = .running →
          total c { s' with sqdone := q, mode := .complete } < total c s) := by
      intro q hq
      refine ⟨⟨good_mode (good_sqdone h1 q) .complete,
        hp.scene.other rfl rfl rfl rfl rfl rfl rfl rfl, ?_⟩, ?_, ?_⟩
      · exact ⟨hp.task.same, hp.task.runB, hp.task.depB, hp.task.covB, hp.task.opn, hp.task.fail,
          hp.task.hold, fun hqq => ⟨hq hqq, hdec⟩, fun hh => by cases hh⟩
      · unfold total at hle ⊢
        simp only [modeRank] at hle ⊢
        omega
      · intro _ hm
        rw [← e3] at hm
        unfold total at hle ⊢
        simp only [hm, modeRank] at hle ⊢
        omega
    by_cases h4 : c.setsceneOnly = true
    · rw [if_pos h4]
      exact done s'.sqdone (fun hh => by rw [h2.2.1] at hh; cases hh)
    rw [if_neg h4]
    have h4' : c.setsceneOnly = false := by simpa using h4
    by_cases h5 : c.g.tasks = []
    · rw [if_pos h5]; exact done true (fun _ => h4')
    rw [if_neg h5]
    have hp' : Prog c { s' with sqdone := true } :=
      ⟨good_sqdone h1 true, hp.scene.other rfl rfl rfl rfl rfl rfl rfl rfl,
        ⟨hp.task.same, hp.task.runB, hp.task.depB, hp.task.covB, hp.task.opn, hp.task.fail,
          hp.task.hold, fun _ => ⟨h4', hdec⟩, hp.task.mode⟩⟩
    obtain ⟨a1, a2, a3⟩ := prog_tasksStep ok env hp' ⟨hk.covered, hk.notcovered, hk.holdoff⟩ hnu
      fun _ _ => ⟨h4', hdec⟩
    have e5 : total c { s' with sqdone := true } = total c s' := rfl
    rw [e5] at a2 a3
    refine ⟨a1, by omega, fun hs hm => ?_⟩
    have := a3 (e1.trans hs) (e3.trans hm)
    omega
  · rw [if_neg h2]
    obtain ⟨a1, a2, a3⟩ := prog_tasksStep ok env hp hk hnu fun hs hd => by
      have hdec := hfree' hs hd
      have hl := (idle ok h1 hs).2.1
      have hh : s'.holdoff = [] := by
        refine List.eq_nil_iff_forall_not_mem.2 fun x hx => ?_
        obtain ⟨a, ha, hn⟩ := hp.task.hold hnu x hx
        exact hn (hdec a ha)
      have hq : s'.sqdone = true := by
        cases hq : s'.sqdone with
        | true => rfl
        | false => exact absurd ⟨hl, hq, hd, hh⟩ h2
      exact hp.task.sqd hq
    refine ⟨a1, by omega, fun hs hm => ?_⟩
    have := a3 (e1.trans hs) (e3.trans hm)
    omega

theorem prog_failOutright {c : Cfg T P N} (ok : c.Live) (env : Env T) {t : T} {s : St T P}
    (h : Prog c s) (hS : t ∈ c.setscene) (hr : t ∉ s.sqRunning) (hd : ∀ e ∈ s.deferred, e.1 ≠ t) :
    Prog c (failOutright c env t s) ∧ total c (failOutright c env t s) < total c s :=
  ⟨⟨good_failOutright ok.toOk env h.good hS hr hd, sinv_failOutright ok env h.scene hS,
    h.task.frame (frame3_failOutright c env t s)⟩,
    (le_failOutright c env t s).1.ltScene hS hr (le_failOutright c env t s).2⟩

theorem prog_sceneStep {c : Cfg T P N} (ok : c.Live) (env : Env T) {s : St T P} (h : Prog c s)
    {t : T} (hp : PickOk c s t) (hb : t ∈ s.sqBuildable) :
    Prog c (sceneStep c env t s) ∧ total c (sceneStep c env t s) < total c s := by
  have hg := good_sceneStep ok.toOk env h.good hp
  unfold sceneStep at hg ⊢
  by_cases h1 : env.stampRec t = true
  · rw [if_pos h1]; exact prog_failOutright ok env h hp.mem hp.fresh hp.deferred
  rw [if_neg h1] at hg ⊢
  by_cases h2 : c.force = true ∧ t ∈ c.targets
  · rw [if_pos h2]; exact prog_failOutright ok env h hp.mem hp.fresh hp.deferred
  rw [if_neg h2] at hg ⊢
  by_cases h3 : env.sstampNow t = true
  · rw [if_pos h3] at hg ⊢
    exact ⟨⟨hg, sinv_sqSkip ok env _ h.scene hp.mem,
      h.task.frame (frame3_sqSkip c env (fun _ hh => by cases hh) t s)⟩,
      (le_sqSkip c env _ t s).1.ltScene hp.mem hp.fresh (le_sqSkip c env _ t s).2⟩
  rw [if_neg h3] at hg ⊢
  by_cases h4 : c.skipSetscene = true
  · rw [if_pos h4]; exact prog_failOutright ok env h hp.mem hp.fresh hp.deferred
  rw [if_neg h4] at hg ⊢
  have h5 := good_sstart ok.toOk h.good hp.mem hp.fresh hp.can hp.hard hp.deferred
  have hS5 : SInv c [] { s with
        stamps := s.stamps ++ [(t, c.sstamp t)], sqRunning := union s.sqRunning [t]
        live := union s.live [t], log := .sstart t :: s.log } := by
    have hh := h.scene
    refine ⟨hh.build, hh.doneDec, hh.doneRoot, hh.doneCl, hh.hdWait, hh.hdBuild, hh.needBuild, ?_, ?_⟩
    · intro x hx
      rcases mem_union.1 hx with hx | hx
      · exact hh.runBuild x hx
      · have : x = t := by simpa using hx
        subst this; exact hb
    · intro x hx
      rcases mem_union.1 hx with hx | hx
      · exact (hh.runDec x hx).imp id fun hl => mem_union.2 (Or.inl hl)
      · exact Or.inr (mem_union.2 (Or.inr hx))
  have hT5 : TInv c [] { s with
        stamps := s.stamps ++ [(t, c.sstamp t)], sqRunning := union s.sqRunning [t]
        live := union s.live [t], log := .sstart t :: s.log } := by
    have hh := h.task
    refine ⟨hh.same, hh.runB, hh.depB, hh.covB, ?_, ?_, hh.hold, hh.sqd, hh.mode⟩
    · intro x hx hc
      show x ∈ (s.stamps ++ [(t, c.sstamp t)]).map Prod.fst ∨ _
      rw [List.map_append]
      exact (hh.opn x hx hc).imp (fun hh => List.mem_append_left _ hh) id
    · intro x
      refine ⟨fun hx => ?_, fun hx => List.mem_cons_of_mem _ ((hh.fail x).2 hx)⟩
      rcases List.mem_cons.1 hx with hx | hx
      · cases hx
      · exact (hh.fail x).1 hx
  have hlt : total c { s with
        stamps := s.stamps ++ [(t, c.sstamp t)], sqRunning := union s.sqRunning [t]
        live := union s.live [t], log := .sstart t :: s.log } < total c s := by
    have := rest_lt (l := c.setscene) (a := s.sqRunning) (b := union s.sqRunning [t])
      (fun x hx => mem_union.2 (Or.inl hx)) hp.mem hp.fresh (mem_union.2 (Or.inr (by simp)))
    unfold total
    simp only [List.length_append, List.length_cons, List.length_nil]
    omega
  have hne : ({ s with
        stamps := s.stamps ++ [(t, c.sstamp t)], sqRunning := union s.sqRunning [t]
        live := union s.live [t], log := .sstart t :: s.log } : St T P).stamps ≠ [] := by simp
  simp only at hg ⊢
  generalize { s with
        stamps := s.stamps ++ [(t, c.sstamp t)], sqRunning := union s.sqRunning [t]
        live := union s.live [t], log := .sstart t :: s.log } = s' at h5 hS5 hT5 hlt hne hg
  have hp' : Prog c s' := ⟨h5, hS5, hT5⟩
  by_cases h6 : canStart c s' = true
  · rw [if_pos h6]; exact ⟨hp', hlt⟩
  · rw [if_neg h6]
    obtain ⟨a1, a2, _⟩ := prog_executeRest ok env hp' fun hs => absurd hs hne
    exact ⟨a1, by omega⟩

/-- What the search for a setscene task gives. -/
def PickProg (c : Cfg T P N) (s : St T P) : Pick T P → Prop
  | .ret s' => Prog c s' ∧ total c s' < total c s
  | .none s' => Prog c s' ∧ total c s' ≤ total c s ∧ s'.stamps = s.stamps ∧ s'.mode = s.mode ∧
      s'.deferred = s.deferred
  | .task t s' => Prog c s' ∧ total c s' ≤ total c s ∧ t ∈ s'.sqBuildable

theorem PickProg.le {c : Cfg T P N} {s s1 : St T P} {r : Pick T P} (h : PickProg c s1 r)
    (hle : total c s1 ≤ total c s) (h1 : s1.stamps = s.stamps) (h2 : s1.mode = s.mode)
    (h3 : s1.deferred = s.deferred) : PickProg c s r := by
  cases r with
  | ret s' => exact ⟨h.1, Nat.lt_of_lt_of_le h.2 hle⟩
  | none s' => exact ⟨h.1, Nat.le_trans h.2.1 hle, h.2.2.1.trans h1, h.2.2.2.1.trans h2,
      h.2.2.2.2.trans h3⟩
  | task t s' => exact ⟨h.1, Nat.le_trans h.2.1 hle, h.2.2⟩

theorem prog_pickTail {c : Cfg T P N} (ok : c.Live) (env : Env T) {s : St T P} (h : Prog c s)
    {t : T} (hp : PickOk c s t) (hb : t ∈ s.sqBuildable) : PickProg c s (pickTail c env t s) := by
  unfold pickTail
  by_cases h1 : t ∈ s.outright
  · rw [if_pos h1]; exact prog_failOutright ok env h hp.mem hp.fresh hp.deferred
  · rw [if_neg h1]; exact ⟨h, Nat.le_refl _, hb⟩

theorem prog_pick {c : Cfg T P N} (ok : c.Live) (env : Env T) : ∀ (ts : List T) (s : St T P),
    Prog c s → canStart c s = true → (∀ t ∈ ts, t ∈ c.setscene) → PickProg c s (pick c env ts s)
  | [], s, h, _, _ => by unfold pick; exact ⟨h, Nat.le_refl _, rfl, rfl, rfl⟩
  | t :: ts, s, h, hcan, hts => by
    have hts' : ∀ x ∈ ts, x ∈ c.setscene := fun x hx => hts x (List.mem_cons_of_mem _ hx)
    have hS := hts t (by simp)
    unfold pick
    by_cases h1 : eligible c s t = false
    · rw [if_pos h1]; exact prog_pick ok env ts s h hcan hts'
    rw [if_neg h1]
    have he : eligible c s t = true := by simpa using h1
    unfold eligible at he
    simp only [Bool.and_eq_true, decide_eq_true_eq] at he
    obtain ⟨⟨⟨hb, hr⟩, hst⟩, _⟩ := he
    have hn : t ∉ s.scNot := fun hx => hr (h.good.inv.dec t (Or.inr hx)).1
    have hl : t ∉ s.live := fun hx => hr (h.good.inv.live t hx).1
    by_cases h2 : notNeeded c env s t = true
    · rw [if_pos h2]
      have h2' := h2
      unfold notNeeded at h2
      simp only [Bool.and_eq_true, decide_eq_true_eq, subset_iff] at h2
      obtain ⟨⟨⟨⟨⟨a1, _⟩, _⟩, a2⟩, _⟩, a3⟩ := h2
      have hg := good_sqSkip ok.toOk env h.good hS hn hl (Or.inr (Or.inr ⟨rfl, a1, a3, a2⟩))
      have hSI := sinv_sqSkip ok env (.sunneeded t) h.scene hS
      have hT := h.task.frame (frame3_sqSkip c env (e := .sunneeded t) (fun _ hh => by cases hh) t s)
      have hL := le_sqSkip c env (.sunneeded t) t s
      simp only
      generalize sqSkip c env (.sunneeded t) t s = s' at hg hSI hT hL
      refine ⟨⟨good_tables hg s'.sqBuildable s'.outright s'.hardNeeded s'.hardDeferred _
        fun e he => (List.mem_filter.1 he).1, hSI.other rfl rfl rfl rfl rfl rfl rfl rfl,
        ⟨hT.same, hT.runB, hT.depB, hT.covB, hT.opn, hT.fail, hT.hold, hT.sqd, hT.mode⟩⟩, ?_⟩
      refine Le.ltScene (t := t) ?_ hS hr hL.2
      exact ⟨hL.1.sqRunning, hL.1.hardNeeded, hL.1.running,
        Nat.le_trans (List.length_filter_le _ _) hL.1.deferred, hL.1.mode, hL.1.stamps⟩
    rw [if_neg h2]
    by_cases h3 : subset (c.hardRev t) (s.scCovered ++ s.scNot) = false
    · rw [if_pos h3]
      simp only
      have hwait : ∃ y ∈ c.hardRev t, ¬ Decided s y := by
        refine Classical.byContradiction fun hh => ?_
        have : subset (c.hardRev t) (s.scCovered ++ s.scNot) = true :=
          subset_iff.2 fun y hy => List.mem_append.2 (Classical.byContradiction fun hyd =>
            hh ⟨y, hy, hyd⟩)
        rw [h3] at this; cases this
      have hnewS : ∀ x ∈ ((c.hardRev t).filter fun d => decide (d ∉ s.hardNeeded)), x ∈ c.setscene ∧
          x ∉ s.hardNeeded := fun x hx =>
        ⟨(ok.hardBack t x (List.mem_filter.1 hx).1).1, of_decide_eq_true (List.mem_filter.1 hx).2⟩
      have hnewB : ∀ y ∈ c.hardRev t, y ∈ s.hardNeeded ∨
          y ∈ ((c.hardRev t).filter fun d => decide (d ∉ s.hardNeeded)) := by
        intro y hy
        by_cases hyn : y ∈ s.hardNeeded
        · exact Or.inl hyn
        · exact Or.inr (List.mem_filter.2 ⟨hy, decide_eq_true hyn⟩)
      generalize ((c.hardRev t).filter fun d => decide (d ∉ s.hardNeeded)) = new at hnewS hnewB
      have h4 := good_tables h.good (union s.sqBuildable new) s.outright (union s.hardNeeded new)
        (union s.hardDeferred [t]) s.deferred (fun e he => he)
      have mono : ∀ x ∈ s.sqBuildable, x ∈ union s.sqBuildable new := fun x hx =>
        mem_union.2 (Or.inl hx)
      have hp4 : Prog c
          { s with
            sqBuildable := union s.sqBuildable new, hardNeeded := union s.hardNeeded new
            hardDeferred := union s.hardDeferred [t] } := by
        refine ⟨h4, ?_, ⟨h.task.same, h.task.runB, h.task.depB, h.task.covB, h.task.opn, h.task.fail,
          h.task.hold, h.task.sqd, h.task.mode⟩⟩
        have hh := h.scene
        refine ⟨fun d hd hdec => (hh.build d hd hdec).imp (mono d) id, hh.doneDec, hh.doneRoot,
          hh.doneCl, ?_, ?_, ?_, fun x hx => mono x (hh.runBuild x hx), hh.runDec⟩
        · intro x hx
          rcases mem_union.1 hx with hx | hx
          · exact hh.hdWait x hx
          · have : x = t := by simpa using hx
            subst this; exact Or.inl hwait
        · intro x hx y hy
          rcases mem_union.1 hx with hx | hx
          · exact mono y (hh.hdBuild x hx y hy)
          · have : x = t := by simpa using hx
            subst this
            rcases hnewB y hy with hyy | hyy
            · exact mono y (hh.needBuild y hyy)
            · exact mem_union.2 (Or.inr hyy)
        · intro x hx
          rcases mem_union.1 hx with hx | hx
          · exact mono x (hh.needBuild x hx)
          · exact mem_union.2 (Or.inr hx)
      by_cases h5 : new ≠ []
      · rw [if_pos h5]
        refine ⟨hp4, ?_⟩
        obtain ⟨y, hy⟩ := List.exists_mem_of_ne_nil _ h5
        have := rest_lt (l := c.setscene) (a := s.hardNeeded) (b := union s.hardNeeded new)
          (fun x hx => mem_union.2 (Or.inl hx)) (hnewS y hy).1 (hnewS y hy).2 (mem_union.2 (Or.inr hy))
        unfold total
        simp only
        omega
      · rw [if_neg h5]
        refine (prog_pick ok env ts _ hp4 hcan hts').le ?_ rfl rfl rfl
        have := rest_mono (l := c.setscene) (a := s.hardNeeded) (b := union s.hardNeeded new)
          (fun x hx => mem_union.2 (Or.inl hx))
        unfold total
        simp only
        omega
    rw [if_neg h3]
    have h3' : ∀ x ∈ c.hardRev t, x ∈ s.scCovered ∨ x ∈ s.scNot := fun x hx =>
      List.mem_append.1 (subset_iff.1 (by simpa using h3) x hx)
    generalize hlk : s.deferred.lookup t = lk
    cases lk with
    | none => exact prog_pickTail ok env h ⟨hS, hr, hcan, h3', lookup_none hlk, hst⟩ hb
    | some b =>
      simp only
      by_cases h4 : b ∉ s.complete
      · rw [if_pos h4]; exact prog_pick ok env ts s h hcan hts'
      rw [if_neg h4]
      have h5 := good_tables h.good s.sqBuildable s.outright s.hardNeeded s.hardDeferred
        (s.deferred.filter fun e => e.1 ≠ t) fun e he => (List.mem_filter.1 he).1
      have hp5 : Prog c { s with deferred := s.deferred.filter fun e => e.1 ≠ t } :=
        ⟨h5, h.scene.other rfl rfl rfl rfl rfl rfl rfl rfl,
          ⟨h.task.same, h.task.runB, h.task.depB, h.task.covB, h.task.opn, h.task.fail,
          h.task.hold, h.task.sqd, h.task.mode⟩⟩
      have hd : ∀ e ∈ (s.deferred.filter fun e => decide (e.1 ≠ t)), e.1 ≠ t := fun e he =>
        of_decide_eq_true (List.mem_filter.1 he).2
      have hlt : total c { s with deferred := s.deferred.filter fun e => e.1 ≠ t } ≤ total c s := by
        have := List.length_filter_le (fun e : T × T => decide (e.1 ≠ t)) s.deferred
        unfold total
        simp only
        omega
      by_cases h6 : env.valid t = false
      · rw [if_pos h6]
        obtain ⟨b1, b2⟩ := prog_failOutright ok env hp5 hS hr hd
        exact ⟨b1, by omega⟩
      · rw [if_neg h6]
        have h7 := prog_pickTail ok env hp5 (t := t) ⟨hS, hr, hcan, h3', hd, hst⟩ hb
        unfold pickTail at h7 ⊢
        by_cases h8 : t ∈ s.outright
        · simp only at h7 ⊢
          rw [if_pos h8] at h7 ⊢
          exact ⟨h7.1, by have := h7.2; omega⟩
        · simp only at h7 ⊢
          rw [if_neg h8] at h7 ⊢
          exact ⟨h7.1, by have := h7.2.1; omega, h7.2.2⟩

theorem prog_execute {c : Cfg T P N} (ok : c.Live) (env : Env T) {s : St T P} (h : Prog c s) :
    Prog c (execute c env s) ∧ total c (execute c env s) ≤ total c s ∧
    (s.stamps = [] → s.mode = .running → total c (execute c env s) < total c s) := by
  unfold execute
  by_cases h1 : s.sqdone = false ∧ canStart c s = true
  · rw [if_pos h1]
    have hp := prog_pick ok env _ s h h1.2 fun _ hx => hx
    have hg := good_pick ok.toOk env _ s h.good h1.2 fun _ hx => hx
    cases hr : pick c env c.setscene s with
    | ret s' =>
      rw [hr] at hp
      simp only
      exact ⟨hp.1, Nat.le_of_lt hp.2, fun _ _ => hp.2⟩
    | task t s' =>
      rw [hr] at hp hg
      simp only
      obtain ⟨a1, a2⟩ := prog_sceneStep ok env hp.1 hg.2 hp.2.2
      have := hp.2.1
      exact ⟨a1, by omega, fun _ _ => by omega⟩
    | none s' =>
      rw [hr] at hp hg
      simp only
      obtain ⟨b1, b2, b3, b4, b5⟩ := hp
      obtain ⟨a1, a2, a3⟩ := prog_executeRest ok env b1 fun hs hd => pick_all ok hr hg b1.scene hs hd
      refine ⟨a1, by omega, fun hs hm => ?_⟩
      have := a3 (b3.trans hs) (b4.trans hm)
      omega
  · rw [if_neg h1]
    simp only
    refine prog_executeRest ok env h fun hs hd => ?_
    have hcan := (idle ok h.good hs).2.2
    have hq : s.sqdone = true := by
      cases hq : s.sqdone with
      | true => rfl
      | false => exact absurd ⟨hq, hcan⟩ h1
    exact (h.task.sqd hq).2

/-! ### Reports -/

theorem prog_waitpid {c : Cfg T P N} (ok : c.Live) (env : Env T) {s : St T P} (h : Prog c s) {t : T}
    (ht : t ∈ s.stamps.map Prod.fst) (hm : s.mode = .running ∨ s.mode = .cleanup) (success : Bool) :
    Prog c (waitpid c env t success s) ∧ total c (waitpid c env t success s) < total c s := by
  have hg := good_waitpid ok.toOk env h.good ht success
  obtain ⟨en, hen, hent⟩ := List.mem_map.1 ht
  have hlen := remove_key_len h.good.invS.nodup hen
  rw [hent] at hlen
  have lt_of : ∀ s', Le { s with stamps := s.stamps.filter fun e => e.1 ≠ t } s' →
      total c s' < total c s := by
    intro s' hl
    have := hl.total c
    unfold total at this ⊢
    simp only at this
    omega
  have hopn : ∀ r ∈ s.running, r ∉ s.complete → r ≠ t →
      r ∈ (s.stamps.filter fun e => decide (e.1 ≠ t)).map Prod.fst ∨ r ∈ s.failed := by
    intro r hr hc hne
    rcases h.task.opn r hr hc with h1 | h1 | h1
    · left
      obtain ⟨e, he, rfl⟩ := List.mem_map.1 h1
      exact List.mem_map.2 ⟨e, List.mem_filter.2 ⟨he, decide_eq_true hne⟩, rfl⟩
    · exact Or.inr h1
    · cases h1
  have hh := h.task
  unfold waitpid at hg ⊢
  simp only at hg ⊢
  by_cases hl : t ∈ s.live
  · rw [if_pos hl] at hg ⊢
    obtain ⟨l1, l2, l3, l4, l5⟩ := h.good.inv.live t hl
    have hrun : t ∉ s.running := by
      rcases h.good.invS.key en hen with hk | hk
      · exact hent ▸ hk.2.1
      · exact absurd (hent ▸ hl) hk.1
    have hT0 : TInv c [] { s with stamps := s.stamps.filter fun e => e.1 ≠ t } :=
      ⟨hh.same, hh.runB, hh.depB, hh.covB, fun r hr hc =>
        (hopn r hr hc fun e => hrun (e ▸ hr)).imp id Or.inl, hh.fail, hh.hold, hh.sqd, hh.mode⟩
    have drop : ∀ u : St T P, SInv c [] u → Decided u t →
        SInv c [] { u with live := u.live.filter fun x => x ≠ t } := by
      intro u hu hdu
      refine ⟨hu.build, hu.doneDec, hu.doneRoot, hu.doneCl, hu.hdWait, hu.hdBuild, hu.needBuild,
        hu.runBuild, fun x hx => ?_⟩
      by_cases hx0 : x = t
      · exact Or.inl (hx0 ▸ hdu)
      · exact (hu.runDec x hx).imp id fun hxl => List.mem_filter.2 ⟨hxl, decide_eq_true hx0⟩
    have dropT : ∀ u : St T P, TInv c [] u →
        TInv c [] { u with live := u.live.filter fun x => x ≠ t } := fun u hu =>
      ⟨hu.same, hu.runB, hu.depB, hu.covB, hu.opn, hu.fail, hu.hold, hu.sqd, hu.mode⟩
    have dropL : ∀ u : St T P, Le { s with stamps := s.stamps.filter fun e => e.1 ≠ t } u →
        Le { s with stamps := s.stamps.filter fun e => e.1 ≠ t }
          { u with live := u.live.filter fun x => x ≠ t } := fun u hu =>
      ⟨hu.sqRunning, hu.hardNeeded, hu.running, hu.deferred, hu.mode, hu.stamps⟩
    have logp : ∀ (e : Ev T), (∀ x, e ≠ .fail x) → ∀ x, .fail x ∈ e :: s.log ↔ .fail x ∈ s.log := by
      intro e he x
      refine ⟨fun hx => ?_, List.mem_cons_of_mem _⟩
      rcases List.mem_cons.1 hx with hx | hx
      · exact absurd hx.symm (he x)
      · exact hx
    cases success with
    | true =>
      rw [if_pos rfl] at hg ⊢
      have h1 : SInv c [t] { s with
            stamps := s.stamps.filter fun e => e.1 ≠ t
            scCovered := union s.scCovered [t], log := .sdone t :: s.log } := by
        refine sinv_decide h.scene (fun x hx => hx) (fun x => ?_) rfl rfl rfl (fun x hx => Or.inl hx)
          fun x hx => Or.inl hx
        unfold Decided
        simp only [mem_union, List.mem_singleton]
        exact ⟨fun hx => hx.elim (fun hx => hx.elim (fun hx => Or.inl (Or.inl hx)) Or.inr)
          fun hx => Or.inl (Or.inr hx), fun hx => hx.elim (fun hx => hx.imp Or.inl id)
          fun hx => Or.inl (Or.inr hx)⟩
      have h2 := sinv_updateCounters ok env c.fuel t false [] _ h1 l4
      have h3 := updateCounters_dec c env c.fuel t false { s with
            stamps := s.stamps.filter fun e => e.1 ≠ t
            scCovered := union s.scCovered [t], log := .sdone t :: s.log }
          { s with stamps := s.stamps.filter fun e => e.1 ≠ t }
          ⟨rfl, rfl, rfl, rfl, rfl, rfl, rfl, rfl, rfl, rfl⟩
          (logp (.sdone t) fun _ hx => by cases hx)
          fun x hx => hx.imp (fun hx => mem_union.2 (Or.inl hx)) id
      have h4 := (frame3_updateCounters c env c.fuel t false { s with
            stamps := s.stamps.filter fun e => e.1 ≠ t
            scCovered := union s.scCovered [t], log := .sdone t :: s.log }).dec t
        (Or.inl (mem_union.2 (Or.inr (by simp))))
      have h5 : Le { s with stamps := s.stamps.filter fun e => e.1 ≠ t } { s with
            stamps := s.stamps.filter fun e => e.1 ≠ t
            scCovered := union s.scCovered [t], log := .sdone t :: s.log } :=
        ⟨fun _ h => h, fun _ h => h, fun _ h => h, Nat.le_refl _, Nat.le_refl _, Nat.le_refl _⟩
      exact ⟨⟨hg, drop _ h2 h4, dropT _ (hT0.frame h3)⟩,
        lt_of _ (dropL _ (h5.trans (le_updateCounters c env c.fuel t false _)))⟩
    | false =>
      rw [if_neg (by simp), ok.allowed] at hg ⊢
      simp only at hg ⊢
      have h1 : SInv c [t] { s with
            stamps := s.stamps.filter fun e => e.1 ≠ t
            scNot := union s.scNot [t], log := .sfail t :: s.log } := by
        refine sinv_decide h.scene (fun x hx => hx) (fun x => ?_) rfl rfl rfl (fun x hx => Or.inl hx)
          fun x hx => Or.inl hx
        unfold Decided
        simp only [mem_union, List.mem_singleton]
        exact ⟨fun hx => hx.elim (fun hx => Or.inl (Or.inl hx)) fun hx => hx.imp Or.inr id,
          fun hx => hx.elim (fun hx => hx.imp id Or.inl) fun hx => Or.inr (Or.inr hx)⟩
      have h2 := sinv_updateCounters ok env c.fuel t true [] _ h1 l4
      have h3 := updateCounters_dec c env c.fuel t true { s with
            stamps := s.stamps.filter fun e => e.1 ≠ t
            scNot := union s.scNot [t], log := .sfail t :: s.log }
          { s with stamps := s.stamps.filter fun e => e.1 ≠ t }
          ⟨rfl, rfl, rfl, rfl, rfl, rfl, rfl, rfl, rfl, rfl⟩
          (logp (.sfail t) fun _ hx => by cases hx)
          fun x hx => hx.imp id (fun hx => mem_union.2 (Or.inl hx))
      have h4 := (frame3_updateCounters c env c.fuel t true { s with
            stamps := s.stamps.filter fun e => e.1 ≠ t
            scNot := union s.scNot [t], log := .sfail t :: s.log }).dec t
        (Or.inr (mem_union.2 (Or.inr (by simp))))
      have h5 : Le { s with stamps := s.stamps.filter fun e => e.1 ≠ t } { s with
            stamps := s.stamps.filter fun e => e.1 ≠ t
            scNot := union s.scNot [t], log := .sfail t :: s.log } :=
        ⟨fun _ h => h, fun _ h => h, fun _ h => h, Nat.le_refl _, Nat.le_refl _, Nat.le_refl _⟩
      exact ⟨⟨hg, drop _ h2 h4, dropT _ (hT0.frame h3)⟩,
        lt_of _ (dropL _ (h5.trans (le_updateCounters c env c.fuel t true _)))⟩
  · rw [if_neg hl] at hg ⊢
    have hrunt : t ∈ s.running := by
      rcases h.good.invS.key en hen with hk | hk
      · exact absurd (hent ▸ hk.1) hl
      · exact hent ▸ hk.2.1
    cases success with
    | true =>
      rw [if_pos rfl] at hg ⊢
      unfold taskComplete at hg ⊢
      simp only at hg ⊢
      have hS := sinv_completeOutright ok env t (s := { s with
        stamps := s.stamps.filter fun e => e.1 ≠ t, log := .done t :: s.log
        active := s.active - 1 }) (h.scene.other rfl rfl rfl rfl rfl rfl rfl rfl)
      have hT : TInv c [t] { s with
          stamps := s.stamps.filter fun e => e.1 ≠ t, log := .done t :: s.log
          active := s.active - 1 } := by
        refine ⟨hh.same, hh.runB, hh.depB, hh.covB, fun r hr hc => ?_, fun x => ?_, hh.hold, hh.sqd,
          hh.mode⟩
        · by_cases e : r = t
          · exact Or.inr (Or.inr (by simp [e]))
          · exact (hopn r hr hc e).imp id Or.inl
        · refine ⟨fun hx => ?_, fun hx => List.mem_cons_of_mem _ ((hh.fail x).2 hx)⟩
          rcases List.mem_cons.1 hx with hx | hx
          · cases hx
          · exact (hh.fail x).1 hx
      have hT' := tinv_completeOutright env t hT
      have hL := le_completeOutright c env t { s with
        stamps := s.stamps.filter fun e => e.1 ≠ t, log := .done t :: s.log
        active := s.active - 1 }
      exact ⟨⟨hg, hS, hT'⟩, lt_of _ ⟨hL.sqRunning, hL.hardNeeded, hL.running, hL.deferred, hL.mode,
        hL.stamps⟩⟩
    | false =>
      rw [if_neg (by simp)] at hg ⊢
      unfold taskFail at hg ⊢
      simp only at hg ⊢
      refine ⟨⟨hg, h.scene.other rfl rfl rfl rfl rfl rfl rfl rfl, ?_⟩, lt_of _ ?_⟩
      · refine ⟨hh.same, hh.runB, hh.depB, hh.covB, fun r hr hc => ?_, fun x => ?_, hh.hold, hh.sqd,
          fun _ => by simp⟩
        · show _ ∨ r ∈ s.failed ++ [t] ∨ _
          by_cases e : r = t
          · exact Or.inr (Or.inl (by simp [e]))
          · exact (hopn r hr hc e).imp id fun hx => Or.inl (List.mem_append_left _ hx)
        · show _ ∈ Ev.fail t :: s.log ↔ x ∈ s.failed ++ [t]
          rw [List.mem_cons, List.mem_append, hh.fail x, List.mem_singleton]
          constructor
          · rintro (hx | hx)
            · cases hx; exact Or.inr rfl
            · exact Or.inl hx
          · rintro (hx | hx)
            · exact Or.inr hx
            · exact Or.inl (by rw [hx])
      · refine ⟨fun _ h => h, fun _ h => h, fun _ h => h, Nat.le_refl _, ?_, Nat.le_refl _⟩
        show modeRank (if c.halt then .cleanup else s.mode) ≤ modeRank s.mode
        by_cases hc : c.halt = true
        · rw [if_pos hc]
          rcases hm with hm | hm <;> rw [hm] <;> decide
        · rw [if_neg hc]; exact Nat.le_refl _

theorem prog_finish {c : Cfg T P N} (ok : c.Live) {s : St T P} (h : Prog c s)
    (hm : s.mode = .cleanup) :
    Prog c (finish s) ∧ total c (finish s) ≤ total c s ∧
    (s.stamps = [] → total c (finish s) < total c s) := by
  have hg := good_finish h.good
  have e1 : modeRank s.mode = 1 := by rw [hm]; rfl
  unfold finish at hg ⊢
  by_cases h1 : 0 < s.active + s.live.length
  · rw [if_pos h1] at hg ⊢
    refine ⟨h, Nat.le_refl _, fun hs => ?_⟩
    obtain ⟨a1, a2, _⟩ := idle ok h.good hs
    rw [a2] at h1
    simp only [List.length_nil] at h1
    omega
  rw [if_neg h1] at hg ⊢
  have key : ∀ m : Mode, (m = .failed → s.failed ≠ []) → modeRank m = 0 →
      Good c { s with mode := m } → Prog c { s with mode := m } ∧
        total c { s with mode := m } ≤ total c s ∧
        (s.stamps = [] → total c { s with mode := m } < total c s) := by
    intro m hm hr hg
    refine ⟨⟨hg, h.scene.other rfl rfl rfl rfl rfl rfl rfl rfl, tinv_mode h.task hm⟩, ?_, ?_⟩
    · unfold total
      simp only [hr]
      omega
    · intro _
      unfold total
      simp only [hr, e1]
      omega
  by_cases h2 : s.failed ≠ []
  · rw [if_pos h2] at hg ⊢; exact key .failed (fun _ => h2) rfl hg
  · rw [if_neg h2] at hg ⊢; exact key .complete (fun hh => by cases hh) rfl hg

theorem prog_empty {c : Cfg T P N} (ok : c.Live) : Prog c (empty c) := by
  have nodec : ∀ x, ¬ Decided (empty c) x := fun x hx => by rcases hx with hx | hx <;> cases hx
  refine ⟨good_empty ok.toOk, ?_, ?_⟩
  · refine ⟨?_, fun x hx => absurd hx (nodec x), ?_, ?_, ?_, ?_, ?_, ?_, ?_⟩
    · intro d hd hr
      left
      refine List.mem_filter.2 ⟨hd, decide_eq_true ?_⟩
      exact List.eq_nil_iff_forall_not_mem.2 fun r hrr => nodec r (hr r hrr)
    · intro t ht hS
      exact List.mem_filter.2 ⟨ht, decide_eq_true hS⟩
    · intro d hd hS hne hall
      obtain ⟨r, hr⟩ := List.exists_mem_of_ne_nil _ hne
      obtain ⟨h1, h2⟩ := List.mem_filter.1 (hall r hr)
      have h2 := of_decide_eq_true h2
      refine List.mem_filter.2 ⟨?_, decide_eq_true hS⟩
      obtain ⟨q, hq, hv⟩ := (unskippable_exact ok.graph ok.scene r).1 h1
      have hdep := (mem_revdeps'.1 hr).2
      refine (unskippable_exact ok.graph ok.scene d).2 ⟨q, hq, Or.inr ?_⟩
      rcases hv with rfl | ⟨hqS, hv⟩
      · exact ⟨h2, .one hdep⟩
      · exact ⟨hqS, .more hv h2 hdep⟩
    · exact fun _ h => by cases h
    · exact fun _ h => by cases h
    · exact fun _ h => by cases h
    · exact fun _ h => by cases h
    · exact fun _ h => by cases h
  · refine ⟨rfl, fun _ h => (by cases h), ?_, fun _ h => (by rcases h with h | h <;> cases h),
      fun _ h => (by cases h), fun x => ⟨fun h => (by cases h), fun h => (by cases h)⟩,
      fun h => (by cases h), fun h => (by cases h), fun h => (by cases h)⟩
    intro r hr hne hd
    obtain ⟨d, hdd⟩ := List.exists_mem_of_ne_nil _ hne
    exact absurd (hd d hdd) (by simp [empty])

theorem rest_le (l d : List T) : rest l d ≤ l.length := by
  induction l with
  | nil => exact Nat.le_refl _
  | cons x l ih =>
    unfold rest
    rw [List.length_cons]
    split <;> omega

theorem prog_initial {c : Cfg T P N} (ok : c.Live) (env : Env T) :
    Prog c (initial c env) ∧ total c (initial c env) ≤
      2 * (2 * c.setscene.length + c.g.tasks.length + c.deferred.length + 2) := by
  have hg := good_initial ok.toOk env
  have h0 := prog_empty ok
  have hS := sinv_updateScene ok env h0.scene (tids := c.setscene) fun x hx => hx
  have hT := h0.task.frame (frame3_updateScene c env c.setscene (empty c))
  have hL := (le_updateScene c env c.setscene (empty c)).total c
  have htot : total c (empty c) ≤
      2 * (2 * c.setscene.length + c.g.tasks.length + c.deferred.length + 2) := by
    have h1 := rest_le c.setscene (empty c).sqRunning
    have h2 := rest_le c.setscene (empty c).hardNeeded
    have h3 := rest_le c.g.tasks (empty c).running
    have h4 : (empty c).deferred = c.deferred := rfl
    have h5 : modeRank (empty c).mode = 2 := rfl
    have h6 : (empty c).stamps.length = 0 := rfl
    unfold total
    rw [h4, h5, h6]
    omega
  unfold initial at hg ⊢
  simp only at hg ⊢
  by_cases h1 : c.setscene = []
  · rw [if_pos h1] at hg ⊢
    have hno : c.setsceneOnly = false := by
      cases hso : c.setsceneOnly with
      | false => rfl
      | true => exact absurd h1 (ok.only hso)
    have hnu : (updateScene c env c.setscene (empty c)).needUpdate = true := by rw [h1]; rfl
    have hT2 := tinv_setBuildable hT (c.g.tasks.filter fun t => c.g.deps t = [])
    generalize updateScene c env c.setscene (empty c) = s at hg hS hT hL hnu hT2
    refine ⟨⟨hg, hS.other rfl rfl rfl rfl rfl rfl rfl rfl, ?_⟩, ?_⟩
    · refine ⟨hT2.same, hT2.runB, hT2.depB, ?_, hT2.opn, hT2.fail, ?_, ?_, hT2.mode⟩
      · intro r hr he
        rcases hr with hr | hr
        · exact hT2.covB r (Or.inl hr) he
        · rcases mem_union.1 hr with hr | hr
          · exact hT2.covB r (Or.inr hr) he
          · exact mem_union.2 (Or.inr (List.mem_filter.2 ⟨hr, decide_eq_true he⟩))
      · intro hn
        exact absurd (show s.needUpdate = false from hn) (by simp [hnu])
      · intro _
        exact ⟨hno, fun a ha => by rw [h1] at ha; cases ha⟩
    · exact Nat.le_trans hL htot
  · rw [if_neg h1] at hg ⊢
    exact ⟨⟨hg, hS, hT⟩, Nat.le_trans hL htot⟩

/-- The invariants hold in every state that a build can reach. -/
theorem prog_reach {c : Cfg T P N} (ok : c.Live) {s : St T P} (h : Reach c s) : Prog c s := by
  induction h with
  | init env => exact (prog_initial ok env).1
  | step env _ _ ih => exact (prog_execute ok env ih).1
  | report env t success _ hm ht ih => exact (prog_waitpid ok env ih ht hm success).1
  | stop _ _ ih =>
    exact ⟨good_mode ih.good .cleanup, ih.scene.other rfl rfl rfl rfl rfl rfl rfl rfl,
      tinv_mode ih.task fun hh => by cases hh⟩
  | finish _ hm ih => exact (prog_finish ok ih hm).1

end Bb.Rq
