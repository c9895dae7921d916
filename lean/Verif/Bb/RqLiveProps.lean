import Verif.Bb.RqLiveLemmas3
import Verif.Bb.RqExecProps
/-!
# Properties of the end of a build
-/

namespace Bb.Rq
open Spec

set_option linter.unusedSectionVars false

section
variable {T P N : Type} [DecidableEq T] [DecidableEq P] [DecidableEq N]

/-- What is known if a step ends the build. -/
def Ended (c : Cfg T P N) (s : St T P) : Prop :=
  s.mode = .complete → c.setsceneOnly = false → c.g.tasks ≠ [] →
    s.failed = [] ∧ ∀ t ∈ c.g.tasks, t ∈ s.complete

theorem ended_of_mode {c : Cfg T P N} {s : St T P} (h : s.mode ≠ .complete) : Ended c s :=
  fun hh => absurd hh h

theorem ended_finishStep {c : Cfg T P N} {s : St T P} (h : s.mode ≠ .complete) :
    Ended c (finishStep c s) := by
  unfold finishStep
  by_cases h1 : 0 < s.active ∨ s.live ≠ []
  · rw [if_pos h1]; exact ended_of_mode h
  rw [if_neg h1]
  generalize s.deferred = D
  cases D with
  | cons e rest => exact ended_of_mode h
  | nil =>
    simp only
    by_cases h2 : s.failed ≠ []
    · rw [if_pos h2]; exact ended_of_mode (fun hh => by cases hh)
    rw [if_neg h2]
    by_cases h3 : (sceneError c s || unfinished c s) = true
    · rw [if_pos h3]; exact ended_of_mode (fun hh => by cases hh)
    rw [if_neg h3]
    intro _ _ _
    refine ⟨Classical.byContradiction h2, fun t ht => ?_⟩
    have h4 : unfinished c s = false := by
      cases hu : unfinished c s with
      | false => rfl
      | true => rw [hu, Bool.or_true] at h3; exact absurd rfl h3
    unfold unfinished at h4
    have h5 := List.any_eq_false.1 h4 t ht
    refine Classical.byContradiction fun hn => h5 ?_
    have : decide (t ∉ s.complete) = true := decide_eq_true hn
    rw [this, Bool.or_true]

theorem ended_tasksStep {c : Cfg T P N} (env : Env T) {s : St T P} (h : s.mode ≠ .complete) :
    Ended c (tasksStep c env s) := by
  have hco : ∀ t (s : St T P), (completeOutright c env t s).mode = s.mode := by
    intro t s
    unfold completeOutright
    simp only
    exact (frame3_release c env t _).mode
  unfold tasksStep
  cases (if c.setsceneOnly then none else next c env s) with
  | none => exact ended_finishStep h
  | some t =>
    simp only
    unfold runTask
    by_cases h1 : ignored c env s t = true
    · rw [if_pos h1]
      refine ended_of_mode ?_
      show (if c.halt then Mode.cleanup else s.mode) ≠ .complete
      by_cases hc : c.halt = true
      · rw [if_pos hc]; exact fun hh => by cases hh
      · rw [if_neg hc]; exact h
    rw [if_neg h1]
    have skip : ∀ e, Ended c (taskSkip c env e t s) := by
      intro e
      refine ended_of_mode ?_
      unfold taskSkip
      simp only
      rw [hco]
      exact h
    by_cases h2 : t ∈ s.covered
    · rw [if_pos h2]; exact skip _
    rw [if_neg h2]
    by_cases h3 : env.stampNow t = true
    · rw [if_pos h3]; exact skip _
    rw [if_neg h3]
    by_cases h4 : c.noexec t = true
    · rw [if_pos h4]
      refine ended_of_mode ?_
      unfold taskComplete
      rw [hco]
      exact h
    rw [if_neg h4]
    simp only
    split
    · exact ended_of_mode h
    · exact ended_finishStep h

theorem ended_executeRest {c : Cfg T P N} (env : Env T) {s : St T P} (h : s.mode ≠ .complete) :
    Ended c (executeRest c env s) := by
  have hm : (updateHoldoff c s).mode ≠ .complete := by
    unfold updateHoldoff
    by_cases hn : s.needUpdate = false
    · rw [if_pos hn]; exact h
    · rw [if_neg hn]; exact h
  unfold executeRest
  simp only
  generalize updateHoldoff c s = s' at hm
  by_cases h2 : s'.live = [] ∧ s'.sqdone = false ∧ s'.deferred = [] ∧ s'.holdoff = []
  · rw [if_pos h2]
    by_cases h3 : sceneError c s' = true
    · rw [if_pos h3]; exact ended_of_mode (fun hh => by cases hh)
    rw [if_neg h3]
    by_cases h4 : c.setsceneOnly = true
    · rw [if_pos h4]; exact fun _ hh => by rw [h4] at hh; cases hh
    rw [if_neg h4]
    by_cases h5 : c.g.tasks = []
    · rw [if_pos h5]; exact fun _ _ hh => absurd h5 hh
    rw [if_neg h5]
    exact ended_tasksStep env hm
  · rw [if_neg h2]; exact ended_tasksStep env hm

theorem pick_mode (c : Cfg T P N) (env : Env T) : ∀ (ts : List T) (s : St T P),
    match pick c env ts s with
    | .ret s' | .none s' | .task _ s' => s'.mode = s.mode
  | [], s => by unfold pick; rfl
  | t :: ts, s => by
    have ht : ∀ s0 : St T P, s0.mode = s.mode → match pickTail c env t s0 with
        | .ret s' | .none s' | .task _ s' => s'.mode = s.mode := by
      intro s0 h0
      unfold pickTail
      by_cases h1 : t ∈ s0.outright
      · rw [if_pos h1]
        exact (frame3_failOutright c env t s0).mode.trans h0
      · rw [if_neg h1]; exact h0
    unfold pick
    by_cases h1 : eligible c s t = false
    · rw [if_pos h1]; exact pick_mode c env ts s
    rw [if_neg h1]
    by_cases h2 : notNeeded c env s t = true
    · rw [if_pos h2]
      exact (frame3_sqSkip c env (e := .sunneeded t) (fun _ hh => by cases hh) t s).mode
    rw [if_neg h2]
    by_cases h3 : subset (c.hardRev t) (s.scCovered ++ s.scNot) = false
    · rw [if_pos h3]
      simp only
      by_cases h4 : ((c.hardRev t).filter fun d => decide (d ∉ s.hardNeeded)) ≠ []
      · rw [if_pos h4]
      · rw [if_neg h4]; exact pick_mode c env ts _
    rw [if_neg h3]
    cases s.deferred.lookup t with
    | none => exact ht s rfl
    | some b =>
      simp only
      by_cases h4 : b ∉ s.complete
      · rw [if_pos h4]; exact pick_mode c env ts s
      rw [if_neg h4]
      by_cases h5 : env.valid t = false
      · rw [if_pos h5]; exact (frame3_failOutright c env t _).mode
      · rw [if_neg h5]; exact ht _ rfl

theorem ended_execute {c : Cfg T P N} (env : Env T) {s : St T P} (h : s.mode = .running) :
    Ended c (execute c env s) := by
  have hr : s.mode ≠ .complete := by rw [h]; exact fun hh => by cases hh
  unfold execute
  by_cases h1 : s.sqdone = false ∧ canStart c s = true
  · rw [if_pos h1]
    have hp := pick_mode c env c.setscene s
    cases hx : pick c env c.setscene s with
    | ret s' => rw [hx] at hp; exact ended_of_mode (by rw [hp]; exact hr)
    | none s' => rw [hx] at hp; exact ended_executeRest env (by rw [hp]; exact hr)
    | task t s' =>
      rw [hx] at hp
      have hp' : s'.mode ≠ .complete := by rw [hp]; exact hr
      have hf : Ended c (failOutright c env t s') :=
        ended_of_mode (by rw [(frame3_failOutright c env t s').mode]; exact hp')
      simp only
      unfold sceneStep
      by_cases h2 : env.stampRec t = true
      · rw [if_pos h2]; exact hf
      rw [if_neg h2]
      by_cases h3 : c.force = true ∧ t ∈ c.targets
      · rw [if_pos h3]; exact hf
      rw [if_neg h3]
      by_cases h4 : env.sstampNow t = true
      · rw [if_pos h4]
        exact ended_of_mode (by
          rw [(frame3_sqSkip c env (e := .spresent t) (fun _ hh => by cases hh) t s').mode]; exact hp')
      rw [if_neg h4]
      by_cases h5 : c.skipSetscene = true
      · rw [if_pos h5]; exact hf
      rw [if_neg h5]
      simp only
      split
      · exact ended_of_mode hp'
      · exact ended_executeRest env hp'
  · rw [if_neg h1]; exact ended_executeRest env hr

/-! ### C82: success -/

/-- If a build ends with success, every task was run or there was no need to, and no task failed. -/
theorem success_all_finished {c : Cfg T P N} (ok : c.Live) {s : St T P} (h : Reach c s)
    (hm : s.mode = .running) (env : Env T) (hc : (execute c env s).mode = .complete)
    (hso : c.setsceneOnly = false) (hne : c.g.tasks ≠ []) :
    (∀ t ∈ c.g.tasks, Finished (execute c env s).log t) ∧ ∀ t, .fail t ∉ (execute c env s).log := by
  obtain ⟨h1, h2⟩ := ended_execute env hm hc hso hne
  have hp := prog_reach ok (.step env h hm)
  refine ⟨fun t ht => hp.good.inv.comp t (h2 t ht), fun t ht => ?_⟩
  have := (hp.task.fail t).1 ht
  rw [h1] at this
  cases this

/-- If a build ends with success, the result of each target is there. -/
theorem success_targets_produced {c : Cfg T P N} (ok : c.Ok) {s : St T P} (h : Reach c s)
    (hm : s.mode = .running) (env : Env T) (hc : (execute c env s).mode = .complete)
    (hso : c.setsceneOnly = false) {t : T} (ht : t ∈ c.targets) (htt : t ∈ c.g.tasks) :
    Produced (execute c env s).log t := by
  obtain ⟨_, h2⟩ := ended_execute env hm hc hso fun hh => by rw [hh] at htt; cases htt
  have hi := (good_reach ok (.step env h hm)).inv
  unfold Produced
  rcases hi.comp t (h2 t htt) with hh | hh | hh | hh
  · exact Or.inl hh
  · exact Or.inr (Or.inl hh)
  · exact Or.inr (Or.inr (Or.inl hh))
  · obtain ⟨c1, c2⟩ := hi.cov t hh
    by_cases hS : t ∈ c.setscene
    · rcases hi.sc t (c1 hS) with hh | hh | hh | hh
      · exact Or.inr (Or.inr (Or.inr (Or.inl hh)))
      · exact Or.inr (Or.inr (Or.inr (Or.inr (Or.inl hh))))
      · exact Or.inr (Or.inr (Or.inr (Or.inr (Or.inr hh))))
      · exact absurd ht (hi.unn t hh).2.1
    · exact absurd (ok.closed.target t ht hS htt) (c2 hS).1

/-! ### C83: the end -/

/-- A build ends without success only if a task failed. -/
theorem fails_only_if_task_failed_partial {c : Cfg T P N} (ok : c.Live) {s : St T P} (h : Reach c s)
    (hm : s.mode = .failed) : ∃ t, .fail t ∈ s.log := by
  have hp := prog_reach ok h
  obtain ⟨t, ht⟩ := List.exists_mem_of_ne_nil _ (hp.task.mode hm)
  exact ⟨t, (hp.task.fail t).2 ht⟩

/-- A build of which `n` steps count: steps while no task is with a worker, and reports of workers.
A step while tasks are with the workers may find nothing to do. -/
inductive Run (c : Cfg T P N) : Nat → St T P → Prop where
  | init (env : Env T) : Run c 0 (initial c env)
  | step (env : Env T) {n : Nat} {s : St T P} (h : Run c n s) (hm : s.mode = .running)
      (hs : s.stamps = []) : Run c (n + 1) (execute c env s)
  | wait (env : Env T) {n : Nat} {s : St T P} (h : Run c n s) (hm : s.mode = .running)
      (hs : s.stamps ≠ []) : Run c n (execute c env s)
  | report (env : Env T) (t : T) (success : Bool) {n : Nat} {s : St T P} (h : Run c n s)
      (hm : s.mode = .running ∨ s.mode = .cleanup) (ht : t ∈ s.stamps.map Prod.fst) :
      Run c (n + 1) (waitpid c env t success s)
  | stop {n : Nat} {s : St T P} (h : Run c n s) (hm : s.mode = .running) :
      Run c n { s with mode := .cleanup }
  | finish {n : Nat} {s : St T P} (h : Run c n s) (hm : s.mode = .cleanup) (hs : s.stamps = []) :
      Run c (n + 1) (finish s)
  | finishWait {n : Nat} {s : St T P} (h : Run c n s) (hm : s.mode = .cleanup) (hs : s.stamps ≠ []) :
      Run c n (finish s)

theorem Run.reach {c : Cfg T P N} {n : Nat} {s : St T P} (h : Run c n s) : Reach c s := by
  induction h with
  | init env => exact .init env
  | step env _ hm _ ih => exact .step env ih hm
  | wait env _ hm _ ih => exact .step env ih hm
  | report env t b _ hm ht ih => exact .report env t b ih hm ht
  | stop _ hm ih => exact .stop ih hm
  | finish _ hm _ ih => exact .finish ih hm
  | finishWait _ hm _ ih => exact .finish ih hm

theorem run_total {c : Cfg T P N} (ok : c.Live) {n : Nat} {s : St T P} (h : Run c n s) :
    n + total c s ≤ 2 * (2 * c.setscene.length + c.g.tasks.length + c.deferred.length + 2) := by
  induction h with
  | init env => have := (prog_initial ok env).2; omega
  | step env h hm hs ih =>
    have := (prog_execute ok env (prog_reach ok h.reach)).2.2 hs hm
    omega
  | wait env h hm hs ih =>
    have := (prog_execute ok env (prog_reach ok h.reach)).2.1
    omega
  | report env t b h hm ht ih =>
    have := (prog_waitpid ok env (prog_reach ok h.reach) ht hm b).2
    omega
  | @stop n s h hm ih =>
    have e : modeRank s.mode = 2 := by rw [hm]; rfl
    unfold total at ih ⊢
    rw [e] at ih
    simp only [modeRank]
    omega
  | finish h hm hs ih =>
    have := (prog_finish ok (prog_reach ok h.reach) hm).2.2 hs
    omega
  | finishWait h hm hs ih =>
    have := (prog_finish ok (prog_reach ok h.reach) hm).2.1
    omega

/-- A build cannot go on for ever: with workers that report each task, it is over after a number of
steps that depends only on the number of tasks. -/
theorem build_ends_partial {c : Cfg T P N} (ok : c.Live) {n : Nat} {s : St T P} (h : Run c n s) :
    n ≤ 2 * (2 * c.setscene.length + c.g.tasks.length + c.deferred.length + 2) := by
  have := run_total ok h
  omega

end

/-! ### Examples -/

theorem exCfg_live : exCfg.Live where
  toOk := exCfg_ok
  acyclic := by
    have up : ∀ t ∈ exScene.tasks, ∀ d ∈ exScene.deps t, t < d := by decide
    have : ∀ a b, Path exScene a b → a ∈ exScene.tasks → a < b ∧ b ∈ exScene.tasks := by
      intro a b h ha
      induction h with
      | one h => exact ⟨up _ ha _ h, exScene_ok.closed _ ha _ h⟩
      | more h _ ih =>
        obtain ⟨h1, h2⟩ := ih (exScene_ok.closed _ ha _ h)
        exact ⟨Nat.lt_trans (up _ ha _ h) h1, h2⟩
    exact fun t ht h => Nat.lt_irrefl t (this t t h ht).1
  hardBack := fun _ _ h => by cases h
  hardLoop := ⟨fun _ => 0, fun _ _ h => by cases h⟩
  threads := by decide
  allowed := rfl
  only := fun h => by cases h

/-- The last step of `exRun` ends the build. -/
example : ∃ s, Reach exCfg s ∧ s.mode = .running ∧ (execute exCfg exEnv s).mode = .complete ∧
    exCfg.setsceneOnly = false ∧ exCfg.g.tasks ≠ [] ∧ 0 ∈ exCfg.targets ∧ 0 ∈ exCfg.g.tasks :=
  ⟨play exCfg exEnv
    [.step, .step, .report 2 true, .step, .report 5 true, .step, .step, .report 3 true, .step,
      .report 1 true, .step, .step, .step, .report 0 true] (initial exCfg exEnv),
    play_reach _ _ _ _ (.init _), by decide +kernel, by decide +kernel, rfl, by decide, by decide,
    by decide⟩

/-- A task fails, and the build fails. -/
example : ∃ s, Reach exCfg s ∧ s.mode = .failed ∧ s.log.head? = some (.fail 3) :=
  ⟨play exCfg exEnv
    [.step, .step, .report 2 true, .step, .report 5 true, .step, .step, .report 3 false, .finish]
    (initial exCfg exEnv), play_reach _ _ _ _ (.init _), by decide +kernel, by decide +kernel⟩

/-- `--setscene-only` for a build without setscene tasks fails although nothing failed. -/
theorem setscene_only_without_setscene_fails : ∃ c : Cfg Nat Nat Nat, c.Ok ∧ c.setsceneOnly = true ∧
    ∃ s, Reach c s ∧ s.mode = .failed ∧ s.log = [] := by
  refine ⟨{ exStamp with setsceneOnly := true }, ?_, rfl, play { exStamp with setsceneOnly := true }
    exEnv [.step] (initial { exStamp with setsceneOnly := true } exEnv),
    play_reach _ _ _ _ (.init _), by decide +kernel, by decide +kernel⟩
  exact ⟨exStamp_ok.graph, exStamp_ok.sub, exStamp_ok.scene, exStamp_ok.hard, exStamp_ok.deferred⟩

end Bb.Rq
