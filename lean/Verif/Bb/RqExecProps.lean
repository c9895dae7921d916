import Verif.Bb.RqExecLemmas4
/-!
# Properties of the execution of tasks
-/

namespace Bb.Rq
open Spec

set_option linter.unusedSectionVars false

section
variable {T P N : Type} [DecidableEq T] [DecidableEq P] [DecidableEq N]

/-! ### C79: order -/

/-- A task is given to a worker only after each task that it depends on has been run, had nothing to
execute, has a current stamp or was restored; that a dependency is "covered" or "not needed" is never
enough. -/
theorem start_after_dependencies {c : Cfg T P N} (ok : c.Ok) {s : St T P} (h : Reach c s)
    {post pre : List (Ev T)} {t : T} (hs : s.log = post ++ .start t :: pre) :
    ∀ d ∈ c.g.deps t, Produced pre d :=
  ((good_reach ok h).inv.ord post t pre hs).deps

/-- A task is given to a worker at most once, and never after it was skipped. -/
theorem start_once {c : Cfg T P N} (ok : c.Ok) {s : St T P} (h : Reach c s)
    {post pre : List (Ev T)} {t : T} (hs : s.log = post ++ .start t :: pre) :
    .start t ∉ pre ∧ .done t ∉ pre ∧ .noexec t ∉ pre ∧ .existing t ∉ pre ∧ .covered t ∉ pre :=
  have h1 := (good_reach ok h).inv.ord post t pre hs
  ⟨h1.once, h1.fresh⟩

/-- A task that was restored is not run. -/
theorem restored_never_runs {c : Cfg T P N} (ok : c.Ok) {s : St T P} (h : Reach c s) {t : T}
    (ht : .sdone t ∈ s.log) : .start t ∉ s.log := by
  intro hs
  have hi := (good_reach ok h).inv
  have h1 := hi.rest t ht
  exact hi.disj t h1 ((hi.ran t hs).2 (hi.dec t (Or.inl h1)).2)

/-! ### C80: limits -/

/-- Never more than `BB_NUMBER_THREADS` tasks, setscene tasks included, are with the workers. -/
theorem threads_respected_partial {c : Cfg T P N} (ok : c.Ok) (ha : c.allowed = none) {s : St T P}
    (h : Reach c s) : s.log.countP isBegin ≤ s.log.countP isEnd + c.threads := by
  have h1 := (good_reach ok h).invC ha
  have h2 := h1.total
  have h3 := h1.bound
  omega

/-- Never more tasks of a name than its flag `number_threads` allows, but always one, are with the
workers. -/
theorem names_respected_partial {c : Cfg T P N} (ok : c.Ok) (ha : c.allowed = none) {s : St T P}
    (h : Reach c s) {n : N} {k : Nat} (hk : c.nameLimit n = some k) :
    s.log.countP (begins fun t => c.name t = n) ≤
      s.log.countP (ends fun t => c.name t = n) + max k 1 := by
  have h1 := (good_reach ok h).invC ha
  have h2 := h1.part fun t => c.name t = n
  have h3 := h1.names n k hk
  omega

/-! ### C81: stamps -/

/-- Two tasks with the same stamp file do not run at the same time. -/
theorem stamps_exclusive {c : Cfg T P N} (ok : c.Ok) {s : St T P} (h : Reach c s) {t u : T}
    (ht : InFlight s.log t) (hu : InFlight s.log u) (he : c.stamp t = c.stamp u) : t = u := by
  have hg := (good_reach ok h).invS
  have key : ∀ x, InFlight s.log x → (x, c.stamp x) ∈ s.stamps ∧ x ∉ s.live := by
    rintro x ⟨post, pre, h1, h2, h3⟩
    have h4 := hg.op post x pre h1 h2 h3
    have h5 := ((good_reach ok h).inv.ran x (by rw [h1]; simp)).1
    refine ⟨h4, fun hl => ?_⟩
    rcases hg.key _ h4 with hh | hh
    · exact hh.2.1 h5
    · exact hh.1 hl
  have h1 := key t ht
  have h2 := key u hu
  exact congrArg Prod.fst (hg.excl _ h1.1 _ h2.1 h1.2 h2.2 he)

end

/-! ### A concrete build -/

/-- One action. -/
inductive Act where
  | step | report (t : Nat) (success : Bool) | stop | finish

/-- Plays actions, as far as they are possible. -/
def play (c : Cfg Nat Nat Nat) (env : Env Nat) : List Act → St Nat Nat → St Nat Nat
  | [], s => s
  | .step :: l, s => play c env l (if s.mode = .running then execute c env s else s)
  | .report t b :: l, s => play c env l
      (if (s.mode = .running ∨ s.mode = .cleanup) ∧ t ∈ s.stamps.map Prod.fst
        then waitpid c env t b s else s)
  | .stop :: l, s => play c env l (if s.mode = .running then { s with mode := .cleanup } else s)
  | .finish :: l, s => play c env l (if s.mode = .cleanup then finish s else s)

theorem play_reach (c : Cfg Nat Nat Nat) (env : Env Nat) : ∀ (l : List Act) (s : St Nat Nat),
    Reach c s → Reach c (play c env l s)
  | [], _, h => h
  | .step :: l, s, h => by
    unfold play
    refine play_reach c env l _ ?_
    by_cases hm : s.mode = .running
    · rw [if_pos hm]; exact .step env h hm
    · rw [if_neg hm]; exact h
  | .report t b :: l, s, h => by
    unfold play
    refine play_reach c env l _ ?_
    by_cases hm : (s.mode = .running ∨ s.mode = .cleanup) ∧ t ∈ s.stamps.map Prod.fst
    · rw [if_pos hm]; exact .report env t b h hm.1 hm.2
    · rw [if_neg hm]; exact h
  | .stop :: l, s, h => by
    unfold play
    refine play_reach c env l _ ?_
    by_cases hm : s.mode = .running
    · rw [if_pos hm]; exact .stop h hm
    · rw [if_neg hm]; exact h
  | .finish :: l, s, h => by
    unfold play
    refine play_reach c env l _ ?_
    by_cases hm : s.mode = .cleanup
    · rw [if_pos hm]; exact .finish h hm
    · rw [if_neg hm]; exact h

/-- The tasks of `exScene`: `1`, `2` and `5` can be restored. -/
def exCfg : Cfg Nat Nat Nat where
  g := exScene
  setscene := [1, 2, 5]
  sc := (scene exScene [1, 2, 5] [0]).get (by decide)
  hard _ := []
  hardRev _ := []
  deferred := []
  targets := [0]
  stamp t := t
  sstamp t := t + 100
  noexec _ := false
  name t := t % 2
  prio t := t
  threads := 2
  nameLimit n := if n = 0 then some 1 else none
  halt := true
  force := false
  skipSetscene := false
  setsceneOnly := false
  allowed := none

theorem exCfg_ok : exCfg.Ok where
  graph := exScene_ok
  sub := by decide
  scene := by simp [exCfg]
  hard := fun _ _ h => by cases h
  deferred := fun _ h => by cases h

/-- No stamps; only `2` and `5` are in the cache. -/
def exEnv : Env Nat where
  stampNow _ := false
  stampRec _ := false
  sstampNow _ := false
  valid t := t ≠ 1
  unneeded _ := true
  pressure := false

/-- `1` is not in the cache, so `3` has to run; `2` and `5` are restored, `4` is covered. -/
def exRun : St Nat Nat :=
  play exCfg exEnv
    [.step, .step, .report 2 true, .step, .report 5 true, .step, .step, .report 3 true, .step,
      .report 1 true, .step, .step, .step, .report 0 true, .step, .step] (initial exCfg exEnv)

theorem exRun_reach : Reach exCfg exRun := play_reach _ _ _ _ (.init _)

example : exRun.mode = .complete ∧ exRun.log.reverse = [.smissing 1, .sstart 2, .sdone 2, .sstart 5,
    .sdone 5, .covered 5, .start 3, .done 3, .start 1, .done 1, .covered 4, .covered 2, .start 0,
    .done 0] := by
  decide +kernel

/-- All is in the cache. -/
def exAll : Env Nat := { exEnv with valid := fun _ => true }

/-- Two tasks are in flight at the same time. -/
def exMid : St Nat Nat :=
  play exCfg exAll [.step, .step] (initial exCfg exAll)

example : Reach exCfg exMid ∧ exMid.log = [.sstart 2, .sstart 1] ∧
    exMid.log.countP isBegin = exMid.log.countP isEnd + exCfg.threads :=
  ⟨play_reach _ _ _ _ (.init _), by decide +kernel, by decide +kernel⟩

/-- With `BB_SETSCENE_ENFORCE` and `-k`: task `0` is refused, `1` to `4` can be restored, and `1` is
tried before the others. -/
def exForce : Cfg Nat Nat Nat :=
  { exCfg with
    g :=
      { tasks := [0, 1, 2, 3, 4]
        deps := fun t => if t = 1 then [2, 3, 4] else [] }
    setscene := [1, 2, 3, 4]
    sc := (scene
      { tasks := [0, 1, 2, 3, 4]
        deps := fun t => if t = 1 then [2, 3, 4] else [] } [1, 2, 3, 4] [0, 1]).get (by decide)
    targets := [0, 1]
    halt := false
    allowed := some fun t => t ≠ 0 }

theorem exForce_ok : exForce.Ok where
  graph := ⟨by decide, by decide, by decide, by decide⟩
  sub := by decide
  scene := by simp [exForce]
  hard := fun _ _ h => by cases h
  deferred := fun _ h => by cases h

/-- The count of active tasks is lowered for a task that never was active, so with
`BB_SETSCENE_ENFORCE` and `-k` more tasks than `BB_NUMBER_THREADS` are started. -/
theorem threads_exceeded_with_enforce : ∃ c : Cfg Nat Nat Nat, c.Ok ∧ ∃ s, Reach c s ∧
    c.threads = 2 ∧ s.active = -2 ∧ s.log = [.sstart 4, .sstart 3, .sstart 2, .sfail 1, .fail 0, .fail 0,
      .sstart 1] :=
  ⟨exForce, exForce_ok, play exForce exAll
    [.step, .step, .step, .report 1 false, .step, .step, .step] (initial exForce exAll),
    play_reach _ _ _ _ (.init _), rfl, by decide +kernel, by decide +kernel⟩

/-- The same task fails again and again. -/
theorem refused_for_ever : ∃ c : Cfg Nat Nat Nat, c.Ok ∧ ∃ s, Reach c s ∧
    s.log = [.fail 0, .fail 0, .fail 0, .sstart 1] ∧ s.mode = .running :=
  ⟨exForce, exForce_ok, play exForce exAll
    [.step, .step, .step, .step] (initial exForce exAll),
    play_reach _ _ _ _ (.init _), by decide +kernel, by decide +kernel⟩

/-- Two tasks with one stamp: the second waits for the first. -/
def exStamp : Cfg Nat Nat Nat :=
  { exCfg with
    g := { tasks := [0, 1], deps := fun _ => [] }
    setscene := []
    sc := (scene { tasks := [0, 1], deps := fun _ => [] } [] [0, 1]).get (by decide)
    targets := [0, 1]
    stamp := fun _ => 7
    nameLimit := fun _ => none }

theorem exStamp_ok : exStamp.Ok where
  graph := ⟨by decide, by decide, by decide, by decide⟩
  sub := by decide
  scene := by simp [exStamp]
  hard := fun _ _ h => by cases h
  deferred := fun _ h => by cases h

example : ∃ s, Reach exStamp s ∧ InFlight s.log 0 ∧ s.log = [.start 0] :=
  ⟨play exStamp exEnv [.step, .step] (initial exStamp exEnv), play_reach _ _ _ _ (.init _),
    ⟨[], [], by decide +kernel, by simp, by simp⟩, by decide +kernel⟩

end Bb.Rq
