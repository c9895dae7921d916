import Verif.Bb.RqSceneModel
/-!
# Model of `RunQueueExecute`: `bitbake/lib/bb/runqueue.py`

The state machine that decides which task is started next.  The file system (stamps), the shared
state cache and the load of the machine are an argument `Env` of each step, so they can change at
any time.  Sets are lists; dictionaries whose order matters are lists of pairs.

Not modelled: changes of the hashes of tasks while the build runs (`updated_taskhash_queue`,
`process_possible_migrations`): Isar uses the signature handler `OEBasicHash`, which never sends
them.  Statistics other than `active`; texts of messages; a fakeroot worker that cannot be started.
-/

namespace Bb.Rq

variable {T : Type} [DecidableEq T]

/-- What does not change during the build.  `P` is the type of the names of stamp files, `N` that of
the names of tasks. -/
structure Cfg (T P N : Type) where
  /-- `rqdata.runtaskentries` -/
  g : Graph T
  /-- `sorted(rqdata.runq_setscene_tids)`, runqueue.py:2177 -/
  setscene : List T
  /-- `sqdata`, from `build_scenequeue_data` -/
  sc : Scene T
  /-- `sqdata.sq_harddeps` and `sqdata.sq_harddeps_rev`, runqueue.py:2981-3005 -/
  hard : T → List T
  hardRev : T → List T
  /-- `sq_deferred` at the beginning, runqueue.py:3041-3052 -/
  deferred : List (T × T)
  /-- `rqdata.target_tids` -/
  targets : List T
  /-- The stamp of a task (runqueue.py:158, 2385, 2985) and of its setscene variant (2284). -/
  stamp : T → P
  sstamp : T → P
  /-- `'noexec' in taskdep and taskname in taskdep['noexec']` -/
  noexec : T → Bool
  /-- `taskname_from_tid` -/
  name : T → N
  /-- `rev_prio_map`, runqueue.py:275-278 -/
  prio : T → Nat
  /-- `BB_NUMBER_THREADS`, runqueue.py:1830 -/
  threads : Nat
  /-- The flag `number_threads` of a task, runqueue.py:258 -/
  nameLimit : N → Option Nat
  /-- `taskData[''].halt`: without `-k` -/
  halt : Bool
  /-- `-f`, `--skip-setscene`, `--setscene-only` -/
  force : Bool
  skipSetscene : Bool
  setsceneOnly : Bool
  /-- `check_setscene_enforce_ignore_tasks` if `BB_SETSCENE_ENFORCE` is set, runqueue.py:3325-3333 -/
  allowed : Option (T → Bool)

/-- What a step finds outside the run queue. -/
structure Env (T : Type) where
  /-- `check_stamp_task(t, taskname)` -/
  stampNow : T → Bool
  /-- `check_stamp_task(t, taskname, recurse = True)` -/
  stampRec : T → Bool
  /-- `check_stamp_task(t, taskname + "_setscene")` -/
  sstampNow : T → Bool
  /-- `validate_hashes`: the result is in the shared state cache -/
  valid : T → Bool
  /-- `check_dependencies`, runqueue.py:1997-2013 -/
  unneeded : T → Bool
  /-- `exceeds_max_pressure`, runqueue.py:188-233 -/
  pressure : Bool

/-- `rq.state`, runqueue.py:129-134. -/
inductive Mode where
  | running | cleanup | failed | complete
  deriving DecidableEq

/-- What happens to a task. -/
inductive Ev (T : Type) where
  /-- given to a worker, finished, failed -/
  | start (t : T)
  | done (t : T)
  | fail (t : T)
  /-- complete without a run: nothing to execute, stamp is current, covered by setscene tasks -/
  | noexec (t : T)
  | existing (t : T)
  | covered (t : T)
  /-- the setscene variant is given to a worker, finished, failed -/
  | sstart (t : T)
  | sdone (t : T)
  | sfail (t : T)
  /-- the setscene variant is taken as done: a stamp is present, nothing to execute, not needed -/
  | spresent (t : T)
  | snoexec (t : T)
  | sunneeded (t : T)
  /-- the setscene variant is taken as failed without a run -/
  | smissing (t : T)
  deriving DecidableEq

/-- The attributes of `RunQueueExecute`, runqueue.py:1837-1902, and of the scheduler. -/
structure St (T P : Type) where
  /-- `runq_buildable`, `sched.buildable`, `runq_running`, `runq_complete`, `failed_tids` -/
  buildable : List T
  sched : List T
  running : List T
  complete : List T
  failed : List T
  /-- `stats.active` -/
  active : Int
  /-- `build_stamps` -/
  stamps : List (T × P)
  /-- `sq_buildable`, `sq_running`, `sq_live` -/
  sqBuildable : List T
  sqRunning : List T
  live : List T
  /-- `scenequeue_covered`, `scenequeue_notcovered`, `tasks_scenequeue_done` -/
  scCovered : List T
  scNot : List T
  done : List T
  /-- `tasks_covered`, `tasks_notcovered`, `holdoff_tasks`, `holdoff_need_update` -/
  covered : List T
  notcovered : List T
  holdoff : List T
  needUpdate : Bool
  /-- `sq_deferred`, `sq_needed_harddeps`, `sq_harddep_deferred`, `sqdata.outrightfail`, `sqdone` -/
  deferred : List (T × T)
  hardNeeded : List T
  hardDeferred : List T
  outright : List T
  sqdone : Bool
  mode : Mode
  /-- All that happened, the latest first. -/
  log : List (Ev T)

section
variable {P N : Type} [DecidableEq P] [DecidableEq N]

/-- `a.issubset(b)`. -/
def subset (a b : List T) : Bool := a.all fun x => x ∈ b

/-! ### Setscene tasks -/

/-- `check_setscene_stamps`, runqueue.py:3054-3072: `noexec or stamppresent`. -/
def present (c : Cfg T P N) (env : Env T) (t : T) : Bool :=
  c.noexec t || env.sstampNow t || env.stampRec t

/-- runqueue.py:2723-2731: one task of `next`. -/
def walkTask (c : Cfg T P N) (s : List T × List T) (t : T) : List T × List T :=
  let done := union s.1 [t]
  (done, (c.g.deps t).foldl (fun new d =>
    if d ∈ c.setscene ∨ d ∈ done then new
    else if subset (c.g.revdeps d) done then union new [d] else new) s.2)

/-- runqueue.py:2720-2732.  The argument `fuel` bounds the number of passes. -/
def walk (c : Cfg T P N) : Nat → List T → List T → List T
  | 0, _, done => done
  | fuel + 1, next, done =>
    if next = [] then done
    else
      let r := next.foldl (walkTask c) (done, [])
      walk c fuel r.2 r.1

/-- `scenequeue_updatecounters`, runqueue.py:2715-2742: what follows the loop over the hard
dependencies. -/
def finishCounters (c : Cfg T P N) (t : T) (s : St T P) : St T P :=
  let decided := s.scCovered ++ s.scNot
  { s with
    sqBuildable := union s.sqBuildable ((c.sc.deps t).filter fun d => subset (c.sc.revdeps d) decided)
    done := walk c (c.g.tasks.length + 1) [t] s.done
    hardDeferred := if c.hard t = [] then s.hardDeferred
      else s.hardDeferred.filter fun d => !subset (c.hardRev d) decided
    needUpdate := true }

/-- `sq_task_failoutright`, runqueue.py:2774-2777, before `scenequeue_updatecounters`. -/
def markMissing (t : T) (s : St T P) : St T P :=
  { s with
    sqRunning := union s.sqRunning [t], sqBuildable := union s.sqBuildable [t]
    scNot := union s.scNot [t], log := .smissing t :: s.log }

/-- `scenequeue_updatecounters`, runqueue.py:2702-2742.  The argument `fuel` bounds the depth of the
recursion through `sq_task_failoutright`. -/
def updateCounters (c : Cfg T P N) (env : Env T) : Nat → T → Bool → St T P → St T P
  | 0, t, _, s => finishCounters c t s
  | fuel + 1, t, fail, s =>
    finishCounters c t
      (if fail then
        (c.hard t).foldl (fun s d =>
          if d ∈ s.scCovered ∨ d ∈ s.scNot ∨ present c env d = true then s
          else updateCounters c env fuel d true (markMissing d s)) s
      else s)

/-- The bound for the recursion. -/
def Cfg.fuel (c : Cfg T P N) : Nat := c.setscene.length + 1

/-- `sq_task_failoutright`, runqueue.py:2774-2778. -/
def failOutright (c : Cfg T P N) (env : Env T) (t : T) (s : St T P) : St T P :=
  updateCounters c env c.fuel t true (markMissing t s)

/-- `sq_task_skip` and `sq_task_completeoutright`, runqueue.py:2780-2783, 2744-2753; `ev` tells
why. -/
def sqSkip (c : Cfg T P N) (env : Env T) (ev : Ev T) (t : T) (s : St T P) : St T P :=
  updateCounters c env c.fuel t false
    { s with
      sqRunning := union s.sqRunning [t], sqBuildable := union s.sqBuildable [t]
      scCovered := union s.scCovered [t], log := ev :: s.log }

/-- `update_scenequeue_data`, runqueue.py:3078-3100: one task. -/
def updateSceneTask (c : Cfg T P N) (env : Env T) (s : St T P) (t : T) : St T P :=
  let s := { s with outright := s.outright.filter fun x => x ≠ t }
  if c.noexec t then sqSkip c env (.snoexec t) t s
  else if env.sstampNow t || env.stampRec t then sqSkip c env (.spresent t) t s
  else s

/-- `update_scenequeue_data`, runqueue.py:3074-3118. -/
def updateScene (c : Cfg T P N) (env : Env T) (tids : List T) (s : St T P) : St T P :=
  let s := tids.foldl (updateSceneTask c env) s
  { s with
    outright := union s.outright (tids.filter fun t =>
      !present c env t && !env.valid t && t ∉ s.scCovered && t ∉ s.scNot &&
        t ∉ s.deferred.map Prod.fst) }

/-! ### Tasks -/

/-- `setbuildable`, runqueue.py:2041-2043, for several tasks. -/
def setBuildable (l : List T) (s : St T P) : St T P :=
  { s with buildable := union s.buildable l, sched := union s.sched l }

/-- `task_completeoutright`, runqueue.py:2066-2078: deferred setscene tasks are released. -/
def release (c : Cfg T P N) (env : Env T) (t : T) (s : St T P) : St T P :=
  match c.setscene.filter fun x => s.deferred.lookup x = some t with
  | [] => s
  | f :: rest =>
    let s := updateScene c env [f] { s with deferred := s.deferred.filter fun e => e.1 ≠ f }
    { s with deferred := s.deferred.map fun e => if e.1 ∈ rest then (e.1, f) else e }

/-- `task_completeoutright`, runqueue.py:2045-2078. -/
def completeOutright (c : Cfg T P N) (env : Env T) (t : T) (s : St T P) : St T P :=
  let s := { s with complete := union s.complete [t] }
  release c env t (setBuildable ((c.g.revdeps t).filter fun r =>
    r ∉ s.running && r ∉ s.buildable && subset (c.g.deps r) s.complete) s)

/-- `task_complete`, runqueue.py:2080-2084. -/
def taskComplete (c : Cfg T P N) (env : Env T) (t : T) (s : St T P) : St T P :=
  completeOutright c env t { s with active := s.active - 1 }

/-- `task_fail`, runqueue.py:2086-2112. -/
def taskFail (c : Cfg T P N) (t : T) (s : St T P) : St T P :=
  { s with
    active := s.active - 1, failed := s.failed ++ [t], log := .fail t :: s.log
    mode := if c.halt then .cleanup else s.mode }

/-- `task_skip`, runqueue.py:2114-2120; `ev` tells why. -/
def taskSkip (c : Cfg T P N) (env : Env T) (ev : Ev T) (t : T) (s : St T P) : St T P :=
  let s := setBuildable [t] { s with running := union s.running [t], log := ev :: s.log }
  let s := completeOutright c env t s
  { s with active := s.active + 1 - 1 }

/-- `update_holdofftasks`, runqueue.py:2478-2483. -/
def newNotcovered (c : Cfg T P N) (s : St T P) : List T :=
  (s.scNot ++ c.sc.cantskip ++ s.scNot.flatMap c.sc.cov ++
    c.sc.unskippable.filter (fun x => x ∉ c.setscene)).filter fun x => x ∈ s.done

/-- `update_holdofftasks`, runqueue.py:2485-2489. -/
def newCovered (c : Cfg T P N) (s : St T P) : List T :=
  (s.scCovered ++ s.scCovered.flatMap c.sc.cov).filter fun x =>
    x ∉ newNotcovered c s && x ∈ s.done

/-- `update_holdofftasks`, runqueue.py:2500-2509. -/
def newHoldoff (c : Cfg T P N) (s : St T P) : List T :=
  let und := c.setscene.filter fun t => t ∉ s.scCovered && t ∉ s.scNot
  und ++ (und.flatMap c.sc.cov).filter fun d => d ∉ s.complete

/-- `update_holdofftasks`, runqueue.py:2473-2511. -/
def updateHoldoff (c : Cfg T P N) (s : St T P) : St T P :=
  if s.needUpdate = false then s
  else
    let s' := setBuildable ((newNotcovered c s ++ newCovered c s).filter fun t =>
      subset (c.g.deps t) s.complete) s
    { s' with
      covered := newCovered c s, notcovered := newNotcovered c s, holdoff := newHoldoff c s
      needUpdate := false }

/-! ### The scheduler -/

/-- `can_start_task`, runqueue.py:2015-2018. -/
def canStart (c : Cfg T P N) (s : St T P) : Bool := s.active + s.live.length < c.threads

/-- runqueue.py:254-264: the tasks of a name that were started and are not complete. -/
def sameName (c : Cfg T P N) (s : St T P) (n : N) : Nat :=
  (s.running.filter fun r => r ∉ s.complete && c.name r = n).length

/-- runqueue.py:269, 286: the limit for the name of the task is reached. -/
def limited (c : Cfg T P N) (s : St T P) (t : T) : Bool :=
  match c.nameLimit (c.name t) with
  | none => false
  | some n => 0 < sameName c s (c.name t) && n ≤ sameName c s (c.name t)

/-- runqueue.py:240-245: the tasks that could be started. -/
def candidates (s : St T P) : List T :=
  s.sched.filter fun t => t ∉ s.running && t ∉ s.holdoff && (t ∈ s.covered || t ∈ s.notcovered)

/-- runqueue.py:280-294: the first in the order of the scheduler. -/
def best (c : Cfg T P N) (l : List T) : Option T :=
  l.foldl (fun b t =>
    match b with
    | none => some t
    | some x => if c.prio t < c.prio x then some t else some x) none

/-- `next_buildable_task` and `next`, runqueue.py:235-301.  The short cut for a single candidate,
lines 266-273, gives the same. -/
def next (c : Cfg T P N) (env : Env T) (s : St T P) : Option T :=
  if canStart c s = false then none
  else if candidates s = [] then none
  else if s.active ≠ 0 ∧ env.pressure = true then none
  else best c ((candidates s).filter fun t =>
    !limited c s t && c.stamp t ∉ s.stamps.map Prod.snd)

/-! ### `execute` -/

/-- The result of the search for a setscene task: `execute` returns, a task is to be started, or
there is none. -/
inductive Pick (T P : Type) where
  | ret (s : St T P)
  | task (t : T) (s : St T P)
  | none (s : St T P)

/-- runqueue.py:2183. -/
def eligible (c : Cfg T P N) (s : St T P) (t : T) : Bool :=
  t ∈ s.sqBuildable && t ∉ s.sqRunning && c.stamp t ∉ s.stamps.map Prod.snd && t ∉ s.hardDeferred

/-- runqueue.py:2184-2188. -/
def notNeeded (c : Cfg T P N) (env : Env T) (s : St T P) (t : T) : Bool :=
  t ∉ c.sc.unskippable && c.sc.revdeps t ≠ [] && t ∉ s.hardNeeded &&
    subset (c.sc.revdeps t) s.scCovered && env.unneeded t && t ∉ c.targets

/-- runqueue.py:2222-2229. -/
def pickTail (c : Cfg T P N) (env : Env T) (t : T) (s : St T P) : Pick T P :=
  if t ∈ s.outright then .ret (failOutright c env t s) else .task t s

/-- runqueue.py:2182-2229.  The loop of lines 2209-2211 has no effect. -/
def pick (c : Cfg T P N) (env : Env T) : List T → St T P → Pick T P
  | [], s => .none s
  | t :: ts, s =>
    if eligible c s t = false then pick c env ts s
    else if notNeeded c env s t then
      let s := sqSkip c env (.sunneeded t) t s
      .ret { s with deferred := s.deferred.filter fun e => e.1 ≠ t }
    else if subset (c.hardRev t) (s.scCovered ++ s.scNot) = false then
      let new := (c.hardRev t).filter fun d => d ∉ s.hardNeeded
      let s' :=
        { s with
          sqBuildable := union s.sqBuildable new, hardNeeded := union s.hardNeeded new
          hardDeferred := union s.hardDeferred [t] }
      if new ≠ [] then .ret s' else pick c env ts s'
    else
      match s.deferred.lookup t with
      | some b =>
        if b ∉ s.complete then pick c env ts s
        else
          let s := { s with deferred := s.deferred.filter fun e => e.1 ≠ t }
          if env.valid t = false then .ret (failOutright c env t s) else pickTail c env t s
      | none => pickTail c env t s

/-- `summarise_scenequeue_errors`, runqueue.py:2122-2163. -/
def sceneError (c : Cfg T P N) (s : St T P) : Bool :=
  s.deferred ≠ [] || s.holdoff ≠ [] ||
  c.setscene.any (fun t => (t ∉ s.scCovered && t ∉ s.scNot) || t ∉ s.sqBuildable || t ∉ s.sqRunning) ||
  c.g.tasks.any fun x => (x ∉ s.covered && x ∉ s.notcovered) || x ∉ s.done ||
    (c.g.deps x = [] && x ∉ s.buildable)

/-- runqueue.py:2409-2418: the last checks. -/
def unfinished (c : Cfg T P N) (s : St T P) : Bool :=
  c.g.tasks.any fun t => t ∉ s.buildable || t ∉ s.running || t ∉ s.complete

/-- runqueue.py:2392-2425: nothing was started. -/
def finishStep (c : Cfg T P N) (s : St T P) : St T P :=
  if 0 < s.active ∨ s.live ≠ [] then s
  else
    match s.deferred with
    | _ :: rest => { s with deferred := rest }
    | [] =>
      if s.failed ≠ [] then { s with mode := .failed }
      else if sceneError c s || unfinished c s then { s with mode := .failed }
      else { s with mode := .complete }

/-- `check_setscene_ignore_tasks`, runqueue.py:2824-2849, with the test of line 2319. -/
def ignored (c : Cfg T P N) (env : Env T) (s : St T P) (t : T) : Bool :=
  match c.allowed with
  | none => false
  | some ok => t ∉ s.covered && !env.stampNow t && !c.noexec t && !ok t

/-- runqueue.py:2316-2390: task `t` is the next. -/
def runTask (c : Cfg T P N) (env : Env T) (t : T) (s : St T P) : St T P :=
  if ignored c env s t then taskFail c t s
  else if t ∈ s.covered then taskSkip c env (.covered t) t s
  else if env.stampNow t then taskSkip c env (.existing t) t s
  else if c.noexec t then
    taskComplete c env t
      { s with running := union s.running [t], active := s.active + 1, log := .noexec t :: s.log }
  else
    let s :=
      { s with
        stamps := s.stamps ++ [(t, c.stamp t)], running := union s.running [t]
        active := s.active + 1, log := .start t :: s.log }
    if canStart c s then s else finishStep c s

/-- runqueue.py:2312-2425. -/
def tasksStep (c : Cfg T P N) (env : Env T) (s : St T P) : St T P :=
  match if c.setsceneOnly then none else next c env s with
  | some t => runTask c env t s
  | none => finishStep c s

/-- runqueue.py:2292-2425. -/
def executeRest (c : Cfg T P N) (env : Env T) (s : St T P) : St T P :=
  let s := updateHoldoff c s
  if s.live = [] ∧ s.sqdone = false ∧ s.deferred = [] ∧ s.holdoff = [] then
    if sceneError c s then { s with mode := .failed }
    else if c.setsceneOnly then { s with mode := .complete }
    else if c.g.tasks = [] then { s with sqdone := true, mode := .complete }
    else tasksStep c env { s with sqdone := true }
  else tasksStep c env s

/-- runqueue.py:2230-2290: setscene task `t` was found. -/
def sceneStep (c : Cfg T P N) (env : Env T) (t : T) (s : St T P) : St T P :=
  if env.stampRec t then failOutright c env t s
  else if c.force = true ∧ t ∈ c.targets then failOutright c env t s
  else if env.sstampNow t then sqSkip c env (.spresent t) t s
  else if c.skipSetscene then failOutright c env t s
  else
    let s :=
      { s with
        stamps := s.stamps ++ [(t, c.sstamp t)], sqRunning := union s.sqRunning [t]
        live := union s.live [t], log := .sstart t :: s.log }
    if canStart c s then s else executeRest c env s

/-- `execute`, runqueue.py:2166-2425. -/
def execute (c : Cfg T P N) (env : Env T) (s : St T P) : St T P :=
  match if s.sqdone = false ∧ canStart c s = true then pick c env c.setscene s else .none s with
  | .ret s => s
  | .task t s => sceneStep c env t s
  | .none s => executeRest c env s

/-- `runqueue_process_waitpid`, runqueue.py:1936-1955: a worker reports that a task has ended.  A
setscene task that fails ends the build if `BB_SETSCENE_ENFORCE` is set, runqueue.py:2755-2762. -/
def waitpid (c : Cfg T P N) (env : Env T) (t : T) (success : Bool) (s : St T P) : St T P :=
  let s := { s with stamps := s.stamps.filter fun e => e.1 ≠ t }
  if t ∈ s.live then
    let s :=
      if success then
        updateCounters c env c.fuel t false
          { s with scCovered := union s.scCovered [t], log := .sdone t :: s.log }
      else
        let s := updateCounters c env c.fuel t true
          { s with scNot := union s.scNot [t], log := .sfail t :: s.log }
        match c.allowed with
        | none => s
        | some ok => if ok t then s else { s with mode := .cleanup }
    { s with live := s.live.filter fun x => x ≠ t }
  else if success then taskComplete c env t { s with log := .done t :: s.log }
  else taskFail c t s

/-- `finish`, runqueue.py:1980-1994. -/
def finish (s : St T P) : St T P :=
  if 0 < s.active + s.live.length then s
  else if s.failed ≠ [] then { s with mode := .failed }
  else { s with mode := .complete }

/-! ### The beginning -/

/-- `RunQueueExecute.__init__`, runqueue.py:1837-1902, and what `build_scenequeue_data` sets in it,
runqueue.py:2955-2962, 3032-3033. -/
def empty (c : Cfg T P N) : St T P :=
  let first := c.sc.unskippable.filter fun t => t ∉ c.setscene && c.g.deps t = []
  { buildable := first, sched := first, running := [], complete := [], failed := [], active := 0
    stamps := [], sqBuildable := c.setscene.filter fun t => c.sc.revdeps t = [], sqRunning := []
    live := [], scCovered := [], scNot := []
    done := c.sc.unskippable.filter fun t => t ∉ c.setscene
    covered := [], notcovered := [], holdoff := [], needUpdate := true
    deferred := c.deferred, hardNeeded := [], hardDeferred := [], outright := [], sqdone := false
    mode := .running, log := [] }

/-- The state before the first step: runqueue.py:1824-1934 and, without setscene tasks, 1592-1598. -/
def initial (c : Cfg T P N) (env : Env T) : St T P :=
  let s := updateScene c env c.setscene (empty c)
  if c.setscene = [] then
    let s := setBuildable (c.g.tasks.filter fun t => c.g.deps t = []) s
    { s with notcovered := union s.notcovered c.g.tasks, sqdone := true }
  else s

/-- The states that a build can reach.  `_execute_runqueue`, runqueue.py:1602-1606, calls `execute` or
`finish`; workers report the tasks that they were given, at any time; the user can ask to stop
(`finish_runqueue`, runqueue.py:1658-1666). -/
inductive Reach (c : Cfg T P N) : St T P → Prop where
  | init (env : Env T) : Reach c (initial c env)
  | step (env : Env T) {s : St T P} (h : Reach c s) (hm : s.mode = .running) :
      Reach c (execute c env s)
  | report (env : Env T) (t : T) (success : Bool) {s : St T P} (h : Reach c s)
      (hm : s.mode = .running ∨ s.mode = .cleanup) (ht : t ∈ s.stamps.map Prod.fst) :
      Reach c (waitpid c env t success s)
  | stop {s : St T P} (h : Reach c s) (hm : s.mode = .running) : Reach c { s with mode := .cleanup }
  | finish {s : St T P} (h : Reach c s) (hm : s.mode = .cleanup) : Reach c (finish s)

end

end Bb.Rq
