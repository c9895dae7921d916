/-!
# Model of the task graph of the run queue: `bitbake/lib/bb/runqueue.py`

Tasks are of any type with decidable equality.  Sets are lists without repetitions, in any order;
where Python iterates over a set or a dictionary the model iterates over the list.
-/

namespace Bb.Rq

variable {T : Type} [DecidableEq T]

/-- `runtaskentries`: the tasks, and `depends` of each.  runqueue.py:445-452. -/
structure Graph (T : Type) where
  tasks : List T
  deps : T → List T

/-- What `prepare` relies on: sets have no repetitions, the dependencies of a task are tasks
(runqueue.py:753-800 looks them up or takes them from `addtask`), and self references are removed
(runqueue.py:822-824). -/
structure Graph.Ok (g : Graph T) : Prop where
  nodup : g.tasks.Nodup
  depsNodup : ∀ t ∈ g.tasks, (g.deps t).Nodup
  closed : ∀ t ∈ g.tasks, ∀ d ∈ g.deps t, d ∈ g.tasks
  noSelf : ∀ t ∈ g.tasks, t ∉ g.deps t

/-- An entry of a dictionary is replaced. -/
def upd {α : Type} (f : T → α) (k : T) (v : α) : T → α := fun x => if x = k then v else f x

/-! ### Step B: the tasks that are needed -/

/-- `mark_active`, runqueue.py:938-951: a depth first search.  The argument `fuel` bounds the depth
of the recursion. -/
def markActive (g : Graph T) : Nat → T → List T → List T
  | 0, _, build => build
  | fuel + 1, tid, build =>
    if tid ∈ build then build
    else (g.deps tid).foldl (fun b d => markActive g fuel d b) (tid :: build)

/-- A target of the build: a task, or with a name that ends in `-` only what the task depends on. -/
inductive Target (T : Type) where
  | run (t : T)
  | parents (t : T)

/-- runqueue.py:967-1005: one target after the other. -/
def markTarget (g : Graph T) (fuel : Nat) (build : List T) : Target T → List T
  | .run t => markActive g fuel t build
  | .parents t => (g.deps t).foldl (fun b d => markActive g fuel d b) build

/-- runqueue.py:660, 967-1005: `runq_build`. -/
def marked (g : Graph T) (targets : List (Target T)) : List T :=
  targets.foldl (markTarget g (g.tasks.length + 1)) []

/-- Step C, runqueue.py:1044-1048, without `--runall`: the other tasks are removed. -/
def prune (g : Graph T) (targets : List (Target T)) : Graph T :=
  { g with tasks := g.tasks.filter fun t => t ∈ marked g targets }

/-- runqueue.py:1057-1075, `--runonly`: the tasks of certain names, and what they need. -/
def runOnly (g : Graph T) (only : T → Bool) : Graph T :=
  prune g ((g.tasks.filter only).map Target.run)

/-! ### Step D: reverse dependencies, weights and circular dependencies -/

/-- runqueue.py:1098-1101: the reverse dependencies. -/
def Graph.revdeps (g : Graph T) (t : T) : List T := g.tasks.filter fun x => t ∈ g.deps x

/-- runqueue.py:1108-1112: the tasks that nothing depends on. -/
def Graph.endpoints (g : Graph T) : List T := g.tasks.filter fun t => (g.revdeps t).isEmpty

/-- runqueue.py:1113-1115: two tasks that depend on each other. -/
def Graph.pairLoop (g : Graph T) : Bool :=
  g.tasks.any fun t => (g.revdeps t).any fun d => d ∈ g.deps t

/-- The variables of `calculate_task_weights`, runqueue.py:604-606, 618. -/
structure W (T : Type) where
  weight : T → Nat
  left : T → Int
  done : T → Bool
  next : List T

/-- runqueue.py:608-615. -/
def Graph.init (g : Graph T) : W T where
  weight t := if t ∈ g.endpoints then 10 else 1
  left t := (g.revdeps t).length
  done t := t ∈ g.endpoints
  next := []

/-- runqueue.py:620-625: one dependency of one endpoint. -/
def relax (tid : T) (w : W T) (dep : T) : W T :=
  let weight := upd w.weight dep (w.weight dep + w.weight tid)
  let left := upd w.left dep (w.left dep - 1)
  if left dep = 0 then
    { weight := weight, left := left, next := w.next ++ [dep], done := upd w.done dep true }
  else { w with weight := weight, left := left }

/-- runqueue.py:618-625: one pass over the endpoints. -/
def Graph.pass (g : Graph T) (endpoints : List T) (w : W T) : W T :=
  endpoints.foldl (fun w tid => (g.deps tid).foldl (relax tid) w) { w with next := [] }

/-- runqueue.py:617-628.  The argument `fuel` bounds the number of passes. -/
def Graph.passes (g : Graph T) : Nat → List T → W T → W T
  | 0, _, w => w
  | fuel + 1, endpoints, w =>
    let w' := g.pass endpoints w
    if w'.next = [] then w' else g.passes fuel w'.next w'

/-- runqueue.py:594-628: the variables at the end. -/
def Graph.final (g : Graph T) : W T := g.passes (g.tasks.length + 1) g.endpoints g.init

/-- runqueue.py:630-634: the tasks that cannot be built. -/
def Graph.problems (g : Graph T) : List T :=
  g.tasks.filter fun t => g.final.done t = false ∨ g.final.left t ≠ 0

/-- runqueue.py:1108-1125 and 594-652: the weights, or a fatal error. -/
def Graph.weights (g : Graph T) : Except String (T → Nat) :=
  if g.pairLoop then .error "circular dependency"
  else if g.problems = [] then .ok g.final.weight
  else .error "unbuildable tasks were found"

/-! ### Schedulers -/

/-- `RunQueueSchedulerSpeed`, runqueue.py:321-346: the tasks by weight, the heaviest first; of the
same weight the last first.  `sorted` of the weights is an insertion sort here. -/
def insertW (x : Nat) : List Nat → List Nat
  | [] => [x]
  | y :: l => if x < y then x :: y :: l else if x = y then y :: l else y :: insertW x l

/-- The weights in ascending order, each once. -/
def sortedWeights (ws : List Nat) : List Nat := ws.foldl (fun l x => insertW x l) []

/-- runqueue.py:334-346. -/
def prioSpeed (tasks : List T) (weight : T → Nat) : List T :=
  ((sortedWeights (tasks.map weight)).flatMap fun w => tasks.filter fun t => weight t = w).reverse

/-- runqueue.py:435-442: the tasks of one name move to the front, behind those moved before.  Both
are kept as two lists: `front` is `prio_map[:task_index]`. -/
def moveName {N : Type} [DecidableEq N] (name : T → N) (s : List T × List T) (n : N) :
    List T × List T :=
  (s.1 ++ s.2.filter (fun t => name t = n), s.2.filter (fun t => name t ≠ n))

/-- runqueue.py:383-402: one task of a recipe goes into the list of names of tasks.  The state is the
list and `index`; `old_task` is the entry at the index, or nothing. -/
def mergeTask {N : Type} [DecidableEq N] (s : List N × Nat) (new : N) : List N × Nat :=
  if s.1[s.2]? = some new then (s.1, s.2 + 1)
  else if new ∈ s.1 then (s.1, s.1.idxOf new + 1)
  else (s.1.insertIdx s.2 new, s.2 + 1)

/-- runqueue.py:379-408: the names of the tasks of all recipes, in the order in which they are
considered. -/
def mergedNames {N : Type} [DecidableEq N] (taskLists : List (List N)) : List N :=
  (taskLists.foldl (fun all l => (l.foldl mergeTask (all, 0)).1) []).reverse

/-- `RunQueueSchedulerCompletion`, runqueue.py:433-442, with the list of the names of tasks as an
argument. -/
def prioCompletion {N : Type} [DecidableEq N] (name : T → N) (allTasks : List N) (prio : List T) :
    List T :=
  let s := allTasks.foldl (moveName name) ([], prio)
  s.1 ++ s.2

end Bb.Rq
