import Verif.Bb.RqGraphModel
/-!
# Model of `build_scenequeue_data`: `bitbake/lib/bb/runqueue.py`

A setscene task is a task whose result can be taken from the shared state cache.  The graph of all
tasks is collapsed to one that has only setscene tasks.  Sets are lists; dictionaries whose order of
iteration matters are lists of pairs.
-/

namespace Bb.Rq

variable {T : Type} [DecidableEq T]

/-- `a | b`. -/
def union (a b : List T) : List T := a ++ b.filter fun x => x ∉ a

/-- `dict[k] = v`: the place of a key that is there does not change. -/
def setKey {α : Type} (l : List (T × α)) (k : T) (v : α) : List (T × α) :=
  if k ∈ l.map Prod.fst then l.map fun e => if e.1 = k then (k, v) else e else l ++ [(k, v)]

/-- runqueue.py:2905-2908: `if k not in dict: dict[k] = set()` and `dict[k].add(v)`. -/
def addKey (l : List (T × List T)) (k v : T) : List (T × List T) :=
  if k ∈ l.map Prod.fst then l.map fun e => if e.1 = k then (k, union e.2 [v]) else e
  else l ++ [(k, [v])]

/-- `SQData`, runqueue.py:2851-2867: the fields that `build_scenequeue_data` computes from the graph.
The hard dependencies and the stamps come from the recipes and are arguments of the execution. -/
structure Scene (T : Type) where
  revdeps : T → List T
  deps : T → List T
  cov : T → List T
  unskippable : List T
  cantskip : List T

/-- The local variables `sq_revdeps`, `sq_revdeps_squash`, `sq_collated_deps`, `newendpoints`. -/
structure PE (T : Type) where
  rev : T → List T
  squash : T → List T
  cov : T → List T
  new : List (T × List T)

/-- runqueue.py:2927-2933: one dependency of an endpoint. -/
def pointDep (S : List T) (point : T) (task tasks : List T) (p : PE T) (dep : T) : PE T :=
  let rev := upd p.rev dep ((p.rev dep).filter fun x => x ≠ point)
  { p with
    rev := rev
    squash := if tasks = [] then p.squash else upd p.squash dep (union (p.squash dep) tasks)
    new := if rev dep = [] ∧ dep ∉ S then setKey p.new dep task else p.new }

/-- runqueue.py:2914-2933: one endpoint. -/
def point (g : Graph T) (S : List T) (p : PE T) (e : T × List T) : PE T :=
  let tasks := union e.2 (p.squash e.1)
  if e.1 ∈ S then { p with squash := upd p.squash e.1 tasks }
  else (g.deps e.1).foldl (pointDep S e.1 e.2 tasks)
    { p with
      cov := fun s => if s ∈ tasks then union (p.cov s) [e.1] else p.cov s
      squash := upd p.squash e.1 [] }

/-- `process_endpoints`, runqueue.py:2912-2935.  The argument `fuel` bounds the depth of the
recursion. -/
def points (g : Graph T) (S : List T) : Nat → List (T × List T) → PE T → PE T
  | 0, _, p => p
  | fuel + 1, E, p =>
    let p' := E.foldl (point g S) { p with new := [] }
    if p'.new = [] then p' else points g S fuel p'.new p'

/-- runqueue.py:2899-2908: the dependencies of one setscene task become endpoints. -/
def startDep (tid : T) (s : (T → List T) × List (T × List T)) (dep : T) :
    (T → List T) × List (T × List T) :=
  (upd s.1 dep ((s.1 dep).filter fun x => x ≠ tid), addKey s.2 dep tid)

/-- runqueue.py:2888-2908: `sq_revdeps` and the first endpoints. -/
def start (g : Graph T) (S : List T) : (T → List T) × List (T × List T) :=
  S.foldl (fun s tid => (g.deps tid).foldl (startDep tid) s)
    (g.revdeps, (g.tasks.filter fun t => (g.revdeps t).isEmpty ∧ t ∉ S).map fun t => (t, []))

/-- runqueue.py:2888-2937: the local variables after `process_endpoints(endpoints)`. -/
def collapse (g : Graph T) (S : List T) : PE T :=
  points g S (g.tasks.length + 1) (start g S).2
    { rev := (start g S).1, squash := fun _ => [], cov := fun _ => [], new := [] }

/-- runqueue.py:2951-2960: one pass of the loop. -/
def unskipRound (g : Graph T) (S : List T) (u : List T) : List T :=
  u.foldl (fun u' t => if t ∈ S then u' else union u' (g.deps t)) u

/-- runqueue.py:2949-2960: until nothing changes.  The argument `fuel` bounds the number of
passes. -/
def unskipLoop (g : Graph T) (S : List T) : Nat → List T → List T
  | 0, u => u
  | fuel + 1, u =>
    if (unskipRound g S u).all (fun x => x ∈ u) then u else unskipLoop g S fuel (unskipRound g S u)

/-- runqueue.py:2876-2878: targets that are not setscene tasks. -/
def cantskip (g : Graph T) (S targets : List T) : List T :=
  targets.filter fun t => t ∉ S ∧ t ∈ g.tasks

/-- runqueue.py:2944-2960. -/
def unskippable (g : Graph T) (S targets : List T) : List T :=
  unskipLoop g S (g.tasks.length + 1) (union g.endpoints (cantskip g S targets))

/-- `build_scenequeue_data`, runqueue.py:2869-3025; `none` is the fatal error of lines 2967-2971. -/
def scene (g : Graph T) (S targets : List T) : Option (Scene T) :=
  if g.tasks.any (fun t => t ∉ S ∧ (collapse g S).squash t ≠ []) then none
  else some
    { revdeps := (collapse g S).squash
      deps := fun t => S.filter fun x => t ∈ (collapse g S).squash x
      cov := (collapse g S).cov
      unskippable := unskippable g S targets
      cantskip := cantskip g S targets }

end Bb.Rq
