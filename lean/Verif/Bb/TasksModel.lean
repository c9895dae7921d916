import Verif.Py.Str
/-!
# The tasks of a recipe

Model of `addtask` and `deltask` in `bitbake/lib/bb/build.py`, and of what `add_tasks` and `bitbake/lib/bb/taskdata.py` make
of them.  Names are not expanded.
-/

namespace Bb.Tasks
open Py

/-- The variable `__BBTASKS` and the flag `deps` of the tasks. -/
structure State where
  tasks : List Str
  deps : Str → List Str

/-- build.py:934-935, 958-959 -/
def full (t : Str) : Str := if t.take 3 = "do_".toList then t else "do_".toList ++ t

/-- Appends if it is not there. -/
def addNew (l : List Str) (x : Str) : List Str := if x ∈ l then l else l ++ [x]

def setDeps (deps : Str → List Str) (t : Str) (v : List Str) : Str → List Str := fun x => if x = t then v else deps x

/-- build.py:933-955; `before` and `after` have been split, and are empty if they are not given. -/
def addtask (st : State) (t : Str) (before after : List Str) : State where
  tasks := addNew st.tasks (full t)
  deps := before.foldl (fun d e => if full t ∈ d e then d else setDeps d e (full t :: d e))
    (setDeps st.deps (full t) (after.foldl addNew (st.deps (full t))))

/-- build.py:957-972 -/
def deltask (st : State) (t : Str) : State where
  tasks := st.tasks.erase (full t)
  deps := (st.tasks.erase (full t)).foldl (fun d b => if full t ∈ d b then setDeps d b ((d b).erase (full t)) else d)
    (setDeps st.deps (full t) [])

/-- The lines of a recipe. -/
inductive Ev where
  | add (t : Str) (before after : List Str)
  | del (t : Str)
deriving DecidableEq

def step (st : State) : Ev → State
  | .add t b a => addtask st t b a
  | .del t => deltask st t

/-- All lines, in order. -/
def run (evs : List Ev) : State := evs.foldl step ⟨[], fun _ => []⟩

/-- build.py:922-928 and taskdata.py:110-118: the tasks of the same recipe that run before a task. -/
def tdepends (st : State) (t : Str) : List Str := if t ∈ st.tasks then (st.deps t).filter (· ∈ st.tasks) else []

end Bb.Tasks
