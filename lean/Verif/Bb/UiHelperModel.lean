/-!
# What the user interface knows about running tasks

Model of bitbake/lib/bb/ui/uihelper.py, `BBUIHelper`.  Dictionaries are lists of keys and values in the order in which the keys came in.
Left out are the numbers of tasks (uihelper.py:52-57), the time and the rate.  Titles are replaced by the names of the tasks.
-/

namespace Bb.UiHelper

/-- `event._fn + ":" + event._task` -/
abbrev Tid := Nat
abbrev Pid := Nat

/-- Kinds of ends: `TaskSucceeded`, `TaskFailedSilent`, `TaskFailed`. -/
inductive Kind where
  | succeeded
  | silent
  | failed
deriving DecidableEq

inductive Ev where
  | started (t : Tid) (p : Pid)
  | ended (t : Tid) (p : Pid) (k : Kind)
  | progress (p : Pid) (v : Int)
  /-- events that are not for the helper -/
  | other
deriving DecidableEq

/-- An entry of `running_tasks`. -/
structure Info where
  pid : Pid
  progress : Option Int
deriving DecidableEq

def dget {α β : Type} [DecidableEq α] (d : List (α × β)) (k : α) : Option β := (d.find? (·.1 = k)).map (·.2)

/-- `d[k] = v` -/
def dset {α β : Type} [DecidableEq α] (d : List (α × β)) (k : α) (v : β) : List (α × β) :=
  if d.any (·.1 = k) then d.map (fun e => if e.1 = k then (k, v) else e) else d ++ [(k, v)]

/-- `del d[k]` -/
def ddel {α β : Type} [DecidableEq α] (d : List (α × β)) (k : α) : Option (List (α × β)) :=
  if d.any (·.1 = k) then some (d.filter (·.1 ≠ k)) else none

/-- uihelper.py:12-20 -/
structure S where
  running : List (Tid × Info) := []
  pids : List Tid := []
  failed : List Tid := []
  pidmap : List (Pid × Tid) := []
deriving DecidableEq

/-- uihelper.py:25-30, `removetid`; nothing stands for an exception. -/
def removetid (s : S) (p : Pid) (t : Tid) : Option S :=
  if t ∈ s.pids then
    match ddel s.running t with
    | none => none
    | some running =>
      match dget s.pidmap p with
      | none => none
      | some t' =>
        if t' = t then
          some { s with running := running, pids := s.pids.erase t, pidmap := s.pidmap.filter (·.1 ≠ p) }
        else some { s with running := running, pids := s.pids.erase t }
  else none

/-- uihelper.py:22-65, `eventHandler` -/
def handle (s : S) : Ev → Option S
  | .started t p => some { s with running := dset s.running t ⟨p, none⟩, pids := s.pids ++ [t], pidmap := dset s.pidmap p t }
  | .ended t p .failed => (removetid s p t).map fun s => { s with failed := s.failed ++ [t] }
  | .ended t p _ => removetid s p t
  | .progress p v =>
    if p > 0 then
      match dget s.pidmap p with
      | none => some s
      | some t =>
        match dget s.running t with
        | none => none
        | some i => some { s with running := dset s.running t { i with progress := some v } }
    else some s
  | .other => some s

/-- The events one after the other; an exception ends the user interface, which stops the build (knotty.py:679, 930-940). -/
def handleAll : S → List Ev → Option S
  | s, [] => some s
  | s, e :: es => (handle s e).bind fun s => handleAll s es

end Bb.UiHelper
