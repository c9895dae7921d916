import Verif.Py.Dict
/-!
# Handlers of events

Model of `register`, `remove`, `fire_class_handlers` and `set_class_handlers` in `bitbake/lib/bb/event.py`, of the registering
of handlers in `finalize` (`bitbake/lib/bb/parse/ast.py`) and in `parseConfigurationFiles` (`bitbake/lib/bb/cookerdata.py`).

The code of a handler is of some type `C`.  Left out: handlers that are not Python, the filter of toaster, handlers of user
interfaces.
-/

namespace Bb.Event
open Py

/-- A handler as it is declared with `addhandler`: its name, its code and the flag `eventmask`. -/
structure Handler (C : Type) where
  name : Str
  code : C
  mask : List Str
deriving DecidableEq

/-- event.py:61-66, `_handlers`, `_event_handler_map` (as pairs of events and names) and `_catchall_handlers`. -/
structure Reg (C : Type) where
  handlers : List (Str × C)
  masks : List (Str × Str)
  catchall : List Str
deriving DecidableEq

/-- event.py:243-245: the name in a configuration. -/
def regName (mc name : Str) : Str := if mc = [] then name else mc.map (fun c => if c = '-' then '_' else c) ++ name

section
variable {C : Type}

/-- event.py:240-295, `register`.  The second part is the variable `__BBHANDLERS_MC`. -/
def register (mc : Str) (r : Reg C × List Str) (h : Handler C) : Reg C × List Str :=
  let n := regName mc h.name
  if n ∈ r.1.handlers.map (·.1) then (r.1, n :: r.2)
  else
    let reg := { r.1 with handlers := r.1.handlers ++ [(n, h.code)] }
    (if h.mask = [] ∨ ['*'] ∈ h.mask then { reg with catchall := n :: reg.catchall }
     else { reg with masks := h.mask.map (·, n) ++ reg.masks }, n :: r.2)

/-- ast.py:394-400 and cookerdata.py:484-490: all handlers of a recipe or a configuration. -/
def registerAll (mc : Str) (r : Reg C × List Str) (hs : List (Handler C)) : Reg C × List Str := hs.foldl (register mc) r

/-- event.py:297-315, `remove`; a name that is not there is an exception, and nothing changes. -/
def remove (n : Str) (r : Reg C) : Reg C :=
  if n ∈ r.handlers.map (·.1) then
    ⟨r.handlers.filter (·.1 ≠ n), r.masks.filter (·.2 ≠ n), r.catchall.filter (· ≠ n)⟩
  else r

/-- event.py:118-131, `fire_class_handlers`: the handlers that are called, in their order. -/
def fire (r : Reg C) (mine : List Str) (e : Str) : List (Str × C) :=
  r.handlers.filter fun h => (decide (h.1 ∈ r.catchall) || decide ((e, h.1) ∈ r.masks)) && decide (h.1 ∈ mine)

/-- What happens to the handlers of a process. -/
inductive Op (C : Type) where
  /-- cookerdata.py:230: a new configuration is read. -/
  | reset
  /-- The handlers of a configuration. -/
  | config (mc : Str) (hs : List (Handler C))
  /-- ast.py:387-423: a recipe is finalized; the handlers up to some error, or all. -/
  | recipe (mc : Str) (mine : List Str) (hs : List (Handler C))
  /-- runqueue.py:1569 and 1611 -/
  | remove (n : Str)

def step (r : Reg C) : Op C → Reg C
  | .reset => { r with handlers := [] }
  | .config mc hs => (registerAll mc (r, []) hs).1
  | .recipe mc mine hs => { (registerAll mc (r, mine) hs).1 with handlers := r.handlers }
  | .remove n => remove n r

/-- All that has happened since the process was started. -/
def run (ops : List (Op C)) : Reg C := ops.foldl step ⟨[], [], []⟩

/-- ast.py:394-423: the handlers that are called for an event of a recipe, by the process in which all this has happened.
`cs` are the handlers of its configuration, `hs` its own. -/
def called (ops : List (Op C)) (mc : Str) (cs hs : List (Handler C)) (e : Str) : List (Str × C) :=
  let r := registerAll mc (run ops, cs.map fun h => regName mc h.name) hs
  fire r.1 r.2 e

end

end Bb.Event
