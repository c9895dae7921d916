import Verif.Py.Sort

/-!
# Terminals for developers

Model of meta/lib/oe/terminal.py, meta/lib/oe/classutils.py (`prioritized`) and the choice in meta/classes/terminal.bbclass.  What a terminal needs other than a display (its program, a running tmux, a command in
`OE_TERMINAL_CUSTOMCMD`) is one condition; priorities are whole numbers (in hundredths); waiting for the end of the command is left out.
-/

namespace Isar.Meta.Term

open Py

/-- terminal.py:33-53: a class of terminals that is registered; `x`: derived from `XTerminal` -/
structure Terminal where
  name : Str
  priority : Nat
  x : Bool
deriving DecidableEq

/-- terminal.py:36-57 and 228-257, the machine: what is there for a terminal, whether `DISPLAY` is set, and whether a terminal ends with the code 0 -/
structure World where
  present : Str → Bool
  display : Bool
  succeeds : Str → Bool

/-- terminal.py:228-257: how `spawn` ends -/
inductive Outcome
  | ok
  | unsupported
  | failed
deriving DecidableEq

/-- terminal.py:36-57 and 228-257, `spawn` of a registered terminal: whether the program is started, and the outcome; `XTerminal` looks for the display when the program is started already -/
def spawn (w : World) (t : Terminal) : Bool × Outcome :=
  if w.present t.name = false then (false, .unsupported)
  else if t.x = true ∧ w.display = false then (true, .unsupported)
  else if w.succeeds t.name = true then (true, .ok)
  else (true, .failed)

/-- classutils.py:43: the key `(priority, name)`, in reverse -/
def before (a b : Terminal) : Bool := decide (b.priority < a.priority) || (decide (a.priority = b.priority) && strLe b.name a.name)

/-- classutils.py:41-44, `prioritized` -/
def prioritized (ts : List Terminal) : List Terminal := sortBy before ts

/-- terminal.py:216-226: the loop of `spawn_preferred`; the names of the programs that are started, and the terminal that is open in the end -/
def tryAll (w : World) : List Terminal → List Str × Option Str
  | [] => ([], none)
  | t :: ts =>
    let (started, outcome) := spawn w t
    let here := if started then [t.name] else []
    if outcome = .ok then (here, some t.name)
    else
      let (more, result) := tryAll w ts
      (here ++ more, result)

/-- terminal.bbclass:88-111: the choice for `OE_TERMINAL`; no terminal is an error -/
def openTerminal (w : World) (ts : List Terminal) (setting : Str) : List Str × Option Str :=
  if setting = ['n', 'o', 'n', 'e'] then ([], none)
  else if setting = ['a', 'u', 't', 'o'] then tryAll w (prioritized ts)
  else
    match ts.find? (fun t => t.name = setting) with
    | none => tryAll w (prioritized ts)
    | some t =>
      let (started, outcome) := spawn w t
      let here := if started then [t.name] else []
      match outcome with
      | .ok => (here, some t.name)
      | .failed => (here, none)
      | .unsupported =>
        let (more, result) := tryAll w (prioritized ts)
        (here ++ more, result)

end Isar.Meta.Term
