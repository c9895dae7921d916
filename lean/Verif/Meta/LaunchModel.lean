import Verif.Py.Str

/-!
# Calling a function in many processes

Model of meta/lib/oe/utils.py, `multiprocess_launch`.  Items are of any type; how the process for an item ends is a parameter, and which processes have ended when they are looked at is another one for each round of the loop.
-/

namespace Isar.Meta.Launch

/-- utils.py:272-303: how a process ends: with a result, with an exception, or without a message, when it is killed -/
inductive Outcome (β : Type)
  | result (r : β)
  | error (e : β)
  | killed

/-- utils.py:305-309: the variables of the loop; `items` in the order in which they are taken (`pop` takes the last), `finished` has the items whose processes have been removed -/
structure State (α β : Type) where
  items : List α
  launched : List α
  errors : List β
  results : List β
  finished : List α

/-- utils.py:318-329: one pass over the processes; what is left of them and what is removed; removing one from the list that is passed over skips the next -/
def pass {α : Type} (ended : α → Bool) : List α → List α × List α
  | [] => ([], [])
  | [q] => if ended q then ([], [q]) else ([q], [])
  | q :: r :: rest =>
    if ended q then
      let (left, gone) := pass ended rest
      (r :: left, q :: gone)
    else
      let (left, gone) := pass ended (r :: rest)
      (q :: left, gone)

/-- utils.py:325-326 -/
def errorOf {β : Type} : Outcome β → Option β
  | .error e => some e
  | _ => none

/-- utils.py:327-328: only a result that counts as true is kept -/
def resultOf {β : Type} (truth : β → Bool) : Outcome β → Option β
  | .result r => if truth r then some r else none
  | _ => none

/-- utils.py:310: the condition of the loop -/
def goesOn {α β : Type} (s : State α β) : Bool := (!s.items.isEmpty && s.errors.isEmpty) || !s.launched.isEmpty

/-- utils.py:311-329: one round of the loop -/
def round {α β : Type} (maxProcess : Nat) (truth : β → Bool) (outcome : α → Outcome β) (ended : α → Bool) (s : State α β) : State α β :=
  let s :=
    match s.items with
    | [] => s
    | i :: items => if s.errors.isEmpty && decide (s.launched.length < maxProcess) then { s with items := items, launched := s.launched ++ [i] } else s
  let (left, gone) := pass ended s.launched
  { s with launched := left, errors := s.errors ++ gone.filterMap (fun q => errorOf (outcome q)), results := s.results ++ gone.filterMap (fun q => resultOf truth (outcome q)), finished := s.finished ++ gone }

/-- utils.py:310-329: the loop for the given rounds -/
def run {α β : Type} (maxProcess : Nat) (truth : β → Bool) (outcome : α → Outcome β) : List (α → Bool) → State α β → State α β
  | [], s => s
  | ended :: rounds, s => if goesOn s then run maxProcess truth outcome rounds (round maxProcess truth outcome ended s) else s

/-- utils.py:305-309: the start -/
def start {α β : Type} (items : List α) : State α β := ⟨items.reverse, [], [], [], []⟩

end Isar.Meta.Launch
