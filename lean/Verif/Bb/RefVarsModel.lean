import Verif.Py.Str

/-!
# Variables that an expression refers to

Model of bitbake/lib/bb/utils.py:1108-1142, `get_referenced_vars`.  What an expression refers to directly is a parameter: `start` for the expression, `refs` for the value of a variable
(nothing for one that is not set); these are sets in the code, here lists without repetition in any order.
-/

namespace Isar.Bb.RefVars

open Py

/-- utils.py:1123-1141: the loop for names of variables, `queue` and `seen` as there; the loop ends when the queue is empty, `none` is a loop that needs more steps. -/
def loop (refs : Str → List Str) : Nat → List Str → List Str → List Str → Option (List Str)
  | _, [], _, ret => some ret
  | 0, _ :: _, _, _ => none
  | fuel + 1, entry :: queue, seen, ret =>
    let newVars := (refs entry).filter fun x => decide (x ∉ seen)
    loop refs fuel (queue ++ newVars) (seen ++ newVars) (ret ++ [entry])

/-- utils.py:1108-1142; the first entry is the expression itself -/
def referenced (refs : Str → List Str) (start : List Str) (fuel : Nat) : Option (List Str) := loop refs fuel start start []

end Isar.Bb.RefVars
