import Verif.Py.Dict
/-!
# What is sent and stored of the dependencies of variables

Model of `SiggenRecipeInfo._save`, `_restore`, `__getstate__` and `__setstate__` in `bitbake/lib/bb/cache.py`.

A process numbers the sets that it writes and writes each only once.  The one that reads keeps what the numbers of each
process stand for.  Sets are of some type `V`.  `store`, where equal sets become the same object, is left out.
-/

namespace Bb.Save

/-- A dictionary from variables to sets; some have `None`. -/
abbrev Deps (V : Type) := Py.Dict (Option V)

/-- What is written for it. -/
abbrev Msg (V : Type) := List (Py.Str × Option V × Option Nat)

/-- cache.py:276-277, `save_map` and `save_count`. -/
structure Saver (V : Type) where
  map : List (V × Nat)
  count : Nat

/-- cache.py:282-287, `reset`. -/
def Saver.fresh {V : Type} : Saver V := ⟨[], 1⟩

section
variable {V P : Type} [DecidableEq V] [DecidableEq P]

/-- cache.py:289-304, `_save`. -/
def save : Saver V → Deps V → Saver V × Msg V
  | s, [] => (s, [])
  | s, (k, none) :: ds => let r := save s ds; (r.1, (k, none, none) :: r.2)
  | s, (k, some v) :: ds => match s.map.lookup v with
    | some n => let r := save s ds; (r.1, (k, none, some n) :: r.2)
    | none => let r := save ⟨(v, s.count) :: s.map, s.count + 1⟩ ds; (r.1, (k, some v, some s.count) :: r.2)

/-- cache.py:306-326, `_restore`, with the numbers of the process.  There is no result if a number is not known
(`KeyError`). -/
def restore : List (Nat × V) → Msg V → Deps V → Option (List (Nat × V) × Deps V)
  | m, [], acc => some (m, acc)
  | m, (k, none, none) :: ms, acc => restore m ms (Py.Dict.set acc k none)
  | m, (k, none, some n) :: ms, acc => match m.lookup n with
    | some v => restore m ms (Py.Dict.set acc k (some v))
    | none => none
  | m, (k, some v, none) :: ms, acc => restore m ms (Py.Dict.set acc k (some v))
  | m, (k, some v, some n) :: ms, acc => restore ((n, v) :: m) ms (Py.Dict.set acc k (some v))

/-- cache.py:328-333, `__getstate__`, for one recipe after another. -/
def sends : Saver V → List (Deps V) → List (Msg V)
  | _, [] => []
  | s, d :: ds => (save s d).2 :: sends (save s d).1 ds

/-- cache.py:335-338, `__setstate__`, for what comes from several processes. -/
def receives (maps : P → List (Nat × V)) : List (P × Msg V) → Option (List (P × Deps V))
  | [] => some []
  | (p, m) :: ms => match restore (maps p) m [] with
    | none => none
    | some (mp, d) => match receives (fun q => if q = p then mp else maps q) ms with
      | none => none
      | some ds => some ((p, d) :: ds)

end

end Bb.Save
