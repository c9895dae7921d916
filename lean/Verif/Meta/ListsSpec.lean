import Verif.Py.Str
/-! # What list variables should do -/

namespace Isar.Lists.Spec
open Py

/-- A request for removal: a word with prefix `-` or `~`. -/
def Marker (v : Str) : Prop := ∃ x, v = '-' :: x ∨ v = '~' :: x

/-- The number of words of `l` asking for the removal of `x`. -/
def requests (x : Str) (l : List Str) : Nat := l.count ('-' :: x) + l.count ('~' :: x)

/-- `x` is implied, directly or through other items, by `y`; `m y` are the items that `y`
implies directly. -/
inductive Implies (m : Str → List Str) : Str → Str → Prop
  | direct {y x} : x ∈ m y → Implies m y x
  | trans {y z x} : z ∈ m y → Implies m z x → Implies m y x

end Isar.Lists.Spec
