import Verif.Py.Str
/-!
# Model of `meta/classes-recipe/features_check.bbclass`
-/

namespace Isar.Features
open Py

/-- What the class reads from the datastore: `get v` is `d.getVar(v)`, `hasOverrides v` is
`d.hasOverrides(v)`. -/
structure Conf where
  get : Str → Option Str
  hasOverrides : Str → Bool

/-- `normalized = string.lower()` for the ASCII letters; bitbake/lib/bb/utils.py:1014. -/
def lower (s : Str) : Str := s.map Char.toLower

/-- `bb.utils.to_boolean`, bitbake/lib/bb/utils.py:1003-1020, for a string or None; the result
`none` is the default None, the error the exception ValueError. -/
def toBoolean (v : Option Str) : Except Unit (Option Bool) :=
  match v with
  | none => .ok none
  | some s =>
    if s = [] then .ok none
    else if lower s ∈ [['y'], ['y', 'e', 's'], ['1'], ['t', 'r', 'u', 'e']] then .ok (some true)
    else if lower s ∈ [['n'], ['n', 'o'], ['0'], ['f', 'a', 'l', 's', 'e']] then .ok (some false)
    else .error ()

/-- Why a recipe is skipped: the kind, and the features named in the message. -/
inductive Reason
  | anyOf (kind : Str) (features : List Str)
  | required (kind : Str) (missing : List Str)
  | conflict (kind : Str) (features : List Str)
deriving DecidableEq, Repr

/-- What comes out of parsing the recipe: it stays (with or without the warning that the class is
not used), it is skipped (`bb.parse.SkipRecipe`), or PARSE_ALL_RECIPES has no boolean value. -/
inductive Outcome
  | kept (warned : Bool)
  | skipped (r : Reason)
  | badValue
deriving DecidableEq, Repr

/-- `'ANY_OF_' + kind + '_FEATURES'` and the like, features_check.bbclass:25-27. -/
def var (pre : String) (kind : Str) : Str := pre.toList ++ kind ++ "_FEATURES".toList

/-- `set((d.getVar(v) or '').split())`, features_check.bbclass:33, 35, 41, 48; a set is a list whose
order and repetitions do not matter. -/
def items (d : Conf) (v : Str) : List Str := words ((d.get v).getD [])

/-- `d.getVar(v) is None and not d.hasOverrides(v)`, features_check.bbclass:25-27. -/
def unset (d : Conf) (v : Str) : Bool := (d.get v).isNone && !d.hasOverrides v

/-- One round of the loop after the test whether the variables are set:
features_check.bbclass:33-53. -/
def checkKind (d : Conf) (kind : Str) : Option Reason :=
  let features := items d (var "" kind)
  let anyOf := items d (var "ANY_OF_" kind)
  let required := items d (var "REQUIRED_" kind)
  let conflict := items d (var "CONFLICT_" kind)
  if anyOf ≠ [] && anyOf.all (fun f => decide (f ∉ features)) then some (.anyOf kind anyOf)
  else if required ≠ [] && required.filter (fun f => decide (f ∉ features)) ≠ [] then
    some (.required kind (required.filter fun f => decide (f ∉ features)))
  else if conflict ≠ [] && conflict.filter (fun f => decide (f ∈ features)) ≠ [] then
    some (.conflict kind (conflict.filter fun f => decide (f ∈ features)))
  else none

/-- Whether the three variables of a kind are all unset; features_check.bbclass:25-28. -/
def skipKind (d : Conf) (kind : Str) : Bool :=
  unset d (var "ANY_OF_" kind) && unset d (var "REQUIRED_" kind) && unset d (var "CONFLICT_" kind)

/-- The loop, features_check.bbclass:24-56. -/
def loop (d : Conf) : List Str → Bool → Outcome
  | [], unused => .kept unused
  | kind :: ks, unused =>
    if skipKind d kind then loop d ks unused
    else match checkKind d kind with
      | some r => .skipped r
      | none => loop d ks false

/-- The kinds, features_check.bbclass:24. -/
def kinds : List Str :=
  ["DISTRO".toList, "MACHINE".toList, "COMBINED".toList, "IMAGE".toList, "BSP".toList,
    "ROOTFS".toList]

/-- The anonymous function, features_check.bbclass:18-57. -/
def check (d : Conf) : Outcome :=
  match toBoolean (d.get "PARSE_ALL_RECIPES".toList) with
  | .error _ => .badValue
  | .ok (some true) => .kept false
  | .ok _ => loop d kinds true

end Isar.Features
