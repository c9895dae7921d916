import Verif.Py.Str

/-!
# Helpers for recipes

Model of meta/lib/oe/utils.py: `parallel_make`, `parallel_make_argument`, `features_backfill`, `trim_version`.
-/

namespace Isar.Meta.OeUtils

open Py

/-- `int(s)` for digits of ASCII (utils.py:196); signs, blanks and underscores, which Python takes too, are left out -/
def toInt (s : Str) : Option Nat := if s ≠ [] ∧ s.all Char.isDigit = true then some (decVal s) else none

/-- utils.py:189-190 and 196: the number in the word after `-j`; no such word is an exception -/
def nextInt : List Str → Option (Option Nat)
  | [] => none
  | v :: _ => (toInt v).map some

/-- utils.py:187-198: the loop over the options; `none` is an exception, `some none` is the empty text -/
def scan : List Str → Option (Option Nat)
  | [] => some none
  | opt :: pm =>
    if opt = ['-', 'j'] then nextInt pm
    else if startsWith opt ['-', 'j'] then (toInt (opt.drop 2)).map some
    else scan pm

/-- utils.py:174-198, `parallel_make` for the value of the variable; one that is not set is empty -/
def parallelMake (value : Option Str) : Option (Option Nat) := scan (words (value.getD []))

/-- utils.py:200-218, `parallel_make_argument`; the format is what is before and after `%d` -/
def argument (value : Option Str) (pre post : Str) (limit : Option Nat) : Option Str :=
  match parallelMake value with
  | none => none
  | some none => some []
  | some (some v) =>
    if v ≠ 0 then
      let v := match limit with
        | some l => if l ≠ 0 then min l v else v
        | none => v
      some (pre ++ dec v ++ post)
    else some []

/-- utils.py:112-131, `features_backfill`: the new value of the variable -/
def backfill (features backfills considered : Option Str) : Option Str :=
  let fs := words (features.getD [])
  let cs := words (considered.getD [])
  let add := (words (backfills.getD [])).filter fun f => decide (f ∉ fs) && decide (f ∉ cs)
  if add ≠ [] then some (features.getD [] ++ [' '] ++ join [' '] add) else features

/-- utils.py:239-251, `trim_version` for texts; `none` is the exception for less than one part -/
def trim (version : Str) (parts : Int) : Option Str :=
  if parts < 1 then none else some (join ['.'] ((splitOn '.' version).take parts.toNat))

end Isar.Meta.OeUtils
