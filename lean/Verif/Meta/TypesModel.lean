import Verif.Py.Str

/-!
# Variables with types

Model of meta/lib/oe/data.py:10-25 (`typed_value`), meta/lib/oe/maketype.py:29-53 (`factory`, `create`) and of the types list, choice and boolean of meta/lib/oe/types.py:12-50, 108-128.
Separators have one character, small letters are those of ASCII; the types regex, integer, float and path are left out.
-/

namespace Isar.Meta.Types

open Py

inductive Val
  | list (items : List Str) (sep : Char)
  | choice (value : Str)
  | bool (b : Bool)
deriving DecidableEq, Repr

/-- the error that the user gets -/
inductive Err
  | noType | missingFlag (flag : Str) | invalid
deriving DecidableEq, Repr

/-- `s.lower()` -/
def lower (s : Str) : Str := s.map Char.toLower

/-- types.py:22-31, `OEList` -/
def oeList (value : Str) (sep : Option Str) : Except Err Val :=
  match sep with
  | none => .ok (.list (words value) ' ')
  | some [c] => .ok (.list (splitOn c value) c)
  | some _ => .error .invalid

/-- types.py:33-34: the text of a list -/
def listText (items : List Str) (sep : Char) : Str := join [sep] items

/-- types.py:36-50, `choice` -/
def choice (value choices : Str) : Except Err Val :=
  if lower value ∈ words (lower choices) then .ok (.choice (lower value)) else .error .invalid

/-- types.py:108-128, `boolean` -/
def boolean (value : Option Str) : Except Err Bool :=
  match value with
  | none => .ok false
  | some v =>
    if lower v ∈ ["yes".toList, "y".toList, "true".toList, "t".toList, "1".toList] then .ok true
    else if lower v ∈ ["no".toList, "n".toList, "false".toList, "f".toList, "0".toList] then .ok false
    else .error .invalid

/-- data.py:10-25 with maketype.py:40-53: flags that a type does not know are ignored -/
def typedValue (value : Option Str) (flags : List (Str × Str)) : Except Err Val :=
  let v := value.getD []
  match flags.lookup "type".toList with
  | none => .error .noType
  | some t =>
    if t = "list".toList then oeList v (flags.lookup "separator".toList)
    else if t = "choice".toList then
      match flags.lookup "choices".toList with
      | none => .error (.missingFlag "choices".toList)
      | some cs => choice v cs
    else if t = "boolean".toList then
      match boolean (some v) with
      | .ok b => .ok (.bool b)
      | .error e => .error e
    else .error .noType

end Isar.Meta.Types
