import Verif.Py.Str

/-!
# Identifiers of software bills of materials

Model of meta/classes/sbom.bbclass:29-43 with `uuid.UUID` of Python.  Hexadecimal texts are lists of digits; that Python reads them as a number and writes this again with
32 digits is left out.
-/

namespace Isar.Meta.Sbom

open Py

abbrev Digit := Fin 16

/-- `'%x'` -/
def hex (d : Digit) : Char := "0123456789abcdef".toList.getD d.val '0'

/-- the digits with version 4 and the variant: the version takes the place of a digit, the variant that of two bits of one -/
def mark (ds : List Digit) : List Digit :=
  (ds.set 12 4).modify 16 fun d => ⟨8 + d.val % 4, by omega⟩

/-- `str(uuid.UUID(...))` -/
def format (ds : List Digit) : Str :=
  (ds.take 8).map hex ++ '-' :: (((ds.drop 8).take 4).map hex ++ '-' :: (((ds.drop 12).take 4).map hex ++ '-' :: (((ds.drop 16).take 4).map hex ++
    '-' :: (ds.drop 20).map hex)))

/-- sbom.bbclass:37-39 for a task hash; `none` is the exception for fewer than 32 digits -/
def uuid (hash : List Digit) : Option Str :=
  let ds := hash.take 32
  if ds.length = 32 then some (format (mark ds)) else none

/-- sbom.bbclass:29-43: a value that is set is kept; without a task hash the identifier is random. -/
def document (set : Str) (hash : Option (List Digit)) (random : Str) : Option Str :=
  if set ≠ [] then some set
  else match hash with
    | none => some random
    | some h => uuid h

end Isar.Meta.Sbom
