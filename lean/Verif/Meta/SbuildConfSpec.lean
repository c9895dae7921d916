import Verif.Meta.SbuildConfModel
/-!
# What sbuild should read

A file in the language of Perl, with a hash of the variables and a list of expressions.
-/

namespace Meta.SbuildConf
open Py

/-- The lines that define the variables; nothing if there are none. -/
def hash : List (Str × Str) → List Str
  | [] => []
  | l => "$build_environment = {".toList :: l.map (fun e => "'".toList ++ e.1 ++ "' => '".toList ++ e.2 ++ "',".toList) ++
    ["};".toList]

/-- The lines with the expressions for names that are let through. -/
def array (l : List Str) : List Str :=
  "$environment_filter = [".toList :: l.map (fun f => "'^".toList ++ f ++ "$',".toList) ++ ["];".toList]

/-- The file defines these variables and expressions, and has these other lines. -/
def Reads (file : List Str) (env : List (Str × Str)) (fs rest : List Str) : Prop :=
  file = hash env ++ array fs ++ rest ∨ file = array fs ++ hash env ++ rest

/-- The name of a variable. -/
def Name (n : Str) : Prop := n ≠ [] ∧ ∀ c, c ∈ n → c.isAlphanum = true ∨ c = '_'

/-- A value that needs no quoting in Perl, in the shell and in `sed`, on one line and without spaces at the end. -/
structure Plain (v : Str) : Prop where
  quote : '\'' ∉ v
  slash : '\\' ∉ v
  line : '\n' ∉ v
  caret : v.head? ≠ some '^'
  blank : ∀ c, v.getLast? = some c → c ≠ ' ' ∧ c ≠ '\t'

/-- Text without backslashes on one line is not changed by `sed`. -/
def Sed (sedText : Str → Str) : Prop := ∀ t, '\\' ∉ t → '\n' ∉ t → sedText t = t

/-- Variables that belong to the host. -/
def Host (n : Str) : Prop := n = "HOME".toList ∨ n = "PWD".toList ∨ n = "SOURCE_DATE_EPOCH".toList

/-- A line of the environment. -/
def line (e : Str × Str) : Str := e.1 ++ "=".toList ++ e.2

end Meta.SbuildConf
