import Verif.Py.Path

/-!
# The guard of recursive deletion

Model of bitbake/lib/bb/utils.py:698-742: `_check_unsafe_delete_path`, `remove` and `prunedir`.  Simplified: of the regular expression that HOME is taken for, only
points and plus signs are special; expansion of patterns in names is a parameter; symbolic links on the way are left out.
-/

namespace Isar.Bb.Guard

open Py

/-- a part of the regular expression: one character, or one or more; `none` is any character but a line feed -/
inductive Tok where
  | one (c : Option Char)
  | many (c : Option Char)
deriving DecidableEq

def atom (c : Char) : Option Char := if c = '.' then none else some c

/-- HOME as a regular expression, utils.py:709-710 -/
def toks : Str → List Tok
  | [] => []
  | [c] => [.one (atom c)]
  | c :: d :: s => if d = '+' then .many (atom c) :: toks s else .one (atom c) :: toks (d :: s)

def fits (p : Option Char) (c : Char) : Bool :=
  match p with
  | some d => c == d
  | none => c != '\n'

/-- `$`: the end, or a line feed before it -/
def atEnd (s : Str) : Bool := s == [] || s == ['\n']

def mat : List Tok → Str → Bool
  | [], s => atEnd s
  | _ :: _, [] => false
  | .one p :: ts, c :: s => fits p c && mat ts s
  | .many p :: ts, c :: s => fits p c && (mat ts s || mat (.many p :: ts) s)

/-- a plain text and `$` -/
def matText (t s : Str) : Bool := s == t || s == t ++ ['\n']

/-- utils.py:698-713 -/
def danger (cwd home path : Str) : Bool :=
  let p := abspath cwd path
  matText "/".toList p || matText "//".toList p || matText "/home".toList p ||
  (startsWith p "/home/".toList && !('/' ∈ p.drop 6)) ||
  (home != [] && mat (toks home) p)

/-- utils.py:715-729 with `recurse`: the names given to `rm -rf`, or none for an exception -/
def remove (cwd home : Str) (glob : Str → List Str) (path : Str) : Option (List Str) :=
  if path = [] then some []
  else if (glob path).any (danger cwd home) then none
  else some (glob path)

/-- utils.py:737-742 -/
def prunedir (cwd home : Str) (glob : Str → List Str) (topdir : Str) : Option (List Str) :=
  if danger cwd home topdir then none else remove cwd home glob topdir

end Isar.Bb.Guard
