import Verif.Py.Str
import Verif.Py.Sort

/-
The script of a shell task: variables and functions (bitbake/lib/bb/data.py, emit_var and emit_func).
-/

namespace Bb.Emit
open Py

/-- `re.sub` of one character. -/
def sub (c : Char) (r : Str) (s : Str) : Str := s.flatMap fun x => if x = c then r else [x]

/-- data.py:173-175: quotes, ends of lines and dollars. -/
def alter (val : Str) : Str := sub '$' "\\$".toList (sub '\n' " \\\n".toList (sub '"' "\\\"".toList val))

/-- What is known of a variable: its name and value, both expanded, and its flags. -/
structure Var where
  name : Str
  val : Option Str
  func : Bool := false
  python : Bool := false
  exported : Bool := false
  unexport : Bool := false

/-- data.py:135: names that are left out. -/
def oddName (n : Str) : Bool := n.any fun c => c = '-' || c = '.' || c = '{' || c = '}' || c = '+'

/-- data.py:111-177: what is written for a variable that is no function, when not everything is asked for.  Functions of bash in the
environment (lines 149-154) and values whose expansion fails are not modelled. -/
def emitVar (v : Var) : Str :=
  if !v.exported && !v.unexport then []
  else if oddName v.name then []
  else if v.unexport then "unset ".toList ++ v.name ++ ['\n']
  else match v.val with
    | none => []
    | some x => "export ".toList ++ v.name ++ "=\"".toList ++ alter x ++ "\"\n".toList

/-- data.py:209-211: all variables, in the order of their names. -/
def emitVars (vs : List Var) : Str := vs.flatMap emitVar

/-! ### Functions -/

/-- data.py:218-227: the rounds in which functions are written: those of a round that are shell functions, then what these call and
was not seen. -/
def rounds (isShell : Str → Bool) (calls : Str → List Str) : Nat → List Str → List Str → List Str
  | 0, _, _ => []
  | n + 1, new, seen =>
    if new = [] then []
    else
      let em := new.filter isShell
      em ++ rounds isShell calls n (sortSet ((em.flatMap calls).filter fun x => !(new ++ seen).contains x)) (new ++ seen)

/-- data.py:206-227: the functions that are written for a task; `calls` are the commands of a function and its `vardeps`. -/
def emitFuncs (isShell : Str → Bool) (calls : Str → List Str) (fuel : Nat) (func : Str) : List Str :=
  func :: rounds isShell calls fuel (sortSet (calls func)) []

end Bb.Emit
