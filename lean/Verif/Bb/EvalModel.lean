import Verif.Py.Str
/-!
# Files that include and inherit files

Model of `handle` and `inherit` in `bitbake/lib/bb/parse/parse_py/BBHandler.py`, of `include` in `ConfHandler.py`, and of the
nodes that call them in `bitbake/lib/bb/parse/ast.py`.

Names of files have been expanded and looked up.  Other statements are numbers.  The effect of all is a list of what has
been evaluated.  Left out: `FILE`, `inherit_defer`, skipped recipes, the cache of statements, the dependencies (see
`Bb/Depends`).
-/

namespace Bb.Eval
open Py

/-- ast.py:27-325 -/
inductive Node where
  | text (x : Nat)
  | include (files : List Str) (force : Bool)
  | inherit (classes : List Str)
deriving DecidableEq

/-- A file: its statements, and whether its last function is not closed and has no lines. -/
structure File where
  nodes : List Node
  opened : Bool
deriving DecidableEq

/-- What happens: a file is entered, a statement is evaluated. -/
inductive Ev where
  | enter (f : Str)
  | text (x : Nat)
deriving DecidableEq

/-- The variable `__inherit_cache`, the global variable `__infunc__`, and all that has happened. -/
structure St where
  inherited : List Str
  inFunc : Bool
  trace : List Ev
deriving DecidableEq

/-- The end of an evaluation: as it should be, with a file that does not exist, with another error, or too deep. -/
inductive Out where
  | done (st : St)
  | missing (st : St)
  | error
  | deep
deriving DecidableEq

/-- ConfHandler.py:57-101, `include` and `include_single_file`. -/
def includeAll (h : Str → St → Out) (parent : Str) (force : Bool) : List Str → St → Out
  | [], st => .done st
  | f :: fs, st =>
    if f = parent then includeAll h parent force fs st
    else match h f st with
      | .done st' => includeAll h parent force fs st'
      | .missing st' => if force then .error else includeAll h parent force fs st'
      | o => o

/-- BBHandler.py:45-81, `inherit`. -/
def inheritAll (files : Str → Option File) (h : Str → St → Out) : List Str → St → Out
  | [], st => .done st
  | c :: cs, st =>
    if files c = none then .error
    else if c ∈ st.inherited then inheritAll files h cs st
    else match h c { st with inherited := st.inherited ++ [c] } with
      | .done st' => inheritAll files h cs st'
      | .missing _ => .error
      | o => o

/-- ast.py:27-44 and 309-315: what a node does. -/
def evalNode (files : Str → Option File) (h : Str → St → Out) (parent : Str) : Node → St → Out
  | .text x, st => .done { st with trace := st.trace ++ [.text x] }
  | .include fs force, st => includeAll h parent force fs st
  | .inherit cs, st => inheritAll files h cs st

/-- ast.py:17-20, `StatementGroup.eval`. -/
def evalNodes (files : Str → Option File) (h : Str → St → Out) (parent : Str) : List Node → St → Out
  | [], st => .done st
  | n :: ns, st => match evalNode files h parent n st with
    | .done st' => evalNodes files h parent ns st'
    | o => o

/-- BBHandler.py:113-163, `handle`.  The number bounds the depth. -/
def handle (files : Str → Option File) (isClass : Str → Bool) : Nat → Str → St → Out
  | 0, _, _ => .deep
  | n + 1, f, st =>
    match files f with
    | none => .missing { st with inFunc := false }
    | some file =>
      match evalNodes files (handle files isClass n) f file.nodes
        { inherited := if isClass f = true ∧ f ∉ st.inherited then st.inherited ++ [f] else st.inherited
          inFunc := file.opened
          trace := st.trace ++ [.enter f] } with
      | .done st' => if st'.inFunc then .error else .done st'
      | o => o

end Bb.Eval
