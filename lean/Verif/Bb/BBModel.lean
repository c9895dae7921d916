import Verif.Bb.ConfModel
/-!
# Recipes and classes: from lines to statements

Model of `bitbake/lib/bb/parse/parse_py/BBHandler.py`: `feeder`, `get_statements` and `handle` up to the evaluation.

The global variables of the module are a state.  The regular expressions are functions, see `Bb/ConfModel`.  Simplified:
letters are those of ASCII.  Left out: line numbers and warnings.
-/

namespace Bb.BB
open Py

/-- `\w` -/
def wordChar (c : Char) : Bool := c.isAlphanum || c == '_'

/-- BBHandler.py:22, the group `func`. -/
def funcChar (c : Char) : Bool :=
  wordChar c || c == '.' || c == '-' || c == '+' || c == '{' || c == '}' || c == '$' || c == ':'

/-- BBHandler.py:22: one of the words before the name, and the text after it and its white space. -/
def prefixWord (s : Str) : Option (Bool × Str) :=
  if startsWith s "python".toList ∧ ((s.drop 6).head?.any fun c => isWs c || c == '(') = true then
    some (true, lstrip (s.drop 6))
  else if startsWith s "fakeroot".toList ∧ ((s.drop 8).head?.any isWs) = true then
    some (false, lstrip (s.drop 8))
  else none

/-- BBHandler.py:22: `\s*\(\s*\)\s*{$` -/
def emptyParens (s : Str) : Bool :=
  match lstrip s with
  | '(' :: r => match lstrip r with
    | ')' :: r2 => lstrip r2 == ['{']
    | _ => false
  | _ => false

/-- BBHandler.py:22, `__func_start_regexp__`: the words before the name, as many as there are; the number bounds the
rounds. -/
def funcStart : Nat → Bool → Bool → Str → Option (Option Str × Bool × Bool)
  | 0, _, _, _ => none
  | n + 1, py, fr, s =>
    match prefixWord s with
    | some (true, r) => funcStart n true fr r
    | some (false, r) => funcStart n py true r
    | none => if emptyParens (s.dropWhile funcChar) then
        some (if s.takeWhile funcChar = [] then none else some (s.takeWhile funcChar), py, fr) else none

/-- BBHandler.py:29, `__def_regexp__`: the name. -/
def defStart (s : Str) : Option Str :=
  (Conf.keyword "def".toList s).bind fun r =>
    if r.takeWhile wordChar ≠ [] ∧ ':' ∈ r.dropWhile wordChar then some (r.takeWhile wordChar) else none

/-- BBHandler.py:30, `__python_func_regexp__`: a line belongs to the body. -/
def pyLine : Str → Bool
  | [] => true
  | c :: _ => isWs c || c == '#'

/-- `.*(?=w)`: the text up to the last place of a word, and the text from there. -/
def upToLast (w : Str) : Str → Option (Str × Str)
  | [] => none
  | c :: s => match upToLast w s with
    | some (a, b) => some (c :: a, b)
    | none => if startsWith (c :: s) w then some ([], c :: s) else none

/-- BBHandler.py:26: the groups `before` and `after`, each with its last match; the number bounds the rounds. -/
def taskOrder : Nat → Option Str → Option Str → Str → Option Str × Option Str
  | 0, b, a, _ => (b, a)
  | n + 1, b, a, s =>
    if startsWith s "before".toList then
      match upToLast "after".toList (lstrip (s.drop 6)) with
      | some (x, r) => taskOrder n (some x) a r
      | none => (some (lstrip (s.drop 6)), a)
    else if startsWith s "after".toList then
      match upToLast "before".toList (lstrip (s.drop 5)) with
      | some (x, r) => taskOrder n b (some x) r
      | none => (b, some (lstrip (s.drop 5)))
    else (b, a)

/-- BBHandler.py:26, `__addtask_regexp__` -/
def addTask (s : Str) : Option (Str × Option Str × Option Str) :=
  (Conf.keyword "addtask".toList s).bind fun r =>
    if r.takeWhile wordChar = [] then none
    else some (r.takeWhile wordChar, taskOrder s.length none none (lstrip (r.dropWhile wordChar)))

/-- BBHandler.py:256-258 -/
def badTask (s : Str) : Bool :=
  (words s).any fun te => isSub ":append_".toList te || isSub ":prepend_".toList te || isSub ":remove_".toList te

/-- The nodes of the syntax tree, ast.py:152-272 and 309-325. -/
inductive Stmt where
  | conf (s : Conf.Stmt)
  | method (name : Str) (body : List Str) (py fr : Bool)
  | pyMethod (name : Str) (body : List Str)
  | exportFuncs (fns cls : Str)
  | addTask (func : Str) (before after : Option Str)
  | delTask (tasks : Str)
  | addHandler (fns : Str)
  | inherit (classes : Str)
  | inheritDefer (classes : Str)
deriving DecidableEq, Repr

/-- BBHandler.py:33-37, the global variables. -/
structure State where
  inFunc : Option (Str × Bool × Bool)
  inPython : Option Str
  body : List Str
  residue : List Str
  cls : Str
deriving DecidableEq, Repr

inductive Err where
  | parse | fatal | crash
deriving DecidableEq, Repr

/-- The state and the statements, and an error. -/
structure Res where
  state : State
  stmts : List Stmt
  err : Option Err
deriving DecidableEq, Repr

/-- BBHandler.py:223-282: a whole statement. -/
def statement (st : State) (s : Str) : Res :=
  match funcStart (s.length + 1) false false s with
  | some (name, py, fr) => ⟨{ st with inFunc := some (name.getD "__anonymous".toList, py, fr) }, [], none⟩
  | none => match defStart s with
  | some name => ⟨{ st with body := st.body ++ [s], inPython := some name }, [], none⟩
  | none => match Conf.rest "EXPORT_FUNCTIONS".toList s with
  | some r => ⟨st, [.exportFuncs r st.cls], none⟩
  | none => match addTask s with
  | some (f, b, a) => if badTask s then ⟨st, [], some .parse⟩ else ⟨st, [.addTask f b a], none⟩
  | none => match Conf.rest "deltask".toList s with
  | some r => ⟨st, [.delTask r], none⟩
  | none => match Conf.rest "addhandler".toList s with
  | some r => ⟨st, [.addHandler r], none⟩
  | none => match Conf.rest "inherit".toList s with
  | some r => ⟨st, [.inherit r], none⟩
  | none => match Conf.rest "inherit_defer".toList s with
  | some r => ⟨st, [.inheritDefer r], none⟩
  | none => match Conf.feeder false false s with
  | some c => ⟨st, [.conf c], none⟩
  | none => ⟨st, [], some .parse⟩

/-- BBHandler.py:201-221: a line outside of functions.  `__residue__[0][0]` of an empty text is an error. -/
def plain (st : State) (s : Str) : Res :=
  match st.residue with
  | [] :: _ => ⟨st, [], some .crash⟩
  | rs =>
    if s.head? = some '#' ∧ rs ≠ [] ∧ rs.head?.bind (·.head?) ≠ some '#' then ⟨st, [], some .fatal⟩
    else if rs ≠ [] ∧ rs.head?.bind (·.head?) = some '#' ∧ s.head? ≠ some '#' then ⟨st, [], some .fatal⟩
    else if s.getLast? = some '\\' then ⟨{ st with residue := rs ++ [s.dropLast] }, [], none⟩
    else if rs.flatten ++ s = [] then ⟨{ st with residue := [] }, [], none⟩
    else if (rs.flatten ++ s).head? = some '#' then ⟨{ st with residue := [] }, [], none⟩
    else statement { st with residue := [] } (rs.flatten ++ s)

/-- BBHandler.py:165-282, `feeder`. -/
def feeder (st : State) (s : Str) : Res :=
  match st.inFunc with
  | some (name, py, fr) =>
    if s = ['}'] then ⟨{ st with inFunc := none, body := [] }, [.method name (st.body ++ [[]]) py fr], none⟩
    else ⟨{ st with body := st.body ++ [s] }, [], none⟩
  | none => match st.inPython with
    | some name =>
      if pyLine s then ⟨{ st with body := st.body ++ [s] }, [], none⟩
      else
        let r := plain { st with body := [], inPython := none } s
        ⟨r.state, .pyMethod name st.body :: r.stmts, r.err⟩
    | none => plain st s

/-- BBHandler.py:92-98, the loop over the lines. -/
def feedAll : State → List Str → Res
  | st, [] => ⟨st, [], none⟩
  | st, l :: ls =>
    let r := feeder st (rstrip l)
    match r.err with
    | some e => ⟨r.state, r.stmts, some e⟩
    | none => ⟨(feedAll r.state ls).state, r.stmts ++ (feedAll r.state ls).stmts, (feedAll r.state ls).err⟩

/-- BBHandler.py:83-111, `get_statements` without the cache.  `feeder` with `eof` ends a function of Python. -/
def getStatements (st : State) (ls : List Str) : Res :=
  let r := feedAll st ls
  match r.err with
  | some e => ⟨r.state, r.stmts, some e⟩
  | none =>
    let r := match r.state.inFunc, r.state.inPython with
      | none, some name => ⟨{ r.state with body := [], inPython := none }, r.stmts ++ [.pyMethod name r.state.body], none⟩
      | _, _ => r
    if r.state.residue ≠ [] then ⟨r.state, r.stmts, some .parse⟩
    else if r.state.body ≠ [] then ⟨r.state, r.stmts, some .parse⟩
    else r

/-- BBHandler.py:113-118: the reset at the beginning of `handle`.  `__inpython__` is not reset. -/
def reset (st : State) (cls : Str) : State := { st with body := [], inFunc := none, cls := cls, residue := [] }

/-- BBHandler.py:83-139: reading a file from the state that earlier files have left.  If the file cannot be read to its
end, the exception ends the loop over the lines. -/
def readFile (st : State) (cls : Str) (ls : List Str) (broken : Bool) : Res :=
  if broken then feedAll (reset st cls) ls else getStatements (reset st cls) ls

/-- The state after a sequence of files, whether they have errors or not: what statements are evaluated to does not
change it. -/
def readAll : State → List (Str × List Str × Bool) → State
  | st, [] => st
  | st, (c, ls, b) :: t => readAll (readFile st c ls b).state t

end Bb.BB
