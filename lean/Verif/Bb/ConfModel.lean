import Verif.Py.Str
/-!
# Configuration files

Model of `bitbake/lib/bb/parse/parse_py/ConfHandler.py`: how lines are put together and what a line means.

The regular expressions are functions that try the alternatives in the order in which Python does.  Lines have no line
breaks.  Simplified: white space and letters are those of ASCII.  Left out: line numbers, and `confFilters`.
-/

namespace Bb.Conf
open Py

/-- ConfHandler.py:23, the group `var`. -/
def varChar (c : Char) : Bool :=
  c.isAlphanum || c == '-' || c == '_' || c == '+' || c == '.' || c == '$' || c == '{' || c == '}' || c == '/' || c == '~' ||
    c == ':'

/-- ConfHandler.py:24, the group `flag`: the first character. -/
def flagHead (c : Char) : Bool := c.isAlphanum || c == '-' || c == '_' || c == '+' || c == '.'

/-- ConfHandler.py:24, the group `flag`: the others. -/
def flagChar (c : Char) : Bool := flagHead c || c == '@'

/-- ConfHandler.py:27-34, the operators. -/
inductive Op where
  | colon | lazyques | ques | append | prepend | predot | postdot | set
deriving DecidableEq, Repr

/-- ConfHandler.py:27-34 -/
def Op.text : Op → Str
  | .colon => [':', '=']
  | .lazyques => ['?', '?', '=']
  | .ques => ['?', '=']
  | .append => ['+', '=']
  | .prepend => ['=', '+']
  | .predot => ['=', '.']
  | .postdot => ['.', '=']
  | .set => ['=']

/-- The order of the alternatives. -/
def ops : List Op := [.colon, .lazyques, .ques, .append, .prepend, .predot, .postdot, .set]

/-- The groups of `__config_regexp__`. -/
structure Groups where
  exp : Bool
  var : Str
  flag : Option Str
  op : Op
  value : Str
deriving DecidableEq, Repr

/-- ConfHandler.py:37-38: `q[^q]*q[^q]*q$`. -/
def threeQuotes (q : Char) : Str → Bool
  | [] => false
  | c :: r => c == q && match r.dropWhile (· ≠ q) with
    | [] => false
    | _ :: r2 => match r2.dropWhile (· ≠ q) with
      | [_] => true
      | _ => false

/-- ConfHandler.py:37-42: the text in quotes; it goes to the end of the line. -/
def quoted (t : Str) : Option Str :=
  if threeQuotes '\'' t || threeQuotes '"' t then none
  else match t with
    | [] => none
    | q :: r => if (q == '\'' || q == '"') && r.getLast? == some q then some r.dropLast else none

/-- ConfHandler.py:26-42: white space, the operator, white space, and the value. -/
def afterVar (t : Str) : Option (Op × Str) :=
  ops.findSome? fun op => if startsWith (lstrip t) op.text then
    (quoted (lstrip ((lstrip t).drop op.text.length))).map fun v => (op, v) else none

/-- ConfHandler.py:24: the flag in brackets, and the rest. -/
def flagAt : Str → Option (Str × Str)
  | '[' :: c :: r => if flagHead c then
      match r.dropWhile flagChar with
      | ']' :: rest => some (c :: r.takeWhile flagChar, rest)
      | _ => none
    else none
  | _ => none

/-- What follows a variable: first with a flag, then without. -/
def attempt (exp : Bool) (var rest : Str) : Option Groups :=
  ((flagAt rest).bind fun f => (afterVar f.2).map fun o => ⟨exp, var, some f.1, o.1, o.2⟩) <|>
    (afterVar rest).map fun o => ⟨exp, var, none, o.1, o.2⟩

/-- ConfHandler.py:23: the shortest variable for which the rest fits. -/
def body (exp : Bool) : Str → Str → Option Groups
  | _, [] => none
  | pre, c :: t => if varChar c then attempt exp (pre ++ [c]) t <|> body exp (pre ++ [c]) t else none

/-- A word at the beginning and white space after it: what follows. -/
def keyword (w s : Str) : Option Str :=
  if startsWith s w then
    match s.drop w.length with
    | [] => none
    | c :: r => if isWs c then some (lstrip r) else none
  else none

/-- ConfHandler.py:20-43, `__config_regexp__.match` -/
def config (s : Str) : Option Groups :=
  ((keyword "export".toList s).bind (body true [])) <|> body false [] s

/-- The characters of a variable for `export` and `unset`: there is no colon. -/
def nameChar (c : Char) : Bool := varChar c && c != ':'

/-- `X\s+(.+)`, for lines that do not end with white space. -/
def rest (w s : Str) : Option Str := (keyword w s).bind fun r => if r = [] then none else some r

/-- ConfHandler.py:46-47: `X\s+([...]+)$` -/
def name (w s : Str) : Option Str := (keyword w s).bind fun r => if r ≠ [] ∧ r.all nameChar then some r else none

/-- ConfHandler.py:48, `__unset_flag_regexp__`: a flag has two characters or more. -/
def unsetFlag (s : Str) : Option (Str × Str) :=
  (keyword "unset".toList s).bind fun r =>
    match r.takeWhile nameChar, r.dropWhile nameChar with
    | [], _ => none
    | v, '[' :: c :: c2 :: t => if flagHead c ∧ flagChar c2 ∧ t.dropWhile flagChar = [']'] then
        some (v, c :: c2 :: t.takeWhile flagChar) else none
    | _, _ => none

/-- ConfHandler.py:49, `__addpylib_regexp__`: the first group goes up to the last white space. -/
def pylib (s : Str) : Option (Str × Str) :=
  (keyword "addpylib".toList s).bind fun r =>
    match (r.reverse.takeWhile fun c => !isWs c).reverse, (r.reverse.dropWhile fun c => !isWs c).reverse with
    | [], _ => none
    | _, [] => none
    | a, b => if b.dropLast = [] then none else some (b.dropLast, a)

/-- The nodes of the syntax tree, ast.py:27-150 and 274-307. -/
inductive Stmt where
  | data (g : Groups)
  | include (what : Str) (force : Bool)
  | export (var : Str)
  | unset (var : Str)
  | unsetFlag (var flag : Str)
  | pyLib (dir ns : Str)
deriving DecidableEq, Repr

/-- ConfHandler.py:163-200, `feeder`; `none` is the ParseError. -/
def feeder (baseconfig conffile : Bool) (s : Str) : Option Stmt :=
  match config s with
  | some g => some (.data g)
  | none => match rest "include".toList s with
    | some r => some (.include r false)
    | none => match rest "require".toList s with
      | some r => some (.include r true)
      | none => match name "export".toList s with
        | some v => some (.export v)
        | none => match name "unset".toList s with
          | some v => some (.unset v)
          | none => match unsetFlag s with
            | some (v, f) => some (.unsetFlag v f)
            | none => if baseconfig && conffile then (pylib s).map fun p => .pyLib p.1 p.2 else none

/-! ## Lines -/

/-- The end of reading: a result, `bb.fatal`, or an exception that is not meant. -/
inductive Out (α : Type) where
  | ok (a : α)
  | fatal
  | crash
deriving DecidableEq, Repr

def Out.map {α β : Type} (f : α → β) : Out α → Out β
  | .ok a => .ok (f a)
  | .fatal => .fatal
  | .crash => .crash

/-- ConfHandler.py:136-144 at the end of the file: `readline` gives the empty text. -/
def joinEof (s : Str) : Out Str :=
  if s.getLast? ≠ some '\\' then .ok s
  else if s.head? = some '#' then .fatal
  else match (s.reverse.dropWhile (· == '\\')).reverse with
    | [] => .crash
    | r => .ok r

/-- ConfHandler.py:136-144, the loop for one statement: the text, and the lines that are left.  `s[-1]` of the empty
text is an error. -/
def joinLines : Str → List Str → Out (Str × List Str)
  | [], _ => .crash
  | s, [] => (joinEof s).map fun r => (r, [])
  | s, l :: ls =>
    if s.getLast? ≠ some '\\' then .ok (s, l :: ls)
    else if (rstrip l).head? ≠ some '#' ∧ s.head? = some '#' then .fatal
    else joinLines (s.dropLast ++ rstrip l) ls

/-- ConfHandler.py:122-148: the loop of `handle`; the texts that are given to `feeder`.  The number bounds the
rounds. -/
def statements : Nat → List Str → Out (List Str)
  | 0, _ => .ok []
  | _, [] => .ok []
  | n + 1, l :: ls =>
    if strip l = [] then statements n ls
    else match joinLines (rstrip l) ls with
      | .fatal => .fatal
      | .crash => .crash
      | .ok (s, ls') => if s.head? = some '#' then statements n ls' else (statements n ls').map (s :: ·)

/-- ConfHandler.py:111-148, `handle` up to the evaluation: `none` if `feeder` fails. -/
def parse (baseconfig : Bool) (ls : List Str) : Out (Option (List Stmt)) :=
  (statements ls.length ls).map fun l => l.mapM (feeder baseconfig true)

end Bb.Conf
