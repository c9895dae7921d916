import Verif.Py.Str
/-!
# Adding and removing layers

Model of bitbake/lib/bb/utils.py: `edit_metadata` and `edit_bblayers_conf`, which `bitbake-layers add-layer` and
`remove-layer` use.  A file is a list of lines with their newlines; the last one may be without.  Simplifications:
`edit_metadata` only for BBLAYERS and the two callbacks of `edit_bblayers_conf`, no `edit_cb`; `expanduser` is a
parameter, `none` if HOME is not approved.
-/

namespace Bb.Layers

open Py

/-- utils.py:1270: `[ \\t]` in a raw string: a space, a backslash or the letter t. -/
def spaceChar (c : Char) : Bool := c == ' ' || c == '\\' || c == 't'

/-- utils.py:1270: `[?+:.]` -/
def opChar (c : Char) : Bool := c == '?' || c == '+' || c == ':' || c == '.'

/-- utils.py:1270: `[+.]` -/
def endChar (c : Char) : Bool := c == '+' || c == '.'

/-- utils.py:1270: `[?+:.]*=[+.]*[ \\t]*(["\'])` after the name and what is between; what is before the quote, the quote
and what is after it. -/
def matchOp (before r : Str) : Option (Str × Char × Str) :=
  match r.dropWhile opChar with
  | '=' :: r3 =>
    match (r3.dropWhile endChar).dropWhile spaceChar with
    | q :: r5 =>
      if q = '"' ∨ q = '\'' then
        some (before ++ r.takeWhile opChar ++ '=' :: (r3.takeWhile endChar ++ (r3.dropWhile endChar).takeWhile spaceChar),
          q, r5)
      else none
    | [] => none
  | _ => none

/-- utils.py:1270, 1366-1376: a line that sets BBLAYERS.  No character is in two neighbouring sets, so that the
expression matches in one way only. -/
def matchVar (line : Str) : Option (Str × Char × Str) :=
  if startsWith line "BBLAYERS".toList then
    matchOp ("BBLAYERS".toList ++ (line.drop 8).takeWhile spaceChar) ((line.drop 8).dropWhile spaceChar)
  else none

/-- What a callback returns: the value it got, `None`, or a list. -/
inductive Res where
  | keep
  | drop
  | items (l : List Str)

/-- The setting that is being read: utils.py:1273-1278. -/
structure InVar where
  start : Str
  quote : Char
  full : Str
  lines : List Str

structure St (σ : Type) where
  cb : σ
  new : List Str
  var : Option InVar
  check : Bool
  upd : Bool

/-- utils.py:1316-1334: a list as lines, `minbreak` false, with an indent of 2. -/
def block (start : Str) (l : List Str) : List Str :=
  if l = [] then [start ++ " \"\"\n".toList]
  else (start ++ " \" \\\n".toList) :: (l.map fun i => "  ".toList ++ i ++ " \\\n".toList) ++ ["  \"\n".toList]

/-- utils.py:1280-1341: `handle_var_end` -/
def finish {σ : Type} (cb : σ → Str → Str → σ × Res) (s : St σ) (v : InVar) : St σ :=
  match cb s.cb v.full (strip (v.start.drop 8)) with
  | (c, .keep) => { s with cb := c, new := s.new ++ v.lines, var := none }
  | (c, .drop) => { cb := c, new := s.new, var := none, check := true, upd := true }
  | (c, .items l) => { cb := c, new := s.new ++ block v.start l, var := none, check := true, upd := true }

/-- utils.py:1346-1360: a line within a setting. -/
def stepIn {σ : Type} (cb : σ → Str → Str → σ × Res) (s : St σ) (v : InVar) (line : Str) : St σ :=
  if endsWith (rstrip line) [v.quote] then
    finish cb s { v with full := v.full ++ (rstrip line).dropLast, lines := v.lines ++ [line] }
  else { s with var := some { v with full := v.full ++ (rstrip line).dropLast, lines := v.lines ++ [line] } }

/-- utils.py:1377-1378: the value without a backslash at its end. -/
def noCont (s : Str) : Str := if endsWith s ['\\'] then s.dropLast else s

/-- utils.py:1366-1388: a line that begins a setting. -/
def stepVar {σ : Type} (cb : σ → Str → Str → σ × Res) (s : St σ) (line p : Str) (q : Char) (r : Str) : St σ :=
  if endsWith (noCont (rstrip r)) [q] then
    finish cb s { start := rstrip p, quote := q, full := (noCont (rstrip r)).dropLast, lines := [line] }
  else { s with var := some { start := rstrip p, quote := q, full := noCont (rstrip r), lines := [line] } }

/-- utils.py:1391-1397: another line. -/
def stepLine {σ : Type} (s : St σ) (line : Str) : St σ :=
  if s.check = true ∧ s.new.getLast? = some ['\n'] ∧ line = ['\n'] then { s with check := false }
  else { s with check := false, new := s.new ++ [line] }

/-- utils.py:1345-1397: one line. -/
def step {σ : Type} (cb : σ → Str → Str → σ × Res) (s : St σ) (line : Str) : St σ :=
  match s.var with
  | some v => stepIn cb s v line
  | none =>
    match matchVar line with
    | some (p, q, r) => stepVar cb s line p q r
    | none => stepLine s line

/-- utils.py:1213-1398: `edit_metadata` -/
def edit {σ : Type} (cb : σ → Str → Str → σ × Res) (c : σ) (lines : List Str) : St σ :=
  lines.foldl (step cb) { cb := c, new := [], var := none, check := false, upd := false }

/-- utils.py:1436-1439 -/
def noSep (p : Str) : Str := if endsWith p ['/'] then p.dropLast else p

/-- utils.py:1442-1446 -/
def canon (ex : Option (Str → Str)) (p : Str) : Str :=
  match ex with
  | some f => if (noSep p).contains '~' then f (noSep p) else noSep p
  | none => noSep p

/-- utils.py:1465-1470: the first pass: the operators and the layers. -/
def first (ex : Option (Str → Str)) (c : List Str × List Str) (value op : Str) : (List Str × List Str) × Res :=
  ((c.1 ++ [op], (if op = "=".toList then [] else c.2) ++ (words value).map (canon ex)), .keep)

/-- One part of a pattern of `fnmatch`. -/
inductive Tok where
  | any
  | one
  | lit (c : Char)
  | set (neg : Bool) (l : List (Char × Char))

/-- Ranges within brackets.  Simplification: a hyphen between two characters is always a range. -/
def ranges : Nat → Str → List (Char × Char)
  | 0, _ => []
  | _ + 1, [] => []
  | k + 1, a :: '-' :: b :: r => (a, b) :: ranges k r
  | k + 1, a :: r => (a, a) :: ranges k r

/-- What is in brackets and what comes after them: a bracket as the first character is one of the set. -/
def bracket : Str → Option (Str × Str)
  | ']' :: r => if ']' ∈ r then some (']' :: r.takeWhile (· ≠ ']'), (r.dropWhile (· ≠ ']')).drop 1) else none
  | r => if ']' ∈ r then some (r.takeWhile (· ≠ ']'), (r.dropWhile (· ≠ ']')).drop 1) else none

/-- The pattern after an opening bracket: whether the set is negated, the set, and the rest. -/
def bracketed : Str → Option (Tok × Str)
  | '!' :: r =>
    match bracket r with
    | some (s, rest) => some (.set true (ranges s.length s), rest)
    | none => none
  | r =>
    match bracket r with
    | some (s, rest) => some (.set false (ranges s.length s), rest)
    | none => none

/-- `fnmatch.translate`; the first argument bounds the steps. -/
def toks : Nat → Str → List Tok
  | 0, _ => []
  | _ + 1, [] => []
  | k + 1, c :: p =>
    if c = '*' then .any :: toks k p
    else if c = '?' then .one :: toks k p
    else if c = '[' then
      match bracketed p with
      | some (t, r) => t :: toks k r
      | none => .lit '[' :: toks k p
    else .lit c :: toks k p

def inSet (l : List (Char × Char)) (c : Char) : Bool := l.any fun r => r.1.val ≤ c.val && c.val ≤ r.2.val

/-- Whether some rest of a text matches. -/
def someRest (f : Str → Bool) : Str → Bool
  | [] => f []
  | c :: s => f (c :: s) || someRest f s

/-- Whether a text matches all of the pattern. -/
def matchToks : List Tok → Str → Bool
  | [], s => s.isEmpty
  | .any :: ts, s => someRest (matchToks ts) s
  | .one :: ts, s => match s with | [] => false | _ :: r => matchToks ts r
  | .lit c :: ts, s => match s with | [] => false | d :: r => d == c && matchToks ts r
  | .set n l :: ts, s => match s with | [] => false | d :: r => (inSet l d != n) && matchToks ts r

/-- `fnmatch.fnmatch` -/
def fnm (name pat : Str) : Bool := matchToks (toks pat.length pat) name

/-- utils.py:1476-1482: one layer to be removed: the first one that matches; the layers, and whether one was. -/
def removeOne (ex : Option (Str → Str)) (l : List Str) (r : Str) : List Str × Bool :=
  match l.find? fun x => fnm (canon ex x) (canon ex r) with
  | some x => (l.erase x, true)
  | none => (l, false)

/-- utils.py:1475-1482: all of them; the layers and which were removed. -/
def removeAll (ex : Option (Str → Str)) : List Str → List Str → List Str × List Str
  | [], l => (l, [])
  | r :: rs, l =>
    let (l1, b) := removeOne ex l r
    let (l2, rem) := removeAll ex rs l1
    (l2, (if b then [r] else []) ++ rem)

/-- utils.py:1484-1487: the layers that are added. -/
def addAll : List Str → List Str → List Str
  | [], l => l
  | a :: as, l => addAll as (if a ∈ l then l else l ++ [a])

/-- utils.py:1501-1506: what is returned. -/
def result (updated : Bool) (op : Str) (l : List Str) : Res :=
  if updated then (if op = "+=".toList ∧ l = [] then .drop else .items l) else .keep

/-- utils.py:1472-1506: the second pass; the state has the layers removed so far and those still to be added. -/
def second (ex : Option (Str → Str)) (remove : List Str) (plus : Bool) (c : List Str × List Str) (value op : Str) :
    (List Str × List Str) × Res :=
  let l := (words value).map noSep
  let r := removeAll ex remove l
  if plus then ((c.1 ++ r.2, c.2), result (r.2 ≠ []) op r.1)
  else ((c.1 ++ r.2, []), result (r.2 ≠ [] ∨ addAll c.2 r.1 ≠ r.1) op (addAll c.2 r.1))

/-- utils.py:1519-1526: layers that are there already. -/
def notAdded (ex : Option (Str → Str)) (orig add remove : List Str) : List Str :=
  add.filter fun a => (orig.contains (canon ex a) && !(remove.map (canon ex)).contains (canon ex a))

/-- utils.py:1417-1541: the new lines if the file is written, the layers that were there already, and those that were not
there; `none` is an error. -/
def editLayers (ex : Option (Str → Str)) (add remove lines : List Str) : Option (Option (List Str) × List Str × List Str) :=
  let add := add.map noSep
  let remove := remove.map noSep
  let s1 := edit (first ex) ([], []) lines
  if s1.cb.1 = [] then none
  else
    let plus := decide (s1.cb.1.count "+=".toList > 1)
    let na := notAdded ex s1.cb.2 add remove
    let add2 := add.filter fun a => !(na.map (canon ex)).contains (canon ex a)
    let s2 := edit (second ex remove plus) ([], add2) s1.new
    let tail := s2.cb.2.map fun a => "BBLAYERS += \"".toList ++ a ++ "\"\n".toList
    some (if s2.upd ∨ s2.cb.2 ≠ [] then some (s2.new ++ tail) else none, na, remove.filter fun r => !s2.cb.1.contains r)

/-- bblayers/action.py:29, 51-67: `add-layer` after its checks that the layers exist; the file afterwards, whether the
command failed, and the layers it says to be there already.  `parse` is whether the configuration can be parsed. -/
def addLayers (ex : Option (Str → Str)) (abspath : Str → Str) (parse : List Str → Bool) (force : Bool) (dirs lines : List Str) :
    Option (List Str × Bool × List Str) :=
  (editLayers ex (dirs.map abspath) [] lines).map fun r =>
    if ¬ (force = true ∨ r.2.1 ≠ []) then
      if parse (r.1.getD lines) then (r.1.getD lines, false, r.2.1) else (lines, true, [])
    else (r.1.getD lines, false, [])

/-- bblayers/action.py:76-84: which layer is meant with an argument of `remove-layer`. -/
def removeArg (abspath : Str → Str) (item : Str) : Str :=
  if startsWith item ['*'] then item
  else if '/' ∉ item then "*/".toList ++ item
  else abspath item

/-- bblayers/action.py:69-90: `remove-layer`; the new lines if the file is written, and the layers that were not there. -/
def removeLayers (ex : Option (Str → Str)) (abspath : Str → Str) (items lines : List Str) :
    Option (Option (List Str) × List Str) :=
  (editLayers ex [] (items.map (removeArg abspath)) lines).map fun r => (r.1, r.2.2)

end Bb.Layers
