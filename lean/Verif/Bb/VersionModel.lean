import Verif.Py.Str
/-!
# Model of the version functions of `bitbake/lib/bb/utils.py`

Versions contain no line breaks and no digits outside of ASCII (the regular expressions treat these
in a special way).
-/

namespace Bb.Version
open Py

/-- The pairs in the result of `explode_version`: `(-1, '~')`, `(0, n)`, `(1, letters)`,
`(2, character)`; utils.py:64-84. -/
inductive Tok
  | tilde
  | num (n : Nat)
  | alpha (s : Str)
  | other (c : Char)
deriving DecidableEq, Repr

/-- The first component of the pair, utils.py:69-82. -/
def Tok.rank : Tok → Int
  | .tilde => -1
  | .num _ => 0
  | .alpha _ => 1
  | .other _ => 2

/-- `explode_version`, utils.py:64-84; the first argument bounds the number of turns of the loop. -/
def explodeGo : Nat → Str → List Tok
  | 0, _ => []
  | _ + 1, [] => []
  | n + 1, c :: s =>
    if c.isDigit then
      .num (decVal ((c :: s).takeWhile Char.isDigit)) ::
        explodeGo n ((c :: s).dropWhile Char.isDigit)
    else if c.isAlpha then
      .alpha ((c :: s).takeWhile Char.isAlpha) :: explodeGo n ((c :: s).dropWhile Char.isAlpha)
    else if c = '~' then .tilde :: explodeGo n s
    else .other c :: explodeGo n s

/-- `explode_version`, utils.py:64-84. -/
def explode (s : Str) : List Tok := explodeGo s.length s

/-- `<` for strings: by code points, the shorter one first. -/
def strLt : Str → Str → Bool
  | _, [] => false
  | [], _ :: _ => true
  | a :: s, b :: t => if a.toNat < b.toNat then true else if b.toNat < a.toNat then false else strLt s t

/-- `<` of the second components of two pairs with the same first one; utils.py:122-125. -/
def valLt : Tok → Tok → Bool
  | .num m, .num n => decide (m < n)
  | .alpha s, .alpha t => strLt s t
  | .other c, .other d => decide (c.toNat < d.toNat)
  | _, _ => false

/-- The first component for `va.pop(0)`, or for the end of the list; utils.py:104-111. -/
def rankO : Option Tok → Int
  | none => 0
  | some t => t.rank

/-- One turn of the loop of `vercmp_part`: the result, or `none` to go on; utils.py:112-125. -/
def step (a b : Option Tok) : Option Int :=
  if a = none ∧ b = none then some 0
  else if rankO a < rankO b then some (-1)
  else if rankO b < rankO a then some 1
  else
    match a, b with
    | none, _ => some (-1)
    | _, none => some 1
    | some x, some y => if valLt x y then some (-1) else if valLt y x then some 1 else none

/-- The loop of `vercmp_part`, utils.py:103-125; the first argument bounds the number of turns. -/
def cmpGo : Nat → List Tok → List Tok → Int
  | 0, _, _ => 0
  | n + 1, va, vb =>
    match step va.head? vb.head? with
    | some r => r
    | none => cmpGo n va.tail vb.tail

/-- `vercmp_part`, utils.py:100-125. -/
def vercmpPart (a b : Str) : Int :=
  cmpGo ((explode a).length + 1) (explode a) (explode b)

/-- `s.strip(" <>=")`, utils.py:88. -/
def stripOps (s : Str) : Str :=
  let p : Char → Bool := fun c => c = ' ' || c = '<' || c = '>' || c = '='
  ((s.dropWhile p).reverse.dropWhile p).reverse

/-- `split_version`, utils.py:86-98.  `int` is Python's `int()`: `none` if it raises ValueError. -/
def splitVersion (int : Str → Option Int) (s : Str) : Option (Int × Str × Str) :=
  let s := stripOps s
  let split (e : Int) (s : Str) : Int × Str × Str :=
    if '-' ∈ s then
      (e, ((s.reverse.dropWhile (· ≠ '-')).drop 1).reverse, (s.reverse.takeWhile (· ≠ '-')).reverse)
    else (e, s, [])
  if ':' ∈ s then
    (int ((splitOn ':' s).getD 0 [])).map fun e => split e ((splitOn ':' s).getD 1 [])
  else some (split 0 s)

/-- `vercmp`, utils.py:127-136, for integer epochs. -/
def vercmp (a b : Int × Str × Str) : Int :=
  let r := a.1 - b.1
  let r := if r = 0 then vercmpPart a.2.1 b.2.1 else r
  if r = 0 then vercmpPart a.2.2 b.2.2 else r

/-- `vercmp_string`, utils.py:138-142. -/
def vercmpString (int : Str → Option Int) (a b : Str) : Option Int :=
  match splitVersion int a, splitVersion int b with
  | some ta, some tb => some (vercmp ta tb)
  | _, _ => none

/-- `vercmp_string_op`, utils.py:144-164; `none` if an exception is raised. -/
def vercmpStringOp (int : Str → Option Int) (a b op : Str) : Option Bool :=
  match vercmpString int a b with
  | none => none
  | some res =>
    if op = "=".toList ∨ op = "==".toList then some (decide (res = 0))
    else if op = "<=".toList then some (decide (res ≤ 0))
    else if op = ">=".toList then some (decide (res ≥ 0))
    else if op = ">".toList ∨ op = ">>".toList then some (decide (res > 0))
    else if op = "<".toList ∨ op = "<<".toList then some (decide (res < 0))
    else if op = "!=".toList then some (decide (res ≠ 0))
    else none

end Bb.Version
