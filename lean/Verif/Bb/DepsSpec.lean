import Verif.Bb.DepsModel
/-!
# What dependency strings mean

A dependency string is a list of names, each with an optional constraint in parentheses: an operator
and a version.  Spaces between the parentheses, the operator and the version do not matter.
-/

namespace Bb.Deps
open Py

/-- Word `i` is in parentheses: a word at or before it opens them and no word in between closes
them. -/
def Inside (ws : List Str) (i : Nat) : Prop :=
  ∃ j, j ≤ i ∧ (∃ w, ws[j]? = some w ∧ w.head? = some '(') ∧
    ∀ k, j ≤ k → k < i → ∀ w, ws[k]? = some w → w.getLast? ≠ some ')'

/-- The operators. -/
def ops : List Str := ["<=", "=<", "<<", "==", "!=", ">=", "=>", ">>", "<", ">", "="].map String.toList

/-- A constraint, and where spaces are written in it. -/
structure Constraint where
  op : Str
  ver : Str
  spaceOpen : Bool
  spaceOp : Bool
  spaceClose : Bool

/-- One entry of a dependency string. -/
structure Occ where
  name : Str
  con : Option Constraint

/-- The words that a constraint is written as. -/
def Constraint.words (c : Constraint) : List Str :=
  let closed := if c.spaceClose then [c.ver, ")".toList] else [c.ver ++ ")".toList]
  let opver := if c.spaceOp then c.op :: closed else (c.op ++ closed.headD []) :: closed.tail
  if c.spaceOpen then "(".toList :: opver else ("(".toList ++ opver.headD []) :: opver.tail

/-- The words that an entry is written as. -/
def Occ.words (o : Occ) : List Str := o.name :: (o.con.map Constraint.words).getD []

/-- A word that can be a name or a version. -/
def Plain (w : Str) : Prop := IsWord w ∧ ',' ∉ w ∧ w.head? ≠ some '('

/-- The constraint can be read back. -/
structure OkConstraint (c : Constraint) : Prop where
  op : c.op ∈ ops
  ver : Plain c.ver
  noOp : c.spaceOp = false → ∀ x, c.ver.head? = some x → x ≠ '<' ∧ x ≠ '>' ∧ x ≠ '='
  noClose : c.spaceClose = true → c.ver.getLast? ≠ some ')'

def OkOcc (o : Occ) : Prop := Plain o.name ∧ ∀ c, o.con = some c → OkConstraint c

/-- The dependency string `s` has these entries: its words, without commas, are theirs. -/
def Writes (s : Str) (occs : List Occ) : Prop :=
  Py.words (s.filter (· ≠ ',')) = occs.flatMap Occ.words

/-- The names in the order in which they first occur. -/
def firsts : List Str → List Str
  | [] => []
  | n :: l => n :: (firsts l).filter (· ≠ n)

/-- How a constraint is given back. -/
def Constraint.text (c : Constraint) : Str := c.op ++ ' ' :: c.ver

/-- All constraints of a name. -/
def constraints (occs : List Occ) (n : Str) : List Str :=
  occs.flatMap fun o => if o.name = n then (o.con.map Constraint.text).toList else []

/-- A constraint as it is given back: operator, space, version. -/
def OkText (v : Str) : Prop := ∃ op ver, v = op ++ ' ' :: ver ∧ op ∈ ops ∧ Plain ver

/-- Names with constraints, as they are given to `join_deps`. -/
def OkDeps (deps : List (Str × List Str)) : Prop :=
  (deps.map (·.1)).Nodup ∧ ∀ d ∈ deps, Plain d.1 ∧ ∀ v ∈ d.2, OkText v

end Bb.Deps
