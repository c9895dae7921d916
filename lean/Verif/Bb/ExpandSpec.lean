import Verif.Bb.ExpandModel
/-!
# What variable references mean

A text with references is a tree here: the name of a reference is a text again.  `Means` says what the text
stands for, without passes, loops and caches.
-/

namespace Bb.Expand.Spec
open Py

/-- A text with references. -/
inductive Text where
  | nil
  | ch (c : Char) (rest : Text)
  /-- `${name}rest` -/
  | ref (name rest : Text)
deriving DecidableEq, Repr

/-- How the text is written. -/
def Text.render : Text → Str
  | .nil => []
  | .ch c r => c :: r.render
  | .ref n r => '$' :: '{' :: (n.render ++ '}' :: r.render)

/-- Names of variables: letters, digits and `-_+./~:`. -/
def IsName (k : Str) : Prop :=
  k ≠ [] ∧ ∀ c, c ∈ k → c.isAlphanum = true ∨ c ∈ ['-', '_', '+', '.', '/', '~', ':']

/-- A text after `${` that is no name: it has a character that is not in names before any closing brace. -/
def Cut : Text → Prop
  | .ch c r => if c.isAlphanum = true ∨ c ∈ ['-', '_', '+', '.', '/', '~', ':'] then Cut r else c ≠ '}'
  | _ => False

/-- Each `$` that belongs to no reference is followed by something that makes it none, as in `$x`, `$(x)`
and `${x%y}`; there are no Python expressions `${@...}`. -/
def Plain : Text → Prop
  | .nil => True
  | .ch c r => (c = '$' → ∃ c' r', r = .ch c' r' ∧ (c' = '{' → Cut r' ∧ ∀ x, r' ≠ .ch '@' x)) ∧ Plain r
  | .ref n r => Plain n ∧ Plain r

/-- Something that is no name, and that does not end a reference too early. -/
def NoName (k : Str) : Prop :=
  k = [] ∨ ∃ a c b, k = a ++ c :: b ∧ (∀ x, x ∈ a → x.isAlphanum = true ∨ x ∈ ['-', '_', '+', '.', '/', '~', ':']) ∧
    ¬ (c.isAlphanum = true ∨ c ∈ ['-', '_', '+', '.', '/', '~', ':']) ∧ c ≠ '}'

/-- What a text stands for, if `prog` gives the texts of the variables: a reference to a variable stands for
what its text stands for; references to variables that are not set, and what is no name, stay as they
are. -/
inductive Means (prog : Str → Option Text) : Text → Str → Prop where
  | nil : Means prog .nil []
  | ch {c r s} : Means prog r s → Means prog (.ch c r) (c :: s)
  | set {n k p v r s} : Means prog n k → IsName k → prog k = some p → Means prog p v → Means prog r s →
      Means prog (.ref n r) (v ++ s)
  | unset {n k r s} : Means prog n k → IsName k → prog k = none → Means prog r s →
      Means prog (.ref n r) ('$' :: '{' :: (k ++ '}' :: s))
  | noName {n k r s} : Means prog n k → NoName k → Means prog r s →
      Means prog (.ref n r) ('$' :: '{' :: (k ++ '}' :: s))

end Bb.Expand.Spec
