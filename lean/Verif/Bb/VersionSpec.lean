import Verif.Bb.VersionModel
/-!
# What versions mean

A version is read as a list of parts: numbers (by value), groups of letters, tildes and other
characters.  Two versions are compared at the first part in which they differ; a tilde comes before
the end of the version, and the end before everything else.
-/

namespace Bb.Version
open Py

/-- The text starts with a character of this kind. -/
def Starts (p : Char → Bool) (s : Str) : Prop := ∃ c t, s = c :: t ∧ p c = true

/-- The parts of a version. -/
inductive Parts : Str → List Tok → Prop
  | nil : Parts [] []
  | num {ds s : Str} {ts : List Tok} : ds ≠ [] → (∀ c ∈ ds, c.isDigit = true) →
      ¬ Starts Char.isDigit s → Parts s ts → Parts (ds ++ s) (.num (decVal ds) :: ts)
  | alpha {ls s : Str} {ts : List Tok} : ls ≠ [] → (∀ c ∈ ls, c.isAlpha = true) →
      ¬ Starts Char.isAlpha s → Parts s ts → Parts (ls ++ s) (.alpha ls :: ts)
  | tilde {s : Str} {ts : List Tok} : Parts s ts → Parts ('~' :: s) (.tilde :: ts)
  | other {c : Char} {s : Str} {ts : List Tok} : c.isDigit = false → c.isAlpha = false → c ≠ '~' →
      Parts s ts → Parts (c :: s) (.other c :: ts)

/-- Alphabetical order of texts. -/
def TextLt (s t : Str) : Prop :=
  (∃ c u, t = s ++ c :: u) ∨ ∃ p c d u v, s = p ++ c :: u ∧ t = p ++ d :: v ∧ c.toNat < d.toNat

/-- The order of two parts; `none` is the end of the version. -/
inductive PartLt : Option Tok → Option Tok → Prop
  | tilde {x : Option Tok} : x ≠ some .tilde → PartLt (some .tilde) x
  | endNum {n : Nat} : PartLt none (some (.num n))
  | endAlpha {s : Str} : PartLt none (some (.alpha s))
  | endOther {c : Char} : PartLt none (some (.other c))
  | num {m n : Nat} : m < n → PartLt (some (.num m)) (some (.num n))
  | numAlpha {m : Nat} {s : Str} : PartLt (some (.num m)) (some (.alpha s))
  | numOther {m : Nat} {c : Char} : PartLt (some (.num m)) (some (.other c))
  | alpha {s t : Str} : TextLt s t → PartLt (some (.alpha s)) (some (.alpha t))
  | alphaOther {s : Str} {c : Char} : PartLt (some (.alpha s)) (some (.other c))
  | other {c d : Char} : c.toNat < d.toNat → PartLt (some (.other c)) (some (.other d))

/-- The order of two versions, given by their parts: the first difference decides. -/
def Less (ts us : List Tok) : Prop :=
  ∃ p x y, ts = p ++ x ∧ us = p ++ y ∧ PartLt x.head? y.head?

/-- One of the characters that are ignored around a version. -/
def OpChar (c : Char) : Prop := c = ' ' ∨ c = '<' ∨ c = '>' ∨ c = '='

/-- `core` is `s` without the ignored characters at both ends. -/
def Core (s core : Str) : Prop :=
  ∃ a b, s = a ++ core ++ b ∧ (∀ c ∈ a, OpChar c) ∧ (∀ c ∈ b, OpChar c) ∧
    (∀ c, core.head? = some c → ¬ OpChar c) ∧ (∀ c, core.getLast? = some c → ¬ OpChar c)

/-- A version string with epoch `e`, version `v` and revision `r`.  The epoch is the text before the
first colon (0 if there is none); the revision is the text after the last dash (empty if there is
none).  A second colon ends the version. -/
structure Reads (int : Str → Option Int) (s : Str) (e : Int) (v r : Str) : Prop where
  ex : ∃ core rest, ((':' ∉ core ∧ e = 0 ∧ rest = core) ∨
      (∃ es more, ':' ∉ es ∧ core = es ++ ':' :: rest ++ more ∧ ':' ∉ rest ∧
        (more = [] ∨ ∃ m, more = ':' :: m) ∧ int es = some e)) ∧
    ((rest = v ∧ '-' ∉ v ∧ r = []) ∨ (rest = v ++ '-' :: r ∧ '-' ∉ r)) ∧
    Core s core

end Bb.Version
