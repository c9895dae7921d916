import Verif.Bb.ConfModel
/-!
# What a configuration file should mean
-/

namespace Bb.Conf.Spec
open Py

/-- The characters of a variable. -/
def VarChar (c : Char) : Prop := c.isAlphanum = true ∨ c ∈ ['-', '_', '+', '.', '$', '{', '}', '/', '~', ':']

/-- A flag: it does not begin with `@`. -/
def Flag (f : Str) : Prop :=
  f ≠ [] ∧ f.head? ≠ some '@' ∧ ∀ c, c ∈ f → c.isAlphanum = true ∨ c ∈ ['-', '_', '+', '.', '@']

/-- How the operators are written. -/
def written : Op → Str
  | .colon => ":=".toList
  | .lazyques => "??=".toList
  | .ques => "?=".toList
  | .append => "+=".toList
  | .prepend => "=+".toList
  | .predot => "=.".toList
  | .postdot => ".=".toList
  | .set => "=".toList

/-- White space, perhaps none. -/
def White (w : Str) : Prop := ∀ c, c ∈ w → isWs c = true

/-- A line `export VAR[flag] = "value"` with its white space and its quotes.  A value may not have exactly one quote
of the kind that is around it. -/
structure Assignment (s : Str) (g : Groups) (w0 w1 w2 : Str) (q : Char) : Prop where
  text : s = (if g.exp = true then "export".toList ++ w0 else []) ++ (g.var ++ ((match g.flag with
      | none => []
      | some f => '[' :: f ++ [']']) ++ (w1 ++ (written g.op ++ (w2 ++ q :: g.value ++ [q])))))
  exported : g.exp = true → w0 ≠ []
  white : White w0 ∧ White w1 ∧ White w2
  var : g.var ≠ [] ∧ ∀ c, c ∈ g.var → VarChar c
  flag : ∀ f, g.flag = some f → Flag f
  quote : q = '\'' ∨ q = '"'
  inner : g.value.count q ≠ 1

/-- `A+="x"` is meant to append, not to set a variable with the name `A+`. -/
def Glued (g : Groups) (w1 : Str) : Prop :=
  g.flag = none ∧ w1 = [] ∧ g.op = .set ∧ ∃ v c, g.var = v ++ [c] ∧ v ≠ [] ∧ (c = '+' ∨ c = '.' ∨ c = ':')

/-- `export += "x"` is not about a variable with the name `export`. -/
def Exporting (g : Groups) (w1 : Str) : Prop :=
  g.exp = false ∧ g.var = "export".toList ∧ g.flag = none ∧ w1 ≠ [] ∧ (g.op = .append ∨ g.op = .postdot ∨ g.op = .colon)

/-! ## Lines -/

/-- The lines of one statement, and the statement: all but the last one end with a backslash, which goes away. -/
inductive Joined : List Str → Str → Prop
  | last {l : Str} : (rstrip l).getLast? ≠ some '\\' → Joined [l] (rstrip l)
  | more {l p s : Str} {ls : List Str} : rstrip l = p ++ ['\\'] → p.getLast? ≠ some '\\' → Joined ls s →
      Joined (l :: ls) (p ++ s)

/-- A file and its statements: blank lines, comments, which may have several lines that all begin with `#`, and
statements. -/
inductive File : List Str → List Str → Prop
  | nil : File [] []
  | blank {l : Str} {ls out : List Str} : White l → File ls out → File (l :: ls) out
  | comment {b ls out : List Str} {s : Str} : Joined b s → (∀ l, l ∈ b → (rstrip l).head? = some '#') → File ls out →
      File (b ++ ls) out
  | statement {b ls out : List Str} {s : Str} : Joined b s → s ≠ [] → s.head? ≠ some '#' → File ls out →
      File (b ++ ls) (s :: out)

end Bb.Conf.Spec
