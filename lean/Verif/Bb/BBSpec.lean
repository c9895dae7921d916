import Verif.Bb.BBModel
/-!
# What the lines of a recipe should mean
-/

namespace Bb.BB.Spec
open Py

/-- White space, perhaps none. -/
def White (w : Str) : Prop := ∀ c, c ∈ w → isWs c = true

/-- A letter, a digit, or an underscore. -/
def WordChar (c : Char) : Prop := c.isAlphanum = true ∨ c = '_'

/-- The characters of the name of a function. -/
def NameChar (c : Char) : Prop := WordChar c ∨ c ∈ ['.', '-', '+', '{', '}', '$', ':']

/-- The first line of a function: its name, whether it is Python, and whether it is run as root. -/
inductive Head : Str → Option Str → Bool → Bool → Prop
  | plain {n w1 w2 w3 : Str} : (∀ c, c ∈ n → NameChar c) → n ≠ "python".toList → (n = "fakeroot".toList → w1 = []) →
      White w1 → White w2 → White w3 →
      Head (n ++ (w1 ++ '(' :: (w2 ++ ')' :: (w3 ++ ['{'])))) (if n = [] then none else some n) false false
  | python {w s : Str} {n : Option Str} {p f : Bool} : White w → (w ≠ [] ∨ s.head? = some '(') →
      (∀ c t, s = c :: t → isWs c = false) → Head s n p f → Head ("python".toList ++ (w ++ s)) n true f
  | fakeroot {w s : Str} {n : Option Str} {p f : Bool} : White w → w ≠ [] →
      (∀ c t, s = c :: t → isWs c = false) → Head s n p f → Head ("fakeroot".toList ++ (w ++ s)) n p true

/-- The first line of a definition in Python. -/
def Def (s n : Str) : Prop := ∃ w r, s = "def".toList ++ (w ++ (n ++ r)) ∧ White w ∧ w ≠ [] ∧ n ≠ [] ∧ (∀ c, c ∈ n → WordChar c) ∧
  (∀ c t, r = c :: t → ¬ WordChar c) ∧ ':' ∈ r

/-- A line of the body of a definition: it is empty, indented, or a comment. -/
def Body (s : Str) : Prop := ∀ c t, s = c :: t → isWs c = true ∨ c = '#'

/-- Lines that are put together: all but the last one end with a backslash, which goes away. -/
inductive Cont : List Str → Str → Prop
  | last {l : Str} : (rstrip l).getLast? ≠ some '\\' → Cont [l] (rstrip l)
  | more {l p s : Str} {ls : List Str} : rstrip l = p ++ ['\\'] → Cont ls s → Cont (l :: ls) (p ++ s)

/-- The lines of a statement.  None of them is a comment, and the first has more than a backslash. -/
def Lines (b : List Str) (s : Str) : Prop :=
  Cont b s ∧ (∀ l, l ∈ b → (rstrip l).head? ≠ some '#') ∧ (∀ l, b.head? = some l → rstrip l ≠ ['\\']) ∧ s ≠ [] ∧
    s.head? ≠ some '#'

/-- A file and its statements.  The parameter says what statements of one line mean. -/
inductive File (single : Str → Stmt → Prop) : List Str → List Stmt → Prop
  | nil : File single [] []
  | blank {l : Str} {ls : List Str} {out : List Stmt} : rstrip l = [] → File single ls out → File single (l :: ls) out
  | comment {b ls : List Str} {s : Str} {out : List Stmt} : Cont b s → (∀ l, l ∈ b → (rstrip l).head? = some '#') →
      File single ls out → File single (b ++ ls) out
  | func {b body ls : List Str} {s close : Str} {n : Option Str} {py fr : Bool} {out : List Stmt} : Lines b s →
      Head s n py fr → (∀ l, l ∈ body → rstrip l ≠ ['}']) → rstrip close = ['}'] → File single ls out →
      File single (b ++ (body ++ close :: ls))
        (.method (n.getD "__anonymous".toList) (body.map rstrip ++ [[]]) py fr :: out)
  | defn {b body ls : List Str} {s n : Str} {out : List Stmt} : Lines b s → (∀ m py fr, ¬ Head s m py fr) → Def s n →
      (∀ l, l ∈ body → Body (rstrip l)) → (∀ l t, ls = l :: t → ¬ Body (rstrip l)) → File single ls out →
      File single (b ++ (body ++ ls)) (.pyMethod n (s :: body.map rstrip) :: out)
  | statement {b ls : List Str} {s : Str} {st : Stmt} {out : List Stmt} : Lines b s → single s st → File single ls out →
      File single (b ++ ls) (st :: out)

end Bb.BB.Spec
