import Verif.Meta.ProgressModel
/-! # Specification for the progress handlers (C85, C86, C87) -/

namespace Isar.Progress.Spec
open Py

/-- `l` is a complete line: it ends with its only line feed. -/
def IsLine (l : Str) : Prop := ∃ t, l = t ++ ['\n'] ∧ '\n' ∉ t

/-- The text consists of the complete lines `ls` and the unfinished line `rest`. -/
def Cut (text : Str) (ls : List Str) (rest : Str) : Prop :=
  text = ls.flatten ++ rest ∧ (∀ l ∈ ls, IsLine l) ∧ '\n' ∉ rest

/-- A text of one or more digits with the given value. -/
def Number (s : Str) (n : Nat) : Prop := s ≠ [] ∧ (∀ c ∈ s, c.isDigit = true) ∧ decVal s = n

/-- The line announces `n` packages: "1 upgraded, 2 newly installed". -/
def AnnouncesPackages (line : Str) (n : Nat) : Prop :=
  ∃ a b u i x, Number a u ∧ Number b i ∧ n = u + i ∧
    line = a ++ " upgraded, ".toList ++ b ++ " newly installed".toList ++ x

/-- The line announces `n` modules: "Total number of modules: 7". -/
def AnnouncesModules (line : Str) (n : Nat) : Prop :=
  ∃ a x, Number a n ∧ (∀ c x', x = c :: x' → c.isDigit = false) ∧
    line = "Total number of modules: ".toList ++ a ++ x

/-- What the line announces to a handler: the number of steps to come. -/
def Announces (k : Kind) (line : Str) (steps : Nat) : Prop :=
  match k with
  | .base => ∃ n, AnnouncesPackages line n ∧ steps = n
  | .download => ∃ n, AnnouncesPackages line n ∧ steps = n
  | .install => ∃ n, AnnouncesPackages line n ∧ steps = 2 * n
  | .initrd => ∃ n, AnnouncesModules line n ∧ steps = max 1 (n / 2)

/-- How many steps a line stands for, if the handler looks at it at all. -/
def stepsOf (k : Kind) (line : Str) : Option Nat :=
  let pre (s : String) : Bool := s.toList.isPrefixOf line
  match k with
  | .base => none
  | .download => if pre "Get:" then some 1 else none
  | .install => if pre "Preparing to unpack" || pre "Setting up" then some 1 else none
  | .initrd =>
    if pre "Adding module" || pre "dracut-install: cp" ||
        pre "dracut-install: Failed to find module" then some 1
    else if pre "(excluding" then some (line.count ' ') else none

/-- The sums of the beginnings of a list. -/
def sums : Nat → List Nat → List Nat
  | _, [] => []
  | a, x :: xs => (a + x) :: sums (a + x) xs

/-- No value is smaller than one before it. -/
def NeverBack (l : List Rat) : Prop := l.Pairwise (· ≤ ·)

end Isar.Progress.Spec
