import Verif.Bb.SigModel
/-!
# Specification for base hashes
-/

namespace Bb.Sig
open Py

/-- `k` is needed for the name `t`: `t` depends on it, or something that is needed does. -/
inductive Needs (s : Store) (t : Str) : Str → Prop where
  | direct {k : Str} : k ∈ (buildDeps s t).1 → Needs s t k
  | step {k j : Str} : Needs s t k → j ∈ (buildDeps s k).1 → Needs s t j

/-- The value that counts for a name; no value counts like an empty one. -/
def valueText (s : Store) (k : Str) : Str := ((buildDeps s k).2).getD []

/-- Only finitely many names are needed, all of them in `U`. -/
def Within (s : Store) (U : List Str) : Prop := ∀ t, t ∈ s.tasks → ∀ k, Needs s t k → k ∈ U

/-- What a text tests with `bb.utils.contains`. -/
def Tests (c : List (Str × List Str)) (x item : Str) : Prop :=
  ∃ items, c.lookup x = some items ∧ item ∈ items

/-- The test: all words of the item are words of the value. -/
def Holds (v : Option Str) (item : Str) : Prop := ∀ w, w ∈ words item → w ∈ words (v.getD [])

/-- The texts of an entry that are searched for tests. -/
def Entry.testing : Entry → List (List (Str × List Str))
  | .module p => [p.contains]
  | .flag _ _ _ => []
  | .python _ p => [p.contains]
  | .shell _ _ p r => p.contains :: r.map (·.parsed.contains)
  | .plain _ p r => p.contains :: r.map (·.parsed.contains)

/-- The variables that an entry refers to, in its text or in that of a `:remove`. -/
def Entry.refersTo : Entry → List Str
  | .module p => p.refs
  | .flag _ _ p => p.refs
  | .python _ p => p.refs
  | .shell _ _ p r => p.refs ++ (r.map (·.parsed.refs)).flatten
  | .plain _ p r => p.refs ++ (r.map (·.parsed.refs)).flatten

/-- The functions that an entry calls. -/
def Entry.calls : Entry → List Str
  | .module p => p.execs
  | .flag _ _ p => p.execs
  | .python _ p => p.execs
  | .shell _ c p r => c ++ p.execs ++ (r.map (·.parsed.execs)).flatten
  | .plain _ p r => p.execs ++ (r.map (·.parsed.execs)).flatten

end Bb.Sig
