import Verif.Bb.ProvModel
/-!
# Which recipe is meant
-/

namespace Bb.Prov
open Py

/-- The file `g` is not better than `f`: its layer has a lower priority; or the same, and it is less preferred
by default; or equally, and it is not newer. -/
def NotBetter (c : Cache) (g f : Str) : Prop :=
  c.prio g < c.prio f ∨ c.prio g = c.prio f ∧
    (c.dp g < c.dp f ∨ c.dp g = c.dp f ∧ Version.vercmp (vers c g) (vers c f) ≤ 0)

/-- The best file. -/
def Best (c : Cache) (fs : List Str) (f : Str) : Prop := f ∈ fs ∧ ∀ g, g ∈ fs → NotBetter c g f

/-- The text begins with an epoch. -/
def HasEpoch (s : Str) : Prop := ∃ d r, d ≠ [] ∧ (∀ x, x ∈ d → Char.isDigit x = true) ∧ s = d ++ ':' :: r

/-- A preferred version: an epoch, if there is one, and the version. -/
inductive Names : Str → Option Str → Str → Prop
  | plain {v : Str} : ¬ HasEpoch v → Names v none v
  | epoch {e v : Str} : e ≠ [] → (∀ x, x ∈ e → Char.isDigit x = true) → ¬ HasEpoch v → Names (e ++ ':' :: v) (some e) v

/-- A file has the preferred version: it has the epoch, if one is given, and the version, or, if the given one
ends in `%`, one that begins with what is before. -/
def Fits (c : Cache) (e : Option Str) (v : Str) (f : Str) : Prop :=
  (∀ x, e = some x → (c.ver f).1 = x) ∧ ((c.ver f).2.1 = v ∨ ∃ p r, v = p ++ ['%'] ∧ (c.ver f).2.1 = p ++ r)

/-- A file with the preferred version, in the layer with the highest priority that has one. -/
def BestFit (c : Cache) (fs : List Str) (e : Option Str) (v : Str) (f : Str) : Prop :=
  f ∈ fs ∧ Fits c e v f ∧ ∀ g, g ∈ fs → Fits c e v g → c.prio g ≤ c.prio f

end Bb.Prov
