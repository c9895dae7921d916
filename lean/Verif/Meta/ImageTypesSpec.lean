import Verif.Meta.ImageTypesModel
/-!
# What the image type properties say
-/

namespace Isar.ImageTypes
open Py

/-- `bt` is the type `t` without conversion suffixes: `t` is `bt` followed by suffixes made of
conversions, and `bt` does not end in such a suffix itself. -/
def IsBase (convs : List Str) (t bt : Str) : Prop :=
  (∃ cs : List Str, (∀ c ∈ cs, c ∈ convs) ∧ t = bt ++ cs.flatMap ('.' :: ·)) ∧
  ∀ c ∈ convs, ¬ ∃ p, bt = p ++ '.' :: c

/-- The types needed for a request: the requested ones, what they depend on, and what
converted types are made from, transitively. -/
inductive Needed (c : Conf) (req : List Str) : Str → Prop
  | req {t} : t ∈ req → Needed c req t
  | dep {t d} : Needed c req t → d ∈ c.deps t → Needed c req d
  | base {t bt} : Needed c req t → IsBase c.convs t bt → Needed c req bt

/-- Conversions as they are used: names without a dot; `sorted` has the same elements. -/
structure Conf.Ok (c : Conf) : Prop where
  nodot : ∀ v ∈ c.convs, '.' ∉ v
  sorted : ∀ v, v ∈ c.sorted ↔ v ∈ c.convs

end Isar.ImageTypes
