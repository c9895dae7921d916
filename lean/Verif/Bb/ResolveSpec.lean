import Verif.Bb.ResolveModel
/-!
# What resolving dependencies should do

A recipe can be built if everything it needs can be had; a name can be had if one of the recipes that provide it can
be built.
-/

namespace Bb.Resolve
open Py

/-- Recipe files, names that recipes provide when they are built, and names of packages at run time. -/
inductive Kind where
  | file | name | pkg

/-- What nobody can build: every provider of a name is hopeless, or a recipe needs something hopeless. -/
inductive Hopeless (D : Data) : Kind → Str → Prop
  | name {t : Str} : D.ignored t = false → (∀ x, x ∈ D.choose t → Hopeless D .file x) → Hopeless D .name t
  | pkg {t : Str} : D.ignored t = false → (∀ l x, D.rchoose t = some l → x ∈ l → Hopeless D .file x) → Hopeless D .pkg t
  | dep {fn d : Str} : d ∈ D.deps fn → Hopeless D .name d → Hopeless D .file fn
  | rdep {fn d : Str} : d ∈ D.rdeps fn → Hopeless D .pkg d → Hopeless D .file fn

/-- What has a cause not to be built: a name that has no provider, or one provider with a cause; a recipe that needs
something with a cause. -/
inductive Broken (D : Data) : Kind → Str → Prop
  | none {t : Str} : D.ignored t = false → D.choose t = [] → Broken D .name t
  | one {t x : Str} : D.ignored t = false → x ∈ D.choose t → Broken D .file x → Broken D .name t
  | rnone {t : Str} : D.ignored t = false → (∀ l, D.rchoose t = some l → l = []) → Broken D .pkg t
  | rone {t x : Str} {l : List Str} : D.ignored t = false → D.rchoose t = some l → x ∈ l → Broken D .file x → Broken D .pkg t
  | dep {fn d : Str} : d ∈ D.deps fn ∨ d ∈ D.ideps fn → Broken D .name d → Broken D .file fn
  | rdep {fn d : Str} : d ∈ D.rdeps fn ∨ d ∈ D.irdeps fn → Broken D .pkg d → Broken D .file fn

/-- The recipe files and names that there are: what is needed is among them. -/
structure Universe (D : Data) (files names pkgs : List Str) : Prop where
  choose : ∀ t, t ∈ names → ∀ x, x ∈ D.choose t → x ∈ files
  rchoose : ∀ t, t ∈ pkgs → ∀ l, D.rchoose t = some l → ∀ x, x ∈ l → x ∈ files
  deps : ∀ fn, fn ∈ files → ∀ d, d ∈ D.deps fn ∨ d ∈ D.ideps fn → d ∈ names
  rdeps : ∀ fn, fn ∈ files → ∀ d, d ∈ D.rdeps fn ∨ d ∈ D.irdeps fn → d ∈ pkgs

/-- Every name has at most one recipe that may be used. -/
def Single (D : Data) : Prop :=
  (∀ t, (D.choose t).length ≤ 1) ∧ ∀ t l, D.rchoose t = some l → l.length ≤ 1

end Bb.Resolve
