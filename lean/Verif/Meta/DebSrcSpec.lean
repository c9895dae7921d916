import Verif.Py.Str
/-!
# Lists of packages

What the files of packages look like (deb-control(5)), for the properties of `Meta.DebSrc`.
-/

namespace Meta.DebSrc.Spec
open Py

/-- A line of the description of a package. -/
inductive Line where
  | version (v : Str)
  | source (name : Str) (v : Option Str)
  | other (text : Str)

def Line.text : Line → Str
  | .version v => "Version: ".toList ++ v
  | .source n none => "Source: ".toList ++ n
  | .source n (some v) => "Source: ".toList ++ n ++ " (".toList ++ v ++ ")".toList
  | .other t => t

/-- A line that begins with none of the four fields. -/
def Unrelated (t : Str) : Prop :=
  ∀ f, f = "Package:".toList ∨ f = "Version:".toList ∨ f = "Source:".toList ∨ f = "Size:".toList → ¬ ∃ r, t = f ++ r

/-- A package: its name, its version and its source, if that is given, with the source's version, if that is
given. -/
structure Package where
  name : Str
  version : Str
  source : Option (Str × Option Str)

/-- The source of a package and the version of that source. -/
def Package.sourceOf (p : Package) : Str × Str :=
  match p.source with
  | none => (p.name, p.version)
  | some (s, none) => (s, p.version)
  | some (s, some v) => (s, v)

/-- The lines that tell a package's version and source, in either order. -/
def Package.told (p : Package) (ls : List Line) : Prop :=
  match p.source with
  | none => ls = [.version p.version]
  | some (s, v) => ls = [.version p.version, .source s v] ∨ ls = [.source s v, .version p.version]

def Line.related : Line → Bool
  | .other _ => false
  | _ => true

/-- The description of a package: first its name, its size after version and source. -/
structure Describes (p : Package) (lines : List Str) : Prop where
  word : IsWord p.name ∧ IsWord p.version ∧ ∀ s v, p.source = some (s, v) → IsWord s ∧ ∀ v', v = some v' → IsWord v'
  lines : ∃ (mid : List Line) (size : Str) (post : List Str),
    lines = ("Package: ".toList ++ p.name) :: (mid.map Line.text ++ ("Size: ".toList ++ size) :: post) ∧
    (∀ t, Line.other t ∈ mid → Unrelated t) ∧ p.told (mid.filter Line.related) ∧ ∀ t, t ∈ post → Unrelated t

end Meta.DebSrc.Spec
