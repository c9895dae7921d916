import Verif.Meta.SchrootModel
/-!
# What a chroot should have
-/

namespace Meta.Schroot
open Py

/-- A word of SCHROOT_MOUNTS: a directory and where it is mounted, or one path for both. -/
inductive Word : Str → Str → Str → Prop
  | pair {src dst : Str} : ':' ∉ src → Word (src ++ ':' :: dst) src dst
  | one {path : Str} : ':' ∉ path → Word path path path

/-- What a recipe declares to be mounted. -/
inductive Declares (r : Recipe) : Str → Str → Prop
  | baseApt : Declares r r.baseApt "/base-apt".toList
  | workdir : Declares r r.workdir ("/home/builder/".toList ++ r.bpn)
  | downloads : r.dlThere = true → Declares r r.dlDir "/downloads".toList
  | word {w src dst : Str} : w ∈ r.mounts → Word w src dst → Declares r src dst

/-- A line for a private bind mount. -/
def Line (r : Recipe) (x : Str) : Prop :=
  ∃ src dst, Declares r src dst ∧ x = src ++ " ".toList ++ dst ++ " none rw,bind,private 0 0".toList

/-- The lines of the system come first, then each line that is wanted and not there yet, once, and nothing else. -/
def Exact (T : List Str) (W : Str → Prop) (l : List Str) : Prop :=
  ∃ rest, l = T ++ rest ∧ rest.Nodup ∧ ∀ x, x ∈ rest ↔ W x ∧ x ∉ T

/-- Nothing is left. -/
def Clean (e : Entry) : Prop := e.conf = none ∧ e.dir = false ∧ e.fstab = none

end Meta.Schroot
