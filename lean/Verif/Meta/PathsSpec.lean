import Verif.Meta.PathsModel
/-!
# What "inside a directory" means

The location that an absolute path denotes, without symbolic links, is the list of the components
that remain when `.`, `..` and empty components have been resolved (`Py.normComps`).
-/

namespace Isar.Paths
open Py

/-- The absolute path `p` denotes a location strictly below that of the absolute path `d`. -/
def Below (d p : Str) : Prop := ∃ x, x ≠ [] ∧ normComps p = normComps d ++ x

/-- The location that the relative path `r` denotes, seen from the directory `d`. -/
def resolve (d : List Str) (r : Str) : List Str := (splitOn '/' r).foldl (normStep true) d

/-- The absolute text of a path for a process in the directory `cwd`. -/
def full (cwd p : Str) : Str := if isabs p then p else pathJoin cwd p

/-- How a system call resolves a path in a process whose root directory is the directory with the
components `root`: `Resolves fs root k cur todo r` says that from the place `cur` (components below
the root directory, without symbolic links) the components `todo` lead to the place `r`, with `k`
symbolic links followed.  A `..` in the root directory stays there; the text of a symbolic link is
resolved from the directory of the link, or from the root directory if it is absolute. -/
inductive Resolves (fs : Files) (root : List Str) : Nat → List Str → List Str → List Str → Prop
  | done (cur : List Str) : Resolves fs root 0 cur [] cur
  | skip {k : Nat} {cur todo r : List Str} {d : Str} : d = [] ∨ d = dot →
      Resolves fs root k cur todo r → Resolves fs root k cur (d :: todo) r
  | up {k : Nat} {cur todo r : List Str} : Resolves fs root k cur.dropLast todo r →
      Resolves fs root k cur (dotdot :: todo) r
  | file {k : Nat} {cur todo r : List Str} {d : Str} : Clean d →
      fs.link (render (root ++ (cur ++ [d]))) = none →
      Resolves fs root k (cur ++ [d]) todo r → Resolves fs root k cur (d :: todo) r
  | link {k : Nat} {cur todo r : List Str} {d t : Str} : Clean d →
      fs.link (render (root ++ (cur ++ [d]))) = some t →
      Resolves fs root k (if isabs t then [] else cur) (splitOn '/' t ++ todo) r →
      Resolves fs root (k + 1) cur (d :: todo) r

/-- No place on the way from the root directory to `cs` is a symbolic link. -/
def NoLinks (fs : Files) (root cs : List Str) : Prop :=
  ∀ k, 0 < k → k ≤ cs.length → fs.link (render (root ++ cs.take k)) = none

/-- The texts of all links are written without needless parts (`.`, `//`, `x/..`). -/
def PlainLinks (fs : Files) : Prop := ∀ p t, fs.link p = some t → normpath t = t ∧ t ≠ dot

/-- A name that ends in a slash never denotes a link (`lstat` follows it). -/
def SlashNoLink (fs : Files) : Prop :=
  ∀ p, p.getLast? = some '/' → fs.link p = none

end Isar.Paths
