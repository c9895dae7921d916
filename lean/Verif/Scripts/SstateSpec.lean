import Verif.Scripts.SstateModel
/-!
# What the sstate properties say
-/

namespace Isar.Sstate
open Py

/-- The content of a path. -/
def Fs.get (fs : Fs) (p : Path) : Option File := fs.files.lookup p

/-- `d` is a directory above `p`. -/
def Above (d p : Path) : Prop := ∃ t, t ≠ [] ∧ p = d ++ t

/-- A directory tree: no path occurs twice, no path is both file and directory, and everything
lies in directories of the tree (the base directory is not listed). -/
structure Fs.Wf (fs : Fs) : Prop where
  nodup : (fs.files.map (·.1)).Nodup
  base : [] ∉ fs.dirs
  disjoint : ∀ e ∈ fs.files, e.1 ∉ fs.dirs
  files_in : ∀ e ∈ fs.files, ∀ d, d ≠ [] → Above d e.1 → d ∈ fs.dirs
  dirs_in : ∀ e ∈ fs.dirs, ∀ d, d ≠ [] → Above d e → d ∈ fs.dirs

/-- Does an artifact match the filters of the command line? -/
def Matches (pnFilter : Option (Str → Bool)) (arch : Option Str) (f : Fields) : Prop :=
  (∀ r, pnFilter = some r → r f.pn = true) ∧ (∀ a, arch = some a → a ≠ [] → f.arch = a)

/-- An archive with a matching name that is at least `a` seconds old. -/
def OldArchive (pnFilter : Option (Str → Bool)) (arch : Option Str) (a : Nat)
    (e : Path × File) (f : Fields) : Prop :=
  matchPath (join ['/'] e.1) = some f ∧ Matches pnFilter arch f ∧
  (f.suffix = "tgz".toList ∨ f.suffix = "tar.zst".toList) ∧ (a : Int) ≤ e.2.age

/-- The files of a source directory: no path twice, and no file is also a directory. -/
structure SrcOk (src : List (Path × File)) : Prop where
  nodup : (src.map (·.1)).Nodup
  flat : ∀ e ∈ src, ∀ e' ∈ src, ¬ Above e.1 e'.1
  named : ∀ e ∈ src, e.1 ≠ []

/-- A path below the build or the source directory. -/
def Local (buildDir srcDir path : Str) : Prop :=
  path.head? = some '/' ∧ ((∃ t, path = buildDir ++ t) ∨ (∃ t, path = srcDir ++ t))

/-- A variable that makes a signature depend on the location of the build. -/
def Flagged (ignored : Str → Bool) (buildDir srcDir : Str) (v : Str × Str) : Prop :=
  upperName v.1 = true ∧ ignored v.1 = false ∧
  if v.1 = "SRC_URI".toList then
    ∃ uri ∈ words v.2, ∃ path, uri = "file://".toList ++ path ∧ Local buildDir srcDir path
  else Local buildDir srcDir (lstrip v.2)

end Isar.Sstate
