import Verif.Py.Dict
/-!
# The directory of downloaded packages

Model of `deb_dl_dir_import` and `deb_dl_dir_export` in `meta/classes-recipe/deb-dl-dir.bbclass`.

Simplified: a file is its name and its content (a number); file names have no line breaks and no white space at
the ends, which `read` would change; the directories have no subdirectories with packages of the same name; and
what the lock encloses happens at once.  Left out: owners, and that a hard link shares later changes of a file
(apt replaces files, and does not write into them).
-/

namespace Meta.DebCache
open Py

/-- A directory: contents by names. -/
abbrev Dir := Dict Nat

/-- `find -iname "*\.deb"` -/
def isDeb (n : Str) : Bool := endsWith (n.map Char.toLower) ".deb".toList

/-- deb-dl-dir.bbclass:140-141: `ln -Pf` replaces a file that is there; if it fails, `cp -n` does not. -/
def importFile (ln : Str → Bool) (archives : Dir) (f : Str × Nat) : Dir :=
  if ln f.1 then archives.set f.1 f.2
  else if (archives.lookup f.1).isSome then archives
  else archives.set f.1 f.2

/-- deb-dl-dir.bbclass:114-144, `deb_dl_dir_import`: from the cache into the directory of apt.  `ln` says for
which files hard links can be made. -/
def importDebs (ln : Str → Bool) (cache archives : Dir) : Dir :=
  (cache.filter fun f => isDeb f.1).foldl (importFile ln) archives

/-- A package in the local repository: its path and its content. -/
abbrev Local := List (Str × Nat)

/-- deb-dl-dir.bbclass:165: `echo "$isar_debs" | grep -F -m 1 "${p##*/}"`, the first line that has the name
somewhere in it. -/
def found (debs : Local) (n : Str) : Option (Str × Nat) := debs.find? fun l => isSub n l.1

/-- deb-dl-dir.bbclass:165-168: whether that package is the same file. -/
def sameLocal (debs : Local) (f : Str × Nat) : Bool :=
  match found debs f.1 with
  | some l => l.2 == f.2
  | none => false

/-- deb-dl-dir.bbclass:161-171: one file of apt's directory. -/
def exportFile (debs : Local) (cache : Dir) (f : Str × Nat) : Dir :=
  if (cache.lookup f.1).isSome then cache
  else if sameLocal debs f then cache
  else cache.set f.1 f.2

/-- deb-dl-dir.bbclass:155-173: the commands that `sudo -Es` runs, with the value of `isar_debs` that they see. -/
def exportSeen (debs : Local) (archives cache : Dir) : Dir :=
  (archives.filter fun f => isDeb f.1).foldl (exportFile debs) cache

/-- deb-dl-dir.bbclass:147-149: the variables that are exported to the commands that `sudo -Es` runs.  Their
text is quoted (`'EOSUDO'`), so that the variables in it are those of the shell that reads it. -/
def exportedVars : List Str := ["pc".toList, "rootfs".toList, "owner".toList]

/-- The value of a variable in that shell. -/
def seen (name : Str) (debs : Local) : Local := if name ∈ exportedVars then debs else []

/-- deb-dl-dir.bbclass:146-174, `deb_dl_dir_export`. -/
def exportDebs (debs : Local) (archives cache : Dir) : Dir := exportSeen (seen "isar_debs".toList debs) archives cache

/-! ## Histories -/

/-- The cache and the directories of apt in the root file systems. -/
structure World where
  cache : Dir
  archives : Nat → Dir

inductive Op where
  /-- `deb_dl_dir_import` for a root file system -/
  | imports (r : Nat) (ln : Str → Bool)
  /-- `deb_dl_dir_export`, with the packages that are in the local repository -/
  | exports (r : Nat) (debs : Local)
  /-- apt changes its directory in any way. -/
  | apt (r : Nat) (dir : Dir)

def step (w : World) : Op → World
  | .imports r ln => { w with archives := fun i => if i = r then importDebs ln w.cache (w.archives r) else w.archives i }
  | .exports r debs => { w with cache := exportDebs debs (w.archives r) w.cache }
  | .apt r dir => { w with archives := fun i => if i = r then dir else w.archives i }

def run (ops : List Op) : World := ops.foldl step ⟨[], fun _ => []⟩

end Meta.DebCache
