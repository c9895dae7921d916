import Verif.Wic.FilemapModel
import Verif.Py.Str

/-!
# Partitions that are copied from files

Model of scripts/lib/wic/plugins/source/rawcopy.py, with `sparse_copy` of scripts/lib/wic/filemap.py as in `Verif.Wic.FilemapModel`.  Simplified:
files have no directories in their names (line 89 would need the same directory in the work directory), labels are left out (lines 112-113), a
name is given as the two parts of `os.path.splitext`, and the programs that unpack are a parameter.
-/

namespace Isar.Wic.RawCopy

open Isar.Wic.Filemap
open Py

/-- What the plugin uses of a `part` line: `--sourceparams=file=...,unpack,skip=...`, the line in its file and `--size` in kB. -/
structure Part where
  stem : Str
  ext : Str
  unpack : Bool
  skip : Nat
  lineno : Nat
  size : Nat

abbrev Dir := Str → Option File

def put (w : Dir) (n : Str) (f : File) : Dir := fun m => if m = n then some f else w m

structure Env where
  /-- `kernel_dir`, rawcopy.py:77-80 -/
  deploy : Dir
  /-- what a program writes for the suffix and the archive, and whether it ends without an error -/
  run : Str → File → File × Bool
  /-- block size and mapped ranges, filemap.py -/
  bs : Nat
  ranges : File → List (Nat × Nat)

/-- rawcopy.py:58-63 -/
def suffixes : List Str := [".bz2".toList, ".gz".toList, ".xz".toList, ".zst".toList]

/-- `source_params['file']` -/
def Part.file (p : Part) : Str := p.stem ++ p.ext

/-- rawcopy.py:94 -/
def Part.dst (p : Part) : Str := p.file ++ '.' :: dec p.lineno

/-- rawcopy.py:50-67 and 87-92: the file to be copied, and the work directory.  The shell makes the file before the program starts; the result of the
program is not looked at (line 67). -/
def source (e : Env) (w : Dir) (p : Part) : Option (Dir × File) :=
  if p.unpack then
    if p.ext ∈ suffixes then
      match e.deploy p.file with
      | none => some (put w p.stem [], [])
      | some f => some (put w p.stem (e.run p.ext f).1, (e.run p.ext f).1)
    else none
  else match e.deploy p.file with
    | none => none
    | some f => some (w, f)

structure Prepared where
  /-- `part.source_file` -/
  file : Str
  /-- `part.size` -/
  size : Nat
deriving DecidableEq

/-- rawcopy.py:70-115; `none` is an exception.  An empty file has no block 0, for which the file map is asked first (filemap.py:346 and 359), and
`truncate` fails if `skip` is behind the end (filemap.py:542-543). -/
def prepare (e : Env) (w : Dir) (p : Part) : Option (Dir × Prepared) :=
  match source e w p with
  | none => none
  | some (w1, src) =>
    if src = [] then none
    else if (w1 p.dst).isNone ∧ src.length < p.skip then none
    else match sparseCopy src e.bs (e.ranges src) (w1 p.dst) p.skip 0 0 with
      | none => none
      | some f =>
        let filesize := (f.length + 1023) / 1024
        some (put w1 p.dst f, ⟨p.dst, if filesize > p.size then filesize else p.size⟩)

/-- scripts/lib/wic/plugins/imager/direct.py: the partitions are prepared one after the other, and assembled after that. -/
def prepareAll (e : Env) : Dir → List Part → Option (Dir × List Prepared)
  | w, [] => some (w, [])
  | w, p :: ps =>
    match prepare e w p with
    | none => none
    | some (w', r) =>
      match prepareAll e w' ps with
      | none => none
      | some (w'', rs) => some (w'', r :: rs)

end Isar.Wic.RawCopy
