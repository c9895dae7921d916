import Verif.Wic.KsModel
import Verif.Py.Path
/-!
# The date of the sources

Model of meta/lib/oe/reproducible.py, of `create_source_date_epoch_stamp` and `get_source_date_epoch_value` in
meta/classes-global/base.bbclass and of the end of `do_rootfs_finalize` in meta/classes-recipe/image.bbclass.  Times are whole
seconds, as `int()` makes them.  Simplifications: no links to directories; the directories of the file system do not change
while they are walked.
-/

namespace Isar.Epoch

open Py

/-- A directory: its files with their times and its directories, in the order in which the system lists them. -/
inductive Dir where
  | mk (files : List (Str × Int)) (dirs : List (Str × Dir))

def Dir.files : Dir → List (Str × Int)
  | .mk f _ => f

def Dir.dirs : Dir → List (Str × Dir)
  | .mk _ d => d

mutual
/-- reproducible.py:130-131: the files that `os.walk` comes to, without hidden ones. -/
def walked : Dir → List (Str × Int)
  | .mk fs ds => fs.filter (fun f => f.1.head? ≠ some '.') ++ walkedAll ds

def walkedAll : List (Str × Dir) → List (Str × Int)
  | [] => []
  | d :: ds => walked d.2 ++ walkedAll ds
end

/-- reproducible.py:133-144: one file. -/
def newest (sde : Option Int) (f : Str × Int) : Option Int :=
  if f.1 = "singletask.lock".toList then sde
  else
    match sde with
    | none => some f.2
    | some e => if e = 0 ∨ f.2 > e then some f.2 else sde

/-- reproducible.py:122-148, `get_source_date_epoch_from_youngest_file` -/
def youngest (sourcedir workdir : Str) (src : Dir) : Option Int :=
  if sourcedir = workdir then none else (walked src).foldl newest none

/-- reproducible.py:92-93: directories that are not looked into. -/
def exclude : List Str :=
  ["build".toList, "image".toList, "license-destdir".toList, "patches".toList, "pseudo".toList, "recipe-sysroot".toList,
   "recipe-sysroot-native".toList, "sysroot-destdir".toList, "temp".toList]

mutual
/-- reproducible.py:94-97: the first directory with a `.git`, from the top. -/
def walkGit : Dir → Option (List Str)
  | .mk _ ds =>
    if (ds.map (·.1)).contains ".git".toList then some [] else walkGitAll ds

def walkGitAll : List (Str × Dir) → Option (List Str)
  | [] => none
  | d :: ds =>
    if exclude.contains d.1 then walkGitAll ds
    else
      match walkGit d.2 with
      | some p => some (d.1 :: p)
      | none => walkGitAll ds
end

/-- What is known: the variables, the directories, and the programs. -/
structure World where
  workdir : Str
  sourcedir : Str
  srcUri : Str
  /-- `SOURCE_DATE_EPOCH_FALLBACK` -/
  fallback : Option Str
  isdir : Str → Bool
  work : Dir
  src : Dir
  /-- The time of the last commit; `none` without a valid HEAD. -/
  gitTime : Str → Option Int

/-- reproducible.py:77-100, `find_git_folder` -/
def findGit (w : World) : Option Str :=
  if w.isdir (pathJoin w.workdir "git/.git".toList) then some (pathJoin w.workdir "git/.git".toList)
  else if w.isdir (pathJoin w.sourcedir ".git".toList) then some (pathJoin w.sourcedir ".git".toList)
  else (walkGit w.work).map fun p => pathJoin (p.foldl pathJoin w.workdir) ".git".toList

/-- reproducible.py:102-117, `get_source_date_epoch_from_git` -/
def fromGit (w : World) : Option Int :=
  if isSub "git://".toList w.srcUri || isSub "gitsm://".toList w.srcUri then
    match findGit w with
    | none => none
    | some g => w.gitTime g
  else none

/-- reproducible.py:150-156, `fixed_source_date_epoch`; `none` is an exception. -/
def fixed (w : World) : Option Int :=
  match w.fallback with
  | none => some 0
  | some t => if t = [] then some 0 else Wic.Ks.pyInt t

/-- reproducible.py:158-163: `x or y` for numbers; zero is false. -/
def orElse (x : Option Int) (y : Option Int) : Option Int :=
  match x with
  | none => y
  | some n => if n = 0 then y else some n

/-- reproducible.py:158-163, `get_source_date_epoch` -/
def epoch (w : World) : Option Int :=
  orElse (fromGit w) (orElse (youngest w.sourcedir w.workdir w.src) (fixed w))

/-- `str(n)` -/
def showInt (n : Int) : Str := if n < 0 then '-' :: dec n.natAbs else dec n.natAbs

/-- Files: the path and the content, the first entry counts. -/
abbrev Files := List (Str × Str)

/-- The cached value and the file it is from. -/
abbrev Cache := Option (Str × Str)

/-- reproducible.py:173-184: the value that the file has; `none` is an exception. -/
def valueOf (fallback : Str) (fs : Files) (efile : Str) : Option Int :=
  match Wic.Ks.pyInt fallback with
  | none => none
  | some b =>
    match fs.lookup efile with
    | none => some b
    | some s =>
      match Wic.Ks.pyInt s with
      | some n => some n
      | none => some b

/-- reproducible.py:165-187, `epochfile_read`: the value and the cache. -/
def read (fallback : Str) (fs : Files) (c : Cache) (efile : Str) : Option (Str × Cache) :=
  match c with
  | some (v, e) =>
    if v ≠ [] ∧ e = efile then some (v, c)
    else (valueOf fallback fs efile).map fun n => (showInt n, some (showInt n, efile))
  | none => (valueOf fallback fs efile).map fun n => (showInt n, some (showInt n, efile))

/-- reproducible.py:189-197, `epochfile_write`: the files after each step; a crash may be after each of them.  The content may
be written in parts. -/
def writeSteps (n : Int) (efile : Str) (fs : Files) : List Files :=
  let tmp := efile ++ ".new".toList
  [fs, (tmp, []) :: fs] ++ ((List.range (showInt n).length).map fun k => (tmp, (showInt n).take (k + 1)) :: fs) ++
    [(efile, showInt n) :: (fs.filter fun f => f.1 ≠ tmp)]

/-- The files when it is done. -/
def write (n : Int) (efile : Str) (fs : Files) : Files :=
  (efile, showInt n) :: (fs.filter fun f => f.1 ≠ efile ++ ".new".toList)

/-- base.bbclass:357-362, `create_source_date_epoch_stamp` -/
def stamp (w : World) (efile : Str) (fs : Files) : Option Files := (epoch w).map fun n => write n efile fs

/-- image.bbclass:481-484: `find -newermt` and `touch`; `date` and `find` write and read a time as text. -/
def finalize (format : Int → Str) (parse : Str → Int) (sde : Int) (files : List (Str × Int)) : List (Str × Int) :=
  files.map fun f => if f.2 > parse (format sde) then (f.1, sde) else f

end Isar.Epoch
