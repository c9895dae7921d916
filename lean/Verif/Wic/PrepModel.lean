import Verif.Py.Str
/-!
# The content of a root partition

Model of scripts/lib/wic/plugins/source/rootfs.py: the copy of the root file system of a partition, with what is
included and excluded.  A file system is a list of absolute paths with what is there; files are hard links to
inodes, which have contents.  Simplifications: `pseudo` (owners) is left out; links that go in circles, and paths
that take more than `k` steps, are errors; the shell gets only names without special characters, so that all it
does with a command is to cut it at white space; `rm` takes a path as it is, without following links.
-/

namespace Isar.Wic.Prep

open Py

/-- An absolute path: its names. -/
abbrev Path := List Str

/-- What is at a path. -/
inductive Node where
  | file (inode : Nat)
  | dir
  | link (target : Str)
  deriving DecidableEq, Repr

abbrev Fs := List (Path × Node)

/-- The paths, the contents of inodes, and the next free inode. -/
structure World where
  fs : Fs
  store : List (Nat × Str)
  next : Nat
  deriving DecidableEq, Repr

/-- The text of a path. -/
def text (p : Path) : Str := '/' :: join ['/'] p

/-- The names in a text of a path. -/
def comps (s : Str) : List Str := (splitOn '/' s).filter fun c => c ≠ [] ∧ c ≠ ['.']

/-- `os.path.realpath` of Python: `path` is resolved, the rest is to be done. -/
def real (fs : Fs) : Nat → Path → List Str → Option Path
  | _, path, [] => some path
  | 0, _, _ :: _ => none
  | k + 1, path, c :: rest =>
    if c = ['.', '.'] then real fs k path.dropLast rest
    else
      match fs.lookup (path ++ [c]) with
      | some (.link t) => real fs k (if startsWith t ['/'] then [] else path) (comps t ++ rest)
      | _ => real fs k (path ++ [c]) rest

/-- rootfs.py:36-49, `__validate_path`; `none` is `sys.exit(1)`. -/
def validate (fs : Fs) (k : Nat) (root : Path) (p : Str) : Option Path :=
  if startsWith p ['/'] then none
  else
    match real fs k [] (root ++ comps p), real fs k [] root with
    | some full, some r => if startsWith (text full) (text r) then some full else none
    | _, _ => none

/-- `rm -rf` of one path. -/
def rmTree (fs : Fs) (p : Path) : Fs := if p = [] then fs else fs.filter fun e => !p.isPrefixOf e.1

/-- A word on the command line, from the working directory. -/
def wordPath (cwd : Path) (w : Str) : Path := if startsWith w ['/'] then comps w else cwd ++ comps w

/-- rootfs.py:214, 218: `"rm -rf %s" % …`, given to a shell (misc.py:128-177). -/
def rmWords (cwd : Path) (fs : Fs) (t : Str) : Fs := (words t).foldl (fun f w => rmTree f (wordPath cwd w)) fs

/-- `os.listdir`. -/
def listdir (fs : Fs) (p : Path) : List Str :=
  fs.filterMap fun e => if e.1.dropLast = p then e.1.getLast? else none

/-- rootfs.py:198-219: one excluded path. -/
def excludeOne (k : Nat) (cwd root : Path) (fs : Fs) (p : Str) : Option Fs :=
  match validate fs k root p with
  | none => none
  | some full =>
    match fs.lookup full with
    | none => some fs
    | some n =>
      if endsWith p ['/'] then
        if n = .dir then some ((listdir fs full).foldl (fun f x => rmWords cwd f (text (full ++ [x]))) fs)
        else none
      else some (rmWords cwd fs (text full))

/-- rootfs.py:198: all of them. -/
def excludeAll (k : Nat) (cwd root : Path) : Fs → List Str → Option Fs
  | fs, [] => some fs
  | fs, p :: ps =>
    match excludeOne k cwd root fs p with
    | none => none
    | some f => excludeAll k cwd root f ps

/-- An entry is made or replaced. -/
def put (fs : Fs) (p : Path) (n : Node) : Fs := (p, n) :: fs.filter fun e => e.1 ≠ p

/-- What is in an archive. -/
inductive Member where
  | file (content : Str)
  | dir
  | link (target : Str)
  deriving DecidableEq, Repr

/-- A new file. -/
def putFile (w : World) (p : Path) (c : Str) : World := ⟨put w.fs p (.file w.next), (w.next, c) :: w.store, w.next + 1⟩

/-- rootfs.py:190: `tar xf`, one member: what is there is unlinked first, a directory stays.  An error if a
directory is there and no directory comes. -/
def extractOne (dest : Path) (w : World) (m : List Str × Member) : Option World :=
  match m.2, w.fs.lookup (dest ++ m.1) with
  | .dir, some .dir => some w
  | .dir, _ => some { w with fs := put w.fs (dest ++ m.1) .dir }
  | _, some .dir => none
  | .file c, _ => some (putFile w (dest ++ m.1) c)
  | .link t, _ => some { w with fs := put w.fs (dest ++ m.1) (.link t) }

/-- rootfs.py:190: all members. -/
def extract (dest : Path) : World → List (List Str × Member) → Option World
  | w, [] => some w
  | w, m :: ms =>
    match extractOne dest w m with
    | none => none
    | some w1 => extract dest w1 ms

/-- rootfs.py:185: `Path(destination).mkdir(parents=True, exist_ok=True)`: each directory above, if it is
missing.  An error if something else is there. -/
def mkdirs (w : World) : Path → List Str → Option World
  | _, [] => some w
  | at_, n :: ns =>
    match w.fs.lookup (at_ ++ [n]) with
    | some .dir => mkdirs w (at_ ++ [n]) ns
    | some _ => none
    | none => mkdirs { w with fs := put w.fs (at_ ++ [n]) .dir } (at_ ++ [n]) ns

/-- rootfs.py:143-196: one path to be included: its archive, and where it goes to.  The commands are cut at white
space too: with any in the path of the destination `tar` fails. -/
def includeOne (k : Nat) (root : Path) (w : World) (i : List (List Str × Member) × Option Str) : Option World :=
  match i.2 with
  | none => extract root w i.1
  | some p =>
    match validate w.fs k root p with
    | none => none
    | some dest =>
      match mkdirs w [] dest with
      | none => none
      | some w1 => if words (text dest) = [text dest] then extract dest w1 i.1 else none

/-- rootfs.py:143: all of them. -/
def includeAll (k : Nat) (root : Path) : World → List (List (List Str × Member) × Option Str) → Option World
  | w, [] => some w
  | w, i :: is =>
    match includeOne k root w i with
    | none => none
    | some w1 => includeAll k root w1 is

/-- oe/path.py:98-137, `copyhardlinktree`: directories are made, all else is linked.
Simplification: names of a dot and one more character are not left out here; see `Meta/HardCopy*`. -/
def copyLinks (fs : Fs) (src dst : Path) : Fs :=
  (dst, .dir) :: fs.filterMap (fun e => if src.isPrefixOf e.1 ∧ e.1 ≠ src then
    some (dst ++ e.1.drop src.length, e.2) else none) ++ fs

/-- What a line of the kickstart file says about a partition. -/
structure Part where
  lineno : Nat
  rootfsDir : Path
  changeDirectory : Option Str
  includePath : List (List (List Str × Member) × Option Str)
  excludePath : List Str
  /-- The new `fstab`, if the mount points of partitions are to be written to it. -/
  fstab : Option Str

/-- rootfs.py:113: the new root file system. -/
def newRoot (workdir : Path) (n : Nat) : Path := workdir ++ ["rootfs".toList ++ dec n]

/-- rootfs.py:118-124: the directory that is copied. -/
def origDir (fs : Fs) (k : Nat) (p : Part) : Option Path :=
  match p.changeDirectory with
  | none => some p.rootfsDir
  | some cd => validate fs k p.rootfsDir (if endsWith cd ['/'] then cd.dropLast else cd)

/-- rootfs.py:221-232: the new `fstab`, if there is one (and `etc` is a directory, not a link); `install` unlinks the
old one first. -/
def putFstab (w : World) (root : Path) (f : Option Str) : World :=
  match f with
  | none => w
  | some c =>
    match w.fs.lookup (root ++ ["etc".toList, "fstab".toList]) with
    | none => w
    | some _ => putFile w (root ++ ["etc".toList, "fstab".toList]) c

/-- rootfs.py:107-232: the copy with all changes, if there are any to be made; and where it is. -/
def prepare (k : Nat) (cwd workdir : Path) (w : World) (p : Part) : Option (World × Path) :=
  if p.excludePath = [] ∧ p.includePath = [] ∧ p.changeDirectory = none ∧ p.fstab = none then some (w, p.rootfsDir)
  else
    let root := newRoot workdir p.lineno
    let fs0 := rmTree w.fs root
    match origDir fs0 k p with
    | none => none
    | some src =>
      match includeAll k root { w with fs := copyLinks fs0 src root } p.includePath with
      | none => none
      | some w1 =>
        match excludeAll k cwd root w1.fs p.excludePath with
        | none => none
        | some fs2 => some (putFstab { w1 with fs := fs2 } root p.fstab, root)

end Isar.Wic.Prep
