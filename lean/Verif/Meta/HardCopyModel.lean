import Verif.Py.Str
/-!
# Copying a tree with hard links

Model of `copytree` and `copyhardlinktree` in meta/lib/oe/path.py, which put the output of tasks in place and make the tree of a
partition that is to be changed (sstate.bbclass:343, wic/plugins/source/rootfs.py:125).

The source and the destination are lists of paths below them.  A file is the number of an inode, and the contents are kept by the
inodes, so two names can be one file.  Owners, modes, times and extended attributes are not modelled.
-/

namespace Meta.HardCopy

open Py

/-- What a name stands for.  For a symbolic link it is told if it leads to a directory, as `os.walk` counts it as one then. -/
inductive Node where
  | dir
  | file (ino : Nat)
  | link (target : Str) (toDir : Bool)
deriving DecidableEq

abbrev Path := List Str

abbrev Tree := List (Path × Node)

/-- The disk: contents of inodes, and the first inode that is not used. -/
structure Disk where
  content : Nat → Str
  next : Nat

structure State where
  /-- in the order of `os.walk` -/
  src : Tree
  dst : Tree
  disk : Disk

/-- `find . -type d`, path.py:122. -/
def isDir : Node → Bool
  | .dir => true
  | _ => false

/-- path.py:106-109: the names that `os.walk` gives as files. -/
def isWalkFile : Node → Bool
  | .dir => false
  | .file _ => true
  | .link _ d => !d

/-- path.py:106-118: the first file is linked to `testfile` in the destination, if it can be.  `mayLink` is the answer of the system for
each file. -/
def canHard (mayLink : Node → Bool) (s : State) : Bool :=
  match s.src.find? fun e => isWalkFile e.2 with
  | none => false
  | some e => mayLink e.2 && !(s.dst.any fun f => f.1 == ["testfile".toList])

/-- The first name of a path. -/
def top (p : Path) : Str := p.headD []

/-- The pattern `.??*`, path.py:126-127. -/
def dotted : Str → Bool
  | '.' :: _ :: _ :: _ => true
  | _ => false

/-- The pattern `*`, and `**` without `recursive`, path.py:128-129. -/
def plain : Str → Bool
  | '.' :: _ => false
  | _ => true

/-- path.py:124-129: the patterns given to `cp`, of those that match something. -/
def patterns (src : Tree) : List (Str → Bool) :=
  (if src.any fun e => dotted (top e.1) then [dotted] else []) ++ (if src.any fun e => plain (top e.1) then [plain] else [])

/-- What `cp` is given, with all that is below. -/
def selected (src : Tree) : Tree := src.filter fun e => (patterns src).any fun f => f (top e.1)

/-- path.py:122 and 134: what gets a name in the destination. -/
def linked (src : Tree) : Tree := (selected src).filter (fun e => !isDir e.2) ++ src.filter (fun e => isDir e.2)

/-- A directory is to be put where something else is, or the other way round.  Simplification: all such cases are failures. -/
def clash (new dst : Tree) : Bool :=
  new.any fun e => match dst.lookup e.1 with
    | none => false
    | some n => isDir n != isDir e.2

/-- path.py:94: `tar` makes new files, and hard links between files of the source are kept. -/
def fresh (base : Nat) : Node → Node
  | .file i => .file (base + i)
  | n => n

/-- path.py:88-96, `copytree`. -/
def copytree (s : State) : Option State :=
  if clash s.src s.dst then none
  else some { s with
    dst := s.src.map (fun e => (e.1, fresh s.disk.next e.2)) ++ s.dst
    disk := ⟨fun i => if i < s.disk.next then s.disk.content i else s.disk.content (i - s.disk.next), s.disk.next + s.disk.next⟩ }

/-- path.py:120-135: the directories are made, then `cp -afl` links all that the patterns match.  Without a pattern `cp` fails, and so it
does if something cannot be linked. -/
def linktree (mayLink : Node → Bool) (s : State) : Option State :=
  if (patterns s.src).isEmpty || clash (linked s.src) s.dst || (selected s.src).any fun e => !isDir e.2 && !mayLink e.2 then none
  else some { s with dst := linked s.src ++ s.dst }

/-- path.py:98-137, `copyhardlinktree`, of a directory. -/
def copyhardlinktree (mayLink : Node → Bool) (s : State) : Option State :=
  if s.src.isEmpty then some s else if canHard mayLink s then linktree mayLink s else copytree s

/-! ## Afterwards -/

/-- What programs do with the files of the destination. -/
inductive Op where
  /-- A new file takes the name. -/
  | replace (p : Path) (c : Str)
  | unlink (p : Path)
  /-- The file is opened and its contents are changed. -/
  | write (p : Path) (c : Str)

def apply (s : State) : Op → State
  | .replace p c => { s with
      dst := (p, .file s.disk.next) :: s.dst
      disk := ⟨fun i => if i = s.disk.next then c else s.disk.content i, s.disk.next + 1⟩ }
  | .unlink p => { s with dst := s.dst.filter fun e => e.1 ≠ p }
  | .write p c => match s.dst.lookup p with
    | some (.file i) => { s with disk := { s.disk with content := fun j => if j = i then c else s.disk.content j } }
    | _ => s

end Meta.HardCopy
