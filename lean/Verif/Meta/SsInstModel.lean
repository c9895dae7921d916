import Verif.Py.Path
import Verif.Py.Sort
import Verif.Py.Dict
/-!
# Installing files into shared directories, and removing them

Model of `sstate_install` and `sstate_clean_manifest` (`meta/classes-global/sstate.bbclass:218-350` and
`497-531`), for a task with one input and one output directory, as all tasks of Isar have that have any
(`do_copy_boot_files`, `do_generate_initramfs`).

The file system is a dictionary from absolute paths to what is there.  Paths are taken literally: there are
no links in the directories of a path.  Hooks, the index of manifests and locks (Isar has none here) are
left out.
-/

namespace Meta.SsInst
open Py

/-- What is at a path. -/
inductive Node where
  | file (content : Nat)
  | link (target : Str)
  | dir
deriving DecidableEq, Repr

abbrev Fs := Dict Node

/-- An entry of the input directory, with its path below it. -/
structure Entry where
  rel : Str
  node : Node
deriving DecidableEq, Repr

/-- `s.replace(p, r)` for a text `p` that is not empty; the number is what is left to skip. -/
def replaceGo (p r : Str) : Nat → Str → Str
  | _, [] => []
  | n + 1, _ :: s => replaceGo p r n s
  | 0, c :: s => if startsWith (c :: s) p then r ++ replaceGo p r (p.length - 1) s
    else c :: replaceGo p r 0 s

/-- A task that installs files. -/
structure Task where
  /-- The input directory, `state[1]`. -/
  src : Str
  /-- The output directory, `state[2]`. -/
  dst : Str
  /-- What `os.walk` finds. -/
  tree : List Entry
  /-- `SSTATE_ALLOW_OVERLAP_FILES`. -/
  allowed : Str

/-- sstate.bbclass:246-247, 251-252: the path that is recorded for an entry. -/
def recorded (t : Task) (e : Entry) : Str := replaceGo t.src t.dst 0 (t.src ++ "/".toList ++ e.rel)

/-- sstate.bbclass:245-256: what is recorded as a file.  Links to directories are among them. -/
def sharedFiles (t : Task) : List Str := (t.tree.filter fun e => e.node ≠ .dir).map (recorded t)

/-- sstate.bbclass:257-259: what is recorded as a directory. -/
def sharedDirs (t : Task) : List Str :=
  (t.tree.filter fun e => e.node = .dir).map fun e =>
    if endsWith (recorded t e) "/".toList then recorded t e else recorded t e ++ "/".toList

/-- sstate.bbclass:265: `os.path.exists(f) and not os.path.islink(f)`. -/
def occupied (fs : Fs) (p : Str) : Bool :=
  match fs.lookup p with
  | some (.file _) => true
  | some .dir => true
  | _ => false

/-- sstate.bbclass:266-272. -/
def overlapAllowed (t : Task) (f : Str) : Bool :=
  (words t.allowed).any fun w => startsWith (normpath f) (normpath w)

/-- sstate.bbclass:261-280: the files that are there already. -/
def conflicts (t : Task) (fs : Fs) : List Str :=
  (sharedFiles t).filter fun f => occupied fs f && !overlapAllowed t f

/-- sstate.bbclass:310-322: the lines of the manifest. -/
def manifestLines (t : Task) : List Str :=
  sharedFiles t ++ (sortBy (fun a b => decide (a.length ≤ b.length)) (sharedDirs t)).reverse

/-- The text of the manifest. -/
def manifestText (t : Task) : Str := ((manifestLines t).map (· ++ "\n".toList)).flatten

/-- What the task changes: the file system and its manifest. -/
structure World where
  fs : Fs
  man : Option Str
deriving DecidableEq, Repr

/-- A step that changes something. -/
inductive Op where
  /-- The manifest is opened, which makes it empty. -/
  | openMan
  /-- A character of the manifest gets to the disk. -/
  | writeMan (c : Char)
  /-- A directory is made. -/
  | mkdir (p : Str)
  /-- A file or link is put in place. -/
  | put (p : Str) (n : Node)
deriving DecidableEq, Repr

/-- meta/lib/oe/path.py:98-137, `copyhardlinktree`: `tar` makes the directories, where it replaces a
file by a directory, and `cp -afl` puts the files in place, where it replaces files and links.  Nothing is
done if it fails: a link where a directory should be, or a directory where a file should be. -/
def apply (w : World) : Op → World
  | .openMan => { w with man := some [] }
  | .writeMan c => { w with man := w.man.map (· ++ [c]) }
  | .mkdir p =>
    match w.fs.lookup p with
    | some .dir => w
    | some (.link _) => w
    | _ => { w with fs := w.fs.set p .dir }
  | .put p n =>
    match w.fs.lookup p with
    | some .dir => w
    | _ => { w with fs := w.fs.set p n }

/-- The path at which an entry is put (meta/lib/oe/path.py:119-135). -/
def placed (t : Task) (e : Entry) : Str := t.dst ++ "/".toList ++ e.rel

/-- meta/lib/oe/path.py:119-135: the steps of the copy.  Simplification: names of a dot and one more character are not left out here; see
`Meta/HardCopy*`. -/
def copyOps (t : Task) : List Op :=
  ((t.tree.filter fun e => e.node = .dir).map fun e => .mkdir (placed t e)) ++
    ((t.tree.filter fun e => e.node ≠ .dir).map fun e => .put (placed t e) e.node)

/-- sstate.bbclass:310-347: the steps after the checks. -/
def installOps (t : Task) : List Op :=
  .openMan :: (manifestText t).map .writeMan ++ copyOps t

inductive Err where
  /-- `Package already staged`. -/
  | staged
  /-- Files exist already. -/
  | conflict
deriving DecidableEq, Repr

/-- sstate.bbclass:229-304: the checks, which change nothing. -/
def check (t : Task) (w : World) : Option Err :=
  if w.man.isSome then some .staged
  else if conflicts t w.fs ≠ [] then some .conflict
  else none

def runOps (w : World) (ops : List Op) : World := ops.foldl apply w

/-- `sstate_install`, sstate.bbclass:218-350. -/
def install (t : Task) (w : World) : Except Err World :=
  match check t w with
  | some e => .error e
  | none => .ok (runOps w (installOps t))

/-- The steps that were done when the process has ended, was killed or has failed: part of the manifest, or
all of it and some of the copies.  In which order `tar` and `cp` copy is not known, and `cp` goes on with
other files when one fails. -/
inductive Done (t : Task) : List Op → Prop where
  | manifest (n : Nat) : Done t ((Op.openMan :: (manifestText t).map .writeMan).take n)
  | copies (cs : List Op) (h : ∀ o, o ∈ cs → o ∈ copyOps t) :
    Done t (Op.openMan :: (manifestText t).map .writeMan ++ cs)

/-! ## Removing -/

/-- `os.listdir` of a directory is empty. -/
def isEmpty (fs : Fs) (p : Str) : Bool := fs.all fun e => !startsWith e.1 (p ++ "/".toList)

/-- `s[:-1]`. -/
def dropLast (s : Str) : Str := s.dropLast

/-- sstate.bbclass:504-522: the loop body, without `prefix`. -/
def cleanLine (canrace : Bool) (fs : Fs) (line : Str) : Fs :=
  let entry := strip line
  if endsWith entry "/".toList then
    match fs.lookup (dropLast entry) with
    | some (.link _) => fs.del (dropLast entry)
    | some .dir => if isEmpty fs (dropLast entry) && !canrace then fs.del (dropLast entry) else fs
    | _ => fs
  else
    match fs.lookup entry with
    | some (.file _) => fs.del entry
    | some (.link _) => fs.del entry
    | _ => fs

/-- The lines that are read: a line ends at a line feed or a carriage return (that `\r\n` gives an empty
line here does not matter, because nothing is done for it). -/
def readLines (text : Str) : List Str := (splitOn '\n' text).flatMap (splitOn '\r')

/-- sstate.bbclass:497-531, `sstate_clean_manifest`; sstate.bbclass:548: only if there is a manifest. -/
def clean (canrace : Bool) (w : World) : World :=
  match w.man with
  | none => w
  | some text => { fs := (readLines text).foldl (cleanLine canrace) w.fs, man := none }

end Meta.SsInst
