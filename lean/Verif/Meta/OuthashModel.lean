import Verif.Py.Path
import Verif.Py.Sort
import Verif.Py.Dict
import Verif.Meta.SsInstModel
/-!
# The hash of the output of a task

Model of `OEOuthashBasic` in meta/lib/oe/sstatesig.py:495-684, the function that `SSTATE_HASHEQUIV_METHOD` names
(meta/classes-global/sstate.bbclass:122).  What is modelled is the text that goes into the checksum (and into the file
`sigfile`).  The checksum itself, `fnmatch` and `re.sub` are parameters.  Contents are lists of characters, one for a byte.
Simplifications: files do not change while they are read; names can be written as UTF-8; times are not negative; the only
exception is the one for unknown owners.
-/

namespace Isar.Outhash

open Py

/-- What `lstat` says about the type of a file, with what belongs to the type. -/
inductive Kind where
  | dir
  | chr (major minor : Nat)
  | blk (major minor : Nat)
  | sock
  | lnk (target : Str)
  | fifo
  | reg (content : Str)
deriving DecidableEq

/-- The permission bits of `st_mode`. -/
structure Mode where
  rusr : Bool
  wusr : Bool
  xusr : Bool
  suid : Bool
  rgrp : Bool
  wgrp : Bool
  xgrp : Bool
  sgid : Bool
  roth : Bool
  woth : Bool
  xoth : Bool
  vtx : Bool
deriving DecidableEq

/-- What `lstat` says about a file.  Owner and group are the names of the accounts, if there are any. -/
structure St where
  kind : Kind
  mode : Mode
  owner : Option Str
  group : Option Str
  mtime : Nat
deriving DecidableEq

/-- A file tree, with the entries of directories in the order in which the system lists them.  `isdir` says of a link that it
leads to a directory. -/
inductive Node where
  | leaf (st : St) (isdir : Bool)
  | dir (st : St) (kids : List (Str × Node))

/-- What the function reads besides the files. -/
structure Cfg where
  /-- The environment variable `PSEUDO_DISABLED`. -/
  pseudo : Option Str
  task : Str
  /-- `HASHEQUIV_HASH_VERSION`. -/
  version : Option Str
  /-- `HASHEQUIV_EXTRA_SIGDATA`. -/
  extra : Option Str
  /-- `SSTATE_PKGSPEC`. -/
  pkgspec : Str
  /-- `SSTATE_HASHEQUIV_FILEMAP`. -/
  filemap : Option Str
  /-- `os.path.normpath(path)`. -/
  basepath : Str
  /-- `fnmatch.fnmatch(path, pattern)`. -/
  fnmatch : Str → Str → Bool
  /-- `re.sub(pattern, b'', chunk)`. -/
  resub : Str → Str → Str
  /-- The hexadecimal checksum of a content. -/
  sha : Str → Str

/-- sstatesig.py:519-521. -/
def includeOwners (c : Cfg) : Bool :=
  c.pseudo == some "0".toList && !(isSub "package_write_".toList c.task || c.task == "package_qa".toList)

/-- sstatesig.py:522-525. -/
def includeTimes (c : Cfg) : Bool := c.task == "package".toList

/-- sstatesig.py:523-526. -/
def includeRoot (c : Cfg) : Bool := !(c.task == "package".toList)

/-- sstatesig.py:531-536: one entry of the file map. -/
def mapStep (task : Str) (m : Dict (List Str)) (e : Str) : Dict (List Str) :=
  match splitOn ':' e with
  | [t, p, r] => if t ≠ task then m else m.set p (((m.lookup p).getD []) ++ [r])
  | _ => m

/-- sstatesig.py:530-536. -/
def filemaps (c : Cfg) : Dict (List Str) := (words (c.filemap.getD [])).foldl (mapStep c.task) []

/-- sstatesig.py:626-629. -/
def filtered (c : Cfg) (path : Str) : Bool := (filemaps c).any fun e => c.fnmatch path e.1

/-- `chunk.replace(p, b'')`. -/
def remove (p s : Str) : Str := if p = [] then s else Meta.SsInst.replaceGo p [] 0 s

/-- sstatesig.py:650-654: one text of the file map is taken out. -/
def removeOne (c : Cfg) (s r : Str) : Str :=
  if startsWith r "regex-".toList then c.resub (r.drop 6) s else remove r s

/-- sstatesig.py:644-654. -/
def cleaned (c : Cfg) (path s : Str) : Str :=
  ((filemaps c).filter fun e => c.fnmatch path e.1).foldl (fun s e => e.2.foldl (removeOne c) s) (remove c.basepath s)

/-- sstatesig.py:564-577. -/
def typeChar : Kind → Char
  | .dir => 'd'
  | .chr _ _ => 'c'
  | .blk _ _ => 'b'
  | .sock => 's'
  | .lnk _ => 'l'
  | .fifo => 'p'
  | .reg _ => '-'

/-- sstatesig.py:579-583. -/
def perm (b : Bool) (on off : Char) : Char := if b then on else off

/-- sstatesig.py:585-590. -/
def userPerms (m : Mode) : Str :=
  [perm m.rusr 'r' '-', perm m.wusr 'w' '-', if m.suid then perm m.xusr 's' 'S' else perm m.xusr 'x' '-']

/-- sstatesig.py:594-606. -/
def otherPerms (m : Mode) : Str :=
  [perm m.rgrp 'r' '-', perm m.wgrp 'w' '-', if m.sgid then perm m.xgrp 's' 'S' else perm m.xgrp 'x' '-',
    perm m.roth 'r' '-', perm m.woth 'w' '-', if m.vtx then 't' else perm m.xoth 'x' '-']

/-- sstatesig.py:592-615: with owners, the text or an exception. -/
def owners (c : Cfg) (st : St) : Option Str :=
  if includeOwners c then
    match st.owner, st.group with
    | some u, some g => some (otherPerms st.mode ++ ' ' :: rjust u 10 ' ' ++ ' ' :: rjust g 10 ' ')
    | _, _ => none
  else some []

/-- sstatesig.py:617-618. -/
def times (c : Cfg) (st : St) : Str := if includeTimes c then ' ' :: rjust (dec st.mtime) 10 ' ' else []

/-- sstatesig.py:621-624. -/
def device : Kind → Str
  | .chr a b => rjust (dec a ++ '.' :: dec b) 9 ' '
  | .blk a b => rjust (dec a ++ '.' :: dec b) 9 ' '
  | _ => List.replicate 9 ' '

/-- sstatesig.py:631-635. -/
def size (c : Cfg) (path : Str) : Kind → Str
  | .reg s => if filtered c path then List.replicate 10 ' ' else rjust (dec s.length) 10 ' '
  | _ => List.replicate 10 ' '

/-- sstatesig.py:638-661. -/
def contents (c : Cfg) (path : Str) : Kind → Str
  | .reg s => c.sha (if filtered c path then cleaned c path s else s)
  | _ => List.replicate 64 ' '

/-- sstatesig.py:663-666. -/
def target : Kind → Str
  | .lnk t => " -> ".toList ++ t
  | _ => []

/-- sstatesig.py:561-668, `process`: the line for a path, without its end. -/
def line (c : Cfg) (path : Str) (st : St) : Option Str :=
  (owners c st).map fun o =>
    typeChar st.kind :: userPerms st.mode ++ o ++ times c st ++ ' ' :: device st.kind ++ ' ' :: size c path st.kind ++
      ' ' :: contents c path st.kind ++ ' ' :: path ++ target st.kind

/-- The order of names. -/
def nameLe {α : Type} (a b : Str × α) : Bool := strLe a.1 b.1

/-- What `os.walk` gives as files: all that are not directories and do not lead to one. -/
def filesOf : List (Str × Node) → List (Str × St)
  | [] => []
  | (n, .leaf st false) :: l => (n, st) :: filesOf l
  | _ :: l => filesOf l

/-- sstatesig.py:678-680: the entries among the directories that are links. -/
def linksOf : List (Str × Node) → List (Str × St)
  | [] => []
  | (n, .leaf st true) :: l => (n, st) :: linksOf l
  | _ :: l => linksOf l

/-- `process(os.path.join(root, f))` for the names of a list. -/
def inDir (root : Str) (l : List (Str × St)) : List (Str × St) := l.map fun f => (pathJoin root f.1, f.2)

mutual
/-- sstatesig.py:556-680: the paths for which a line is made, from a directory on, in their order. -/
def visit (c : Cfg) (root : Str) : Node → List (Str × St)
  | .leaf _ _ => []
  | .dir st kids =>
    (if includeRoot c || root != ".".toList then [(root, st)] else []) ++
      inDir root ((sortBy nameLe (filesOf kids)).filter fun f => f.1 ≠ "fixmepath".toList) ++
      inDir root (sortBy nameLe (linksOf kids)) ++
      ((sortBy nameLe (visitAll c root kids)).map Prod.snd).flatten
/-- The directories of a listing with what `os.walk` visits in each. -/
def visitAll (c : Cfg) (root : Str) : List (Str × Node) → List (Str × List (Str × St))
  | [] => []
  | (n, .dir st kids) :: l => (n, visit c (pathJoin root n) (.dir st kids)) :: visitAll c root l
  | (_, .leaf _ _) :: l => visitAll c root l
end

/-- sstatesig.py:542-554. -/
def header (c : Cfg) : Str :=
  "OEOuthashBasic\n".toList ++
    (match c.version with | some v => if v = [] then [] else v ++ ['\n'] | none => []) ++
    (match c.extra with | some v => if v = [] then [] else v ++ ['\n'] | none => []) ++
    "SSTATE_PKGSPEC=".toList ++ c.pkgspec ++ '\n' :: "task=".toList ++ c.task ++ ['\n']

/-- The lines for a list of paths, or an exception. -/
def linesOf (c : Cfg) : List (Str × St) → Option Str
  | [] => some []
  | (p, st) :: l =>
    match line c p st, linesOf c l with
    | some a, some b => some (a ++ '\n' :: b)
    | _, _ => none

/-- sstatesig.py:495-684: all that goes into the checksum of a directory, or an exception. -/
def outText (c : Cfg) (top : Node) : Option Str := (linesOf c (visit c ".".toList top)).map (header c ++ ·)

/-- sstatesig.py:684: the result. -/
def outHash (c : Cfg) (top : Node) : Option Str := (outText c top).map c.sha

end Isar.Outhash
