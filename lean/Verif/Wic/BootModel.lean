import Verif.Py.Path
/-!
# The files of a boot partition

Model of scripts/lib/wic/plugins/source/bootimg-partition.py.  A file system is a list of absolute paths of files
with their contents; a directory is there if a file is in it.  What a pattern matches below the deploy directory is a
parameter.  Simplifications: `\w` is taken for letters, digits and `_` of ASCII; the paths of the deploy directory and of
the work directory have no white space, at which commands are cut; no links.
-/

namespace Isar.Wic.Boot

open Py

/-- bootimg-partition.py:53-65: the variable with the files; `none` is an error. -/
def bootFiles (get : Str → Option Str) (var uuid label : Str) : Option Str :=
  match get (var ++ "_uuid-".toList ++ uuid) with
  | some v => some v
  | none =>
    match get (var ++ "_label-".toList ++ label) with
    | some v => some v
    | none => get var

/-- bootimg-partition.py:71: `[\w;\-\./\*]` -/
def entryChar (c : Char) : Bool := c.isAlphanum || "_;-./*".toList.contains c

/-- bootimg-partition.py:71: `findall`: all the longest runs of such characters. -/
def runs : Str → Str → List Str
  | [], cur => if cur = [] then [] else [cur]
  | c :: s, cur => if entryChar c then runs s (cur ++ [c]) else if cur = [] then runs s [] else cur :: runs s []

/-- bootimg-partition.py:72-80, 84: one entry; `none` is an error, also if there are two semicolons. -/
def entry (e : Str) : Option (Str × Str) :=
  if e.contains ';' then
    match splitOn ';' e with
    | [a, b] => if a = [] ∨ b = [] then none else some (a, b)
    | _ => none
  else some (e, e)

/-- bootimg-partition.py:70-80: all of them. -/
def entries : List Str → Option (List (Str × Str))
  | [] => some []
  | e :: es =>
    match entry e, entries es with
    | some x, some xs => some (x :: xs)
    | _, _ => none

/-- bootimg-partition.py:83-103: what one entry stands for.  `glob` gives the paths below the deploy directory. -/
def tasks (glob : Str → List Str) (e : Str × Str) : List (Str × Str) :=
  if e.1.contains '*' then
    (glob e.1).map fun f => (f, if e.2 ≠ e.1 then pathJoin e.2 (basename f) else basename f)
  else [e]

/-- bootimg-partition.py:69-103: all files to be installed. -/
def installTasks (glob : Str → List Str) (v : Str) : Option (List (Str × Str)) :=
  (entries (runs v [])).map fun es => (es.map (tasks glob)).flatten

abbrev Fs := List (Str × Str)

/-- Whether a path is a directory. -/
def isDir (fs : Fs) (p : Str) : Bool := fs.any fun e => startsWith e.1 (p ++ ['/'])

/-- Whether a file is where a directory above a path should be. -/
def blocked (fs : Fs) (p : Str) : Bool := fs.any fun e => startsWith p (e.1 ++ ['/'])

/-- `install -D` of a content to a path; into it if it is a directory; `none` is an error. -/
def install (fs : Fs) (content name p : Str) : Option Fs :=
  let q := normpath p
  let dst := if isDir fs q then normpath (pathJoin q name) else q
  if !isDir fs q && endsWith p ['/'] then none
  else if isDir fs dst || blocked fs dst then none
  else some ((dst, content) :: fs.filter fun e => e.1 ≠ dst)

/-- bootimg-partition.py:187-193: one file. -/
def installOne (deploy : Str → Option Str) (hdd : Str) (fs : Fs) (t : Str × Str) : Option Fs :=
  match deploy t.1 with
  | none => none
  | some c => install fs c (basename t.1) (pathJoin hdd t.2)

/-- bootimg-partition.py:187-193: all files. -/
def installAll (deploy : Str → Option Str) (hdd : Str) : Fs → List (Str × Str) → Option Fs
  | fs, [] => some fs
  | fs, t :: ts =>
    match installOne deploy hdd fs t with
    | none => none
    | some f => installAll deploy hdd f ts

/-- bootimg-partition.py:37-103, 166-193: the files of a partition. -/
def prepare (get : Str → Option Str) (glob : Str → List Str) (deploy : Str → Option Str) (hdd : Str) (fs : Fs)
    (var uuid label : Str) : Option Fs :=
  match bootFiles get var uuid label with
  | none => none
  | some v =>
    match installTasks glob v with
    | none => none
    | some ts => installAll deploy hdd fs ts

/-- bootimg-partition.py:123: the names of kernels. -/
def kernelTypes : List Str :=
  ["zImage".toList, "Image".toList, "fitImage".toList, "uImage".toList, "vmlinux".toList]

/-- bootimg-partition.py:130-134: the first file of one kind. -/
def kernelOf (k : Str) : List (Str × Str) → Option Str
  | [] => none
  | t :: ts => if startsWith t.1 k then some (pathJoin ['/'] t.2) else kernelOf k ts

/-- bootimg-partition.py:129-136: the kernel. -/
def kernelName (ts : List (Str × Str)) : List Str → Option Str
  | [] => none
  | k :: ks =>
    match kernelOf k ts with
    | some n => some n
    | none => kernelName ts ks

/-- bootimg-partition.py:138-144: the directory of device trees. -/
def fdtDir : List (Str × Str) → Option Str
  | [] => none
  | t :: ts => if isSub ".dtb".toList t.1 then some (pathJoin ['/'] (dirname t.2)) else fdtDir ts

/-- bootimg-partition.py:146-157: the configuration of the boot loader. -/
def extlinux (ts : List (Str × Str)) (rootdev append : Str) : Option Str :=
  match kernelName ts kernelTypes with
  | none => none
  | some k => some ("default Yocto\nlabel Yocto\n   kernel ".toList ++ k ++ "\n".toList ++
      (match fdtDir ts with
       | some d => "   fdtdir ".toList ++ d ++ "\n".toList
       | none => []) ++
      "append root=".toList ++ rootdev ++ " rootwait ".toList ++ append ++ "\n".toList)

end Isar.Wic.Boot
