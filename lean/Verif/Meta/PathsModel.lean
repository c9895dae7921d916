import Verif.Py.Path
/-!
# Model of the code that decides where files are written and removed

`meta/classes-global/template.bbclass`, `root_cleandirs` of `meta/classes-global/base.bbclass` and
the path functions of `meta/lib/oe/path.py`.  Symbolic links are modelled only for `realpath`.
-/

namespace Isar.Paths
open Py

/-! ### Templates -/

/-- The absolute, normalised name of a template, meta/classes-global/template.bbclass:37-41. -/
def templatePath (workdir file : Str) : Str :=
  let t := normpath file
  if isabs t then t else normpath (pathJoin workdir t)

/-- The name of the file written for a template, meta/classes-global/template.bbclass:47-49. -/
def templateOut (t : Str) : Str :=
  if endsWith t ".tmpl".toList then splitextRoot t else t ++ ".out".toList

/-- The loop over `TEMPLATE_FILES`: the files written, in order, and whether the task got to the
end (`false`: `bb.fatal`).  meta/classes-global/template.bbclass:34-60; opening the files and
running `envsubst` are taken to succeed. -/
def transformGo (workdir : Str) : List Str → List Str × Bool
  | [] => ([], true)
  | f :: fs =>
    let t := templatePath workdir f
    if startsWith t workdir then
      let r := transformGo workdir fs
      (templateOut t :: r.1, r.2)
    else ([], false)

/-- `do_transform_template` for the values of `WORKDIR` and `TEMPLATE_FILES`,
meta/classes-global/template.bbclass:10-61 (with a non-empty `TEMPLATE_VARS`; otherwise nothing
is done, lines 16-17). -/
def transform (workdir files : Str) : List Str × Bool :=
  transformGo (normpath workdir) (words files)

/-! ### Cleaning as root -/

/-- The text put into `ROOT_CLEANDIRS_DIRS` for the entries of a `root_cleandirs` flag, or `none`
for `bb.fatal`.  meta/classes-global/base.bbclass:166-197. -/
def cleanDirs (tmpdir entries : Str) : Option Str :=
  let tmp := normpath tmpdir
  let dirs := (words entries).map normpath
  if dirs.all (fun i => startsWith i tmp) then some (join [' '] (dirs.map (·.drop tmp.length)))
  else none

/-- `grep "^${i}\(/\|\$\)"` on one mount point: a dot of `i` matches any character; other special
characters of regular expressions are not modelled. -/
def grepMatch : Str → Str → Bool
  | [], m => m = [] || m.head? = some '/'
  | _ :: _, [] => false
  | c :: i, x :: m => (c = '.' || c = x) && grepMatch i m

/-- The shell function `root_cleandirs`: the directories removed (and made again), or `none` if it
stops because of a mount.  `tmpdir` is the value of `TMPDIR`, `mounts` the second column of
`/proc/mounts`.  meta/classes-global/base.bbclass:134-147. -/
def rootCleandirs (tmpdir dirs : Str) (mounts : List Str) : Option (List Str) :=
  if (words dirs).any (fun i => mounts.any (grepMatch i)) then none
  else some ((words dirs).map (tmpdir ++ ·))

/-! ### `oe.path` -/

/-- `s.rpartition('/')[0]`. -/
def rpart (s : Str) : Str := (headPart s).dropLast

/-- The loop that looks for the common ancestor, meta/lib/oe/path.py:41-45; `fuel` bounds the
number of rounds. -/
def ancestor (link : Str) : Nat → Str → Nat → Str × Nat
  | 0, a, depth => (a, depth)
  | fuel + 1, a, depth =>
    if a ≠ [] ∧ startsWith link a = false then ancestor link fuel (rpart a) (depth + 1)
    else (a, depth)

/-- `s.strip('/')`. -/
def stripSlash (s : Str) : Str :=
  (((s.dropWhile (· = '/')).reverse).dropWhile (· = '/')).reverse

/-- The text of the new link made by `make_relative_symlink` for the absolute link `path` with
the text `link`; `none`: the link is left as it is.  meta/lib/oe/path.py:32-57. -/
def makeRelative (path link : Str) : Option Str :=
  if isabs link = false then none
  else
    let a := ancestor link (path.length + 1) path 0
    if a.1 = [] then none
    else some ((List.replicate (a.2 - 1) "../".toList).flatten ++
      stripSlash (link.drop a.1.length))

/-- `s.rpartition(b)[2]` if `b` occurs in `s`: the text after the last occurrence. -/
def afterLast (b : Str) : Str → Option Str
  | [] => if b = [] then some [] else none
  | c :: s =>
    match afterLast b s with
    | some r => some r
    | none => if startsWith (c :: s) b then some ((c :: s).drop b.length) else none

/-- The text of the new link made by `replace_absolute_symlinks` for the link `path` found below
`basedir`, with the text `link`; `none`: the link is left as it is.  `cwd` is the working directory
of the process.  meta/lib/oe/path.py:66-77. -/
def replaceAbsolute (cwd basedir path link : Str) : Option Str :=
  if isabs link = false then none
  else some (relpath cwd link (dirname ((afterLast basedir path).getD path)))

/-- `abs_path_trailing`, meta/lib/oe/path.py:281-285. -/
def absTrailing (cwd p : Str) : Str :=
  let a := abspath cwd p
  if a.getLast? = some '/' then a else a ++ ['/']

/-- `is_path_parent`, meta/lib/oe/path.py:274-294. -/
def isPathParent (cwd parent : Str) (paths : List Str) : Bool :=
  if paths = [] then false
  else paths.all fun p => startsWith (absTrailing cwd p) (absTrailing cwd parent)

/-! ### `oe.path.realpath` -/

/-- What `realpath` may raise. -/
inductive Err
  | noent
  | loop
  | assertion
  | inval
deriving DecidableEq, Repr

/-- What `realpath` asks the file system: the text of a symbolic link, whether a path is a
directory. -/
structure Files where
  link : Str → Option Str
  dir : Str → Bool

/-- `__is_path_below`, meta/lib/oe/path.py:188-189. -/
def below (file root : Str) : Bool := startsWith (file ++ ['/']) root

/-- The loop of `__realpath_rel` over the components; `rp` is `__realpath`.
meta/lib/oe/path.py:191-213. -/
def relGo (rp : Str → Except Err (Str × Bool)) (root : Str) (assume : Bool) :
    List Str → Str → Bool → Except Err Str
  | [], start, _ => .ok start
  | d :: ds, start, haveDir =>
    if haveDir = false ∧ assume = false then .error .noent
    else if d = dotdot then
      let start := if root.length ≤ start.length then dirname start else start
      if below start root then relGo rp root assume ds start haveDir else .error .assertion
    else
      match rp (pathJoin start d) with
      | .error e => .error e
      | .ok r =>
        if below r.1 root then relGo rp root assume ds r.1 r.2 else .error .assertion

/-- `__realpath`, meta/lib/oe/path.py:215-236, by recursion on `loop_cnt`. -/
def rp (fs : Files) (root : Str) (assume : Bool) : Nat → Str → Except Err (Str × Bool)
  | 0, file =>
    if (fs.link file).isSome ∧ root.length ≤ file.length then .error .loop
    else .ok (file, fs.dir file)
  | n + 1, file =>
    if (fs.link file).isSome ∧ root.length ≤ file.length then
      let target := normpath ((fs.link file).getD [])
      if isabs target = false ∧ below (dirname file) root = false then .error .assertion
      else
        match relGo (rp fs root assume n) root assume (splitOn '/' target)
            (if isabs target then root else dirname file) true with
        | .error e => .error e
        | .ok f => rp fs root assume n f
    else .ok (file, fs.dir file)

/-- `realpath`, meta/lib/oe/path.py:238-272. -/
def realpath (fs : Files) (file root : Str) (usePhysdir : Bool) (loopCnt : Nat) (assume : Bool) :
    Except Err Str :=
  let root0 := normpath root
  let file := normpath file
  let root := if root0.getLast? = some '/' then root0 else root0 ++ ['/']
  if below file root = false then .error .inval
  else if usePhysdir then
    relGo (rp fs root assume loopCnt) root assume (splitOn '/' (file.drop (root.length - 1))) root
      true
  else (rp fs root assume loopCnt file).map (·.1)

end Isar.Paths
