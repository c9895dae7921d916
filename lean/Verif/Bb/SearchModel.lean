import Verif.Py.Path

/-!
# Searching for files, ancestors, layers and users

Model of bitbake/lib/bb/utils.py: `which` (959-990), `get_collection_res` (1543-1549), `get_file_layer` (1552-1582), `environment` (1784-1797), `is_local_uid` (1799-1813),
`path_is_descendant` (1834-1857), and of the condition in bitbake/bin/bitbake-worker:275-280.  Files, regular expressions and patterns of the shell are parameters.
-/

namespace Isar.Bb.Search

open Py

/-- utils.py:979-988, the loop of `which`: the result and the paths that were tried -/
def whichLoop (cand : Str → Bool) (cwd item : Str) : List Str → List Str → Str × List Str
  | [], hist => ([], hist)
  | p :: ps, hist =>
    let next := pathJoin p item
    let hist := hist ++ [next]
    if cand next then (if isabs next then next else abspath cwd next, hist)
    else whichLoop cand cwd item ps hist

/-- utils.py:959-990, `which` with `history`; `cand` is the test for files, `rev` is `direction != 0`; `none` and the empty text are the same. -/
def which (cand : Str → Bool) (cwd path item : Str) (rev : Bool) : Str × List Str :=
  let paths := splitOn ':' path
  whichLoop cand cwd item (if rev then paths.reverse else paths) []

/-- `s.rstrip("/")` -/
def rstripSlash (s : Str) : Str := (s.reverse.dropWhile (· = '/')).reverse

/-- utils.py:1850-1857, the loop of `path_is_descendant`; `none` is an exception of `os.stat`.  The text gets shorter each time, `fuel` is its length. -/
def climb (stat : Str → Option Nat) (anc : Nat) : Nat → Str → Option Bool
  | 0, _ => some false
  | fuel + 1, dir =>
    if dir = [] then some false
    else match stat dir with
      | none => none
      | some i => if i = anc then some true else climb stat anc fuel (rstripSlash (dirname dir))

/-- utils.py:1834-1857, `path_is_descendant`; `stat` gives the identity (device and inode) -/
def isDescendant (stat : Str → Option Nat) (cwd descendant ancestor : Str) : Option Bool :=
  match stat ancestor with
  | none => none
  | some anc =>
    let dir := rstripSlash (abspath cwd descendant)
    climb stat anc dir.length dir

/-- utils.py:1557-1566, `path_to_layer`; the layers with their patterns in the order of BBFILE_COLLECTIONS -/
def pathToLayer (matches_ : Str → Str → Bool) (path : Str) : List (Str × Str) → Nat × Option Str → Option Str
  | [], acc => acc.2
  | (c, re) :: cs, acc =>
    pathToLayer matches_ path cs (if re.length > acc.1 ∧ matches_ re path = true then (re.length, some c) else acc)

/-- utils.py:1552-1582, `get_file_layer`; `glob` is `fnmatch.fnmatchcase` -/
def fileLayer (matches_ glob : Str → Str → Bool) (cols : List (Str × Str)) (bbfiles : List Str) (file : Str) : Option Str :=
  match bbfiles.find? (fun e => glob e file) with
  | some e => pathToLayer matches_ e cols (0, none)
  | none => pathToLayer matches_ file cols (0, none)

/-- the environment of the process -/
abbrev Env := Str → Option Str

def set (e : Env) (k : Str) (v : Option Str) : Env := fun x => if x = k then v else e x

/-- `os.environ.update(...)` -/
def update (e : Env) (vs : List (Str × Str)) : Env := vs.foldl (fun e kv => set e kv.1 (some kv.2)) e

/-- utils.py:1792-1797: the `finally` -/
def restore (backup e : Env) (vs : List (Str × Str)) : Env :=
  vs.foldl (fun e kv => match backup kv.1 with
    | some v => set e kv.1 (some v)
    | none => set e kv.1 none) e

/-- utils.py:1784-1797, `environment`: the body ends with a value or an exception, both are in its result -/
def withEnv {α : Type} (vs : List (Str × Str)) (body : Env → α × Env) (e : Env) : α × Env :=
  let r := body (update e vs)
  (r.1, restore e r.2 vs)

/-- utils.py:1806-1812: the lines of /etc/passwd -/
def inPasswd (lines : List Str) (uid : Nat) : Bool :=
  lines.any fun l => match splitOn ':' l with
    | _ :: _ :: u :: _ => u == dec uid
    | _ => false

/-- utils.py:1799-1813, `is_local_uid`; `none` is the default, and 0 is as good as none -/
def isLocalUid (lines : List Str) (self : Nat) (uid : Option Nat) : Bool :=
  match uid with
  | none => inPasswd lines self
  | some 0 => inPasswd lines self
  | some u => inPasswd lines u

/-- bitbake-worker:275-280: whether the network of a task is taken away; `flag` is the truth of the flag `network` -/
def networkOff (lines : List Str) (uid : Nat) (flag : Bool) : Bool := !flag && isLocalUid lines uid (some uid)

end Isar.Bb.Search
