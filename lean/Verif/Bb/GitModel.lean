import Verif.Py.Str
import Verif.Py.Dict
/-!
# Fetching and unpacking git repositories

Model of bitbake/lib/bb/fetch2/git.py: the name of a clone, `_latest_revision`, `need_update`, `download` and `unpack`.

Commits are named by texts (their checksums).  A `World` says which commits come before which: as names are checksums of the
contents, this is the same in all repositories.  A repository has references and commits.  The commands of git are modelled by
what they do to these.  Simplifications: no shallow clones and no tarballs of clones (both are off unless configured), no large
files (LFS), no `subpath` and no `subdir` (C206 is about places); a branch is taken literally, not as a pattern; mirrors are
those of C92 and C95; the stamp `.done` of a download without checksums only leads to a further call of `download`, which does
nothing.
-/

namespace Bb.Git

open Py

/-- The commits that there are: for each one all that come before it, and itself. -/
structure World where
  anc : Str → List Str
  refl : ∀ c, c ∈ anc c
  trans : ∀ {a b c}, b ∈ anc a → c ∈ anc b → c ∈ anc a

/-- A repository: its references with their full names and the commits in it. -/
structure Repo where
  refs : Dict Str
  objs : List Str
deriving DecidableEq

/-- What is in the place of a clone. -/
inductive Dir where
  | absent
  | junk
  | repo (r : Repo)
deriving DecidableEq

/-- A name of a URL with its branch and its revision. -/
structure Pin where
  name : Str
  branch : Str
  rev : Str
deriving DecidableEq

/-- What is known of a URL. -/
structure Ud where
  host : Str
  path : Str
  pins : List Pin
  nobranch : Bool
  nocheckout : Bool
  rebaseable : Bool
deriving DecidableEq

/-! ## Names -/

/-- git.py:195-200: the branches of a URL, one for each name, or an error. -/
def branches (param : Option Str) (nobranch : Bool) (names : List Str) : Option (List Str) :=
  let b := splitOn ',' (param.getD [])
  let b := if b = [[]] ∧ nobranch = false then ["master".toList] else b
  if b.length ≠ names.length then none else some b

/-- git.py:280: what is put in the place of a character of the path. -/
def pathChar (c : Char) : Char :=
  if c = '/' then '.' else if c = '*' then '.' else if c = ' ' then '_' else if c = '(' then '_' else if c = ')' then '_' else c

/-- git.py:280-282. -/
def plainName (host path : Str) : Str :=
  let n := host.map (fun c => if c = ':' then '.' else c) ++ path.map pathChar
  if startsWith n ['.'] then n.drop 1 else n

/-- git.py:280-294: the name of the directory of the clone. -/
def cloneName (u : Ud) : Str :=
  if u.rebaseable then u.pins.foldl (fun n p => n ++ '_' :: p.rev) (plainName u.host u.path) else plainName u.host u.path

/-! ## The latest revision -/

/-- git.py:859-862: the first line with a reference. -/
def findRef (lines : List (Str × Str)) (ref : Str) : Option Str := (lines.find? fun l => l.2 == ref).map Prod.fst

/-- git.py:850-864: the revision of a branch or tag, from the lines of `git ls-remote`: checksums and references. -/
def latest (lines : List (Str × Str)) (rev : Str) (usehead : Bool) : Option Str :=
  let full := startsWith rev "refs/".toList || usehead
  let head := if full then rev else "refs/heads/".toList ++ rev
  let tag := if full then rev else "refs/tags/".toList ++ rev
  ((findRef lines head).or (findRef lines (tag ++ "^{}".toList))).or (findRef lines tag)

/-! ## Clones -/

/-- All commits before references. -/
def reach (w : World) (refs : Dict Str) : List Str := (refs.map fun r => w.anc r.2).flatten

/-- The full name of a branch. -/
def headRef (branch : Str) : Str := "refs/heads/".toList ++ branch

/-- git.py:712-726, `_contains_ref`: `git log` for a commit, or `git branch --contains`. -/
def containsRef (w : World) (u : Ud) (p : Pin) (r : Repo) : Bool :=
  if u.nobranch then r.objs.contains p.rev
  else match r.refs.lookup (headRef p.branch) with
    | none => false
    | some h => (w.anc h).contains p.rev

/-- git.py:336-344, `clonedir_need_update`. -/
def needUpdate (w : World) (u : Ud) : Dir → Bool
  | .absent => true
  | .junk => true
  | .repo r => u.pins.any fun p => !containsRef w u p r

/-- Two references of which one would have to be a file and a directory. -/
def clash (a b : Str) : Bool := startsWith a (b ++ ['/']) || startsWith b (a ++ ['/'])

/-- `git fetch -f` for one reference: it is set, unless another one is in its place. -/
def setRef (s : Dict Str × Bool) (x : Str × Str) : Dict Str × Bool :=
  if s.1.any (fun r => clash r.1 x.1) then (s.1, false) else (s.1.set x.1 x.2, s.2)

/-- git.py:459-462: the references that are fetched. -/
def wanted (u : Ud) (refs : Dict Str) : Dict Str :=
  if u.nobranch then refs
  else refs.filter fun r => startsWith r.1 "refs/heads/".toList || startsWith r.1 "refs/tags/".toList

/-- git.py:459-466: `git fetch` into a clone. -/
def fetchInto (w : World) (refs : Dict Str) (r : Repo) : Repo × Bool :=
  let s := refs.foldl setRef (r.refs, true)
  (⟨s.1, r.objs ++ reach w refs⟩, s.2)

/-- git.py:451-478: the clone is updated if needed. -/
def update (w : World) (u : Ud) (up : Option Repo) (r : Repo) : Dir × Bool :=
  if needUpdate w u (.repo r) then
    match up with
    | none => (.repo r, false)
    | some s =>
      let f := fetchInto w (wanted u s.refs) r
      (.repo f.1, f.2 && !needUpdate w u (.repo f.1))
  else (.repo r, true)

/-- git.py:388-478, `download`: what is there afterwards, and if it succeeds.  `up` is the repository on the server, if it can be
reached. -/
def download (w : World) (u : Ud) (up : Option Repo) : Dir → Dir × Bool
  | .repo r => update w u up r
  | _ =>
    match up with
    | none => (.absent, false)
    | some s => update w u up ⟨s.refs, reach w s.refs⟩

/-- fetch2/__init__.py:1841-1875 with git.py:330-334: a download if one is needed. -/
def fetch (w : World) (u : Ud) (up : Option Repo) (d : Dir) : Dir × Bool :=
  if needUpdate w u d then download w u up d else (d, true)

/-- What is unpacked: nothing but the repository, or the files of a commit. -/
inductive Tree where
  | bare
  | files (commit : Str)
deriving DecidableEq

/-- git.py:609-692, `unpack`: from the clone only, or an error. -/
def unpack (w : World) (u : Ud) (d : Dir) : Option Tree :=
  if needUpdate w u d then none
  else if u.nocheckout then some .bare
  else u.pins.head?.map fun p => .files p.rev

/-! ## Histories -/

/-- The servers, by host and path, and the directory of clones. -/
structure State where
  servers : Str × Str → Repo
  dirs : Str → Dir

/-- What happens. -/
inductive Ev where
  /-- A task fetches a URL, with or without a working network. -/
  | fetch (u : Ud) (online : Bool)
  /-- A task that fetches a URL is killed when it has updated `n` references, or has left something that is no repository or an
  empty one. -/
  | killed (u : Ud) (n : Nat) (left : Bool)
  /-- Somebody changes a repository on a server. -/
  | push (host path : Str) (r : Repo)
  /-- git removes commits from a clone that are before no reference. -/
  | gc (name : Str)

def upd {α : Type} [DecidableEq α] {β : Type} (f : α → β) (a : α) (b : β) : α → β := fun x => if x = a then b else f x

/-- The server of a URL. -/
def server (s : State) (u : Ud) : Repo := s.servers (u.host, u.path)

/-- What a killed task leaves. -/
def leftOver (w : World) (u : Ud) (n : Nat) (left : Bool) (up : Repo) : Dir → Dir
  | .repo r => .repo (fetchInto w ((wanted u up.refs).take n) r).1
  | _ =>
    if left then .repo ⟨[], []⟩ else .junk

/-- `git gc`. -/
def collect (w : World) : Dir → Dir
  | .repo r => .repo ⟨r.refs, r.objs.filter fun c => (reach w r.refs).contains c⟩
  | d => d

def step (w : World) (s : State) : Ev → State
  | .fetch u online =>
    { s with dirs := upd s.dirs (cloneName u) (fetch w u (if online then some (server s u) else none) (s.dirs (cloneName u))).1 }
  | .killed u n left =>
    { s with dirs := upd s.dirs (cloneName u) (leftOver w u n left (server s u) (s.dirs (cloneName u))) }
  | .push h p r => { s with servers := upd s.servers (h, p) r }
  | .gc n => { s with dirs := upd s.dirs n (collect w (s.dirs n)) }

def run (w : World) (s : State) (evs : List Ev) : State := evs.foldl (step w) s

end Bb.Git
