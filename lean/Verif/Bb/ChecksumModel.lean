import Verif.Bb.CollectModel
import Verif.Bb.TaskHashModel
import Verif.Py.Dict
/-!
# Checksums of local files and their cache

Model of bitbake/lib/bb/checksum.py and of the cache of several processes in bitbake/lib/bb/cache.py:827-936.
A file is its content and its time of change in whole seconds, as `os.stat(f)[stat.ST_MTIME]` gives it.  MD5 is a
parameter.  Not modelled: locks (each step is under its lock), other versions of the cache, log messages.
-/

namespace Bb.Checksum

open Py

/-- Entries of a cache: for a file the time and the checksum. -/
abbrev Cache := List (Str × (Nat × Str))

/-- The files: content and time. -/
abbrev Files := Str → Option (Str × Nat)

/-- checksum.py:47-53, cache.py:834-837: what a process has in memory. -/
structure Proc where
  data : Cache
  extras : Cache
  mtimes : List (Str × Nat)

/-- cache.py:877-892: a file that a process left, as a later one can read it: as a whole, as empty (`EOFError`),
or cut within (`UnpicklingError`). -/
inductive Part where
  | good (c : Cache)
  | empty
  | cut

/-- The files, the processes, the cache on disk and what processes left to be merged into it. -/
structure Sys where
  files : Files
  procs : Nat → Proc
  cacheFile : Cache
  parts : List Part

/-- checksum.py:26-29, `cached_mtime`: `none` if the file is missing. -/
def cachedMtime (fs : Files) (p : Proc) (f : Str) : Option (Nat × Proc) :=
  match p.mtimes.lookup f with
  | some m => some (m, p)
  | none =>
    match fs f with
    | none => none
    | some (_, m) => some (m, { p with mtimes := (f, m) :: p.mtimes })

/-- checksum.py:66-68: the checksum is computed and kept. -/
def compute (md5 : Str → Str) (fs : Files) (p : Proc) (f : Str) (m : Nat) : Option (Str × Proc) :=
  match fs f with
  | none => none
  | some (c, _) => some (md5 c, { p with extras := Dict.set p.extras f (m, md5 c) })

/-- checksum.py:55-68, `get_checksum`, for a path that is normal: `none` if the file cannot be read. -/
def getChecksum (md5 : Str → Str) (fs : Files) (p : Proc) (f : Str) : Option (Str × Proc) :=
  match cachedMtime fs p f with
  | none => none
  | some (cm, p1) =>
    match p.data.lookup f with
    | some (m, h) => if cm = m then some (h, p1) else compute md5 fs p1 f cm
    | none => compute md5 fs p1 f cm

/-- checksum.py:70-78, `merge_data`: `h in dest` asks the list of tables, not the table, and is never true, so
that each entry replaces the one that is there. -/
def mergeData (source dest : Cache) : Cache := source.foldl (fun d e => Dict.set d e.1 e.2) dest

/-- cache.py:913-929: the parts are merged one after the other and removed; only `IOError` and `EOFError` are
caught.  The result: the data, the parts that are left, whether there was data, whether it went to the end. -/
def mergeParts : Cache → Bool → List Part → Cache × List Part × Bool × Bool
  | d, have_, [] => (d, [], have_, true)
  | d, _, .good c :: ps => mergeParts (mergeData c d) true ps
  | d, have_, .empty :: ps => mergeParts d have_ ps
  | d, have_, .cut :: ps => (d, .cut :: ps, have_, false)

/-- What processes do, in any order. -/
inductive Op where
  /-- cache.py:839-863, `init_cache` in a new process. -/
  | start (p : Nat)
  /-- cooker.py:1264: `mtime_cache.clear()`. -/
  | clear (p : Nat)
  /-- checksum.py:55-68. -/
  | get (p : Nat) (f : Str)
  /-- cache.py:869-895, `save_extras`. -/
  | saveExtras (p : Nat)
  /-- cache.py:869-895, `save_extras` of a process that is killed before or while it writes. -/
  | dies (p : Nat) (cut : Bool)
  /-- cache.py:903-936, `save_merge`. -/
  | saveMerge (p : Nat)
  /-- A file is written by someone, at a time. -/
  | write (f : Str) (c : Str) (m : Nat)
  /-- A file is removed. -/
  | remove (f : Str)

/-- A process has changed. -/
def setProc (s : Sys) (p : Nat) (x : Proc) : Sys := { s with procs := fun q => if q = p then x else s.procs q }

/-- One step. -/
def step (md5 : Str → Str) (s : Sys) : Op → Sys
  | .start p => setProc s p ⟨s.cacheFile, [], []⟩
  | .clear p => setProc s p { s.procs p with mtimes := [] }
  | .get p f =>
    match getChecksum md5 s.files (s.procs p) f with
    | none => s
    | some (_, x) => setProc s p x
  | .saveExtras p =>
    if (s.procs p).extras = [] then s else { s with parts := s.parts ++ [.good (s.procs p).extras] }
  | .dies _ c => { s with parts := s.parts ++ [if c then .cut else .empty] }
  | .saveMerge p =>
    let r := mergeParts (s.procs p).data false s.parts
    let s1 := setProc { s with parts := r.2.1 } p { s.procs p with data := r.1 }
    if r.2.2.2 && r.2.2.1 then { s1 with cacheFile := r.1 } else s1
  | .write f c m => { s with files := fun g => if g = f then some (c, m) else s.files g }
  | .remove f => { s with files := fun g => if g = f then none else s.files g }

/-- Many steps. -/
def steps (md5 : Str → Str) (s : Sys) (ops : List Op) : Sys := ops.foldl (step md5) s

/-! ## Lists of files -/

/-- checksum.py:19: `(?:(?<=:True)|(?<=:False))\s+`: what is before the white space. -/
def atEnd (acc : Str) : Bool := endsWith acc ":True".toList || endsWith acc ":False".toList

/-- checksum.py:19, 115: `filelist_regex.split`.  `acc` is the piece so far, and the flag says that white space is
skipped. -/
def splitList : Str → Bool → Str → List Str
  | acc, _, [] => [acc]
  | acc, true, c :: s => if isWs c then splitList acc true s else splitList (acc ++ [c]) false s
  | acc, false, c :: s =>
    if isWs c && atEnd acc then acc :: splitList [] true s else splitList (acc ++ [c]) false s

/-- checksum.py:116-124: the path of an entry, if it is to be looked at: `pth.split(":")` gives path and flag.
An entry without a colon is an `IndexError`. -/
def entryPath (e : Str) : Except Unit (Option Str) :=
  if strip e = [] then .ok none
  else
    match splitOn ':' (strip e) with
    | p :: x :: _ => if x = "False".toList then .ok none else .ok (some p)
    | _ => .error ()

/-- checksum.py:114-124: one turn of the loop. -/
def addPath (e : Except Unit (Option Str)) (r : Except Unit (List Str)) : Except Unit (List Str) :=
  match e, r with
  | .ok none, .ok ps => .ok ps
  | .ok (some p), .ok ps => .ok (p :: ps)
  | .error u, _ => .error u
  | _, .error u => .error u

/-- checksum.py:114-124: the paths of a list. -/
def listPaths (l : Str) : Except Unit (List Str) :=
  (splitList [] false l).foldr (fun e r => addPath (entryPath e) r) (.ok [])

/-- fetch2/__init__.py:1265-1275: the list that is written. -/
def writeList (l : List (Str × Bool)) : Str :=
  join [' '] (l.map fun e => e.1 ++ ":".toList ++ (if e.2 then "True".toList else "False".toList))

mutual
/-- checksum.py:105-108: `os.walk` below a directory, without the excluded directories; each name with the path
of its directory. -/
def walkFiles (excl : List Str) (dir : Str) : Collect.Tree → List Str
  | .node files ds => files.map (pathJoin dir) ++ walkFilesIn excl dir ds
/-- checksum.py:106. -/
def walkFilesIn (excl : List Str) (dir : Str) : Collect.Forest → List Str
  | .nil => []
  | .cons n t rest =>
    (if excl.contains n then [] else walkFiles excl (pathJoin dir n) t) ++ walkFilesIn excl dir rest
end

/-- checksum.py:108: `os.path.join(root, name).replace(pth, os.path.join(pth, "."))`. -/
def marked (pth full : Str) : Str := Meta.SsInst.replaceGo pth (pth ++ "/.".toList) 0 full

/-- What is at a path. -/
inductive Kind where
  | file
  | dir (t : Collect.Tree)
  | linkToDir

/-- checksum.py:99-112, `checksum_dir`, for a path that is not `/`: what can be read. -/
def checksumDir (sum : Str → Option Str) (excl : List Str) (pth : Str) (t : Collect.Tree) : List (Str × Str) :=
  (walkFiles excl pth t).filterMap fun f => (sum (marked pth f)).map fun h => (marked pth f, h)

/-- checksum.py:125-141: one path that is found. -/
def checksumPath (sum : Str → Option Str) (kind : Str → Kind) (excl : List Str) (pth : Str) : List (Str × Str) :=
  match kind pth with
  | .linkToDir => []
  | .dir t => checksumDir sum excl pth t
  | .file => (sum pth).toList.map fun h => (pth, h)

end Bb.Checksum
