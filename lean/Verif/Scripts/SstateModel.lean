import Verif.Py.Str
/-!
# Model of `scripts/isar-sstate`

Modelled: the file name expression, filters, the filesystem target (upload, delete, listing),
the commands `upload`, `clean` and `lint`, and the cache of temporary downloads of the http and
S3 targets.  Not modelled: the commands `info` and `analyze` (they only print), the stamps
expression, and the network protocols.  Regular expressions given by the user are predicates.
-/

namespace Isar.Sstate
open Py

/-- A path relative to the target, as components. -/
abbrev Path := List Str

/-- A file: its content and its age in seconds (which may be negative). -/
structure File where
  content : Str
  age : Int
deriving DecidableEq

/-- A directory tree below the base directory, which itself is not listed in `dirs`. -/
structure Fs where
  files : List (Path × File)
  dirs : List Path

/-- `SstateTargetBase.exists` for a file target, scripts/isar-sstate:323-324. -/
def Fs.exists (fs : Fs) (p : Path) : Bool := p ∈ fs.files.map (·.1) || p ∈ fs.dirs || p == []

/-- Is there nothing below directory `d`? -/
def Fs.empty (fs : Fs) (d : Path) : Bool :=
  !(fs.files.any fun e => d.isPrefixOf e.1 && d != e.1) &&
  !(fs.dirs.any fun e => d.isPrefixOf e && d != e)

/-- The loop over the parent directories in `SstateFileTarget.delete`: a missing directory is
skipped, a directory that is not empty ends the loop.  scripts/isar-sstate:344-351. -/
def rmdirs (fs : Fs) : List Path → Fs
  | [] => fs
  | d :: ds =>
    if d ∈ fs.dirs then
      if fs.empty d then rmdirs { fs with dirs := fs.dirs.filter (· ≠ d) } ds else fs
    else rmdirs fs ds

/-- `[dirs[:i] for i in range(len(dirs), 0, -1)]`, scripts/isar-sstate:344-345. -/
def parents (dirs : Path) : Nat → List Path
  | 0 => []
  | i + 1 => dirs.take (i + 1) :: parents dirs i

/-- `SstateFileTarget.delete`, scripts/isar-sstate:339-351. -/
def delete (fs : Fs) (p : Path) : Fs :=
  rmdirs { fs with files := fs.files.filter (·.1 ≠ p) } (parents p.dropLast p.dropLast.length)

/-! ## File names -/

/-- The fields extracted from a file name. -/
structure Fields where
  pn : Str
  arch : Str
  hash : Str
  task : Str
  suffix : Str
deriving DecidableEq, Repr

/-- `[^:]*:`, a field up to the next colon. -/
def field (s : Str) : Option (Str × Str) :=
  match s.dropWhile (· ≠ ':') with
  | [] => none
  | _ :: rest => some (s.takeWhile (· ≠ ':'), rest)

def isHex (c : Char) : Bool := c.isDigit || ('a' ≤ c && c ≤ 'f')

/-- The end of the expression: `(?P<hash>[0-9a-f]*)_(?P<task>[^\.]*)\.(?P<suffix>.*)`,
scripts/isar-sstate:170-171. -/
def tailFields (pn arch s : Str) : Option Fields :=
  match s.dropWhile isHex with
  | '_' :: rest =>
    match rest.dropWhile (· ≠ '.') with
    | [] => none
    | _ :: suffix =>
      some ⟨pn, arch, s.takeWhile isHex, rest.takeWhile (· ≠ '.'), suffix.takeWhile (· ≠ '\n')⟩
  | _ => none

/-- The expression after `(.*/)?`, scripts/isar-sstate:169-171.  Each part determines its end,
so there is nothing to backtrack over. -/
def matchName (s : Str) : Option Fields :=
  if startsWith s "sstate:".toList then do
    let (pn, s) ← field (s.drop 7)
    let (_, s) ← field s
    let (_, s) ← field s
    let (_, s) ← field s
    let (arch, s) ← field s
    let (_, s) ← field s
    tailFields pn arch s
  else none

/-- `(.*/)?` matches the longest prefix ending in `/` for which the rest matches, else
nothing: the candidates for the rest, from the shortest. -/
def candidates : Str → List Str
  | [] => []
  | c :: s => candidates s ++ (if c = '/' then [s] else [])

/-- `SstateRegex.match`, scripts/isar-sstate:169-171.  File names contain no newline, which `.`
would not match. -/
def matchPath (s : Str) : Option Fields := (candidates s ++ [s]).findSome? matchName

/-- An entry of the listing. -/
structure Entry where
  path : Path
  age : Int
  fields : Fields
deriving DecidableEq

/-- The entry for one file. -/
def entryOf (e : Path × File) : Option Entry :=
  (matchPath (join ['/'] e.1)).map fun f => ⟨e.1, e.2.age, f⟩

/-- `SstateFileTarget.list_all`, scripts/isar-sstate:353-370. -/
def listAll (fs : Fs) : List Entry := fs.files.filterMap entryOf

/-- scripts/isar-sstate:587-589 -/
def filterPn (l : List Entry) : Option (Str → Bool) → List Entry
  | none => l
  | some r => l.filter fun x => r x.fields.pn

/-- scripts/isar-sstate:590-591 -/
def filterArch (l : List Entry) : Option Str → List Entry
  | none => l
  | some a => if a = [] then l else l.filter fun x => x.fields.arch = a

/-- `apply_filters`, scripts/isar-sstate:586-592. -/
def applyFilters (l : List Entry) (pnFilter : Option (Str → Bool)) (arch : Option Str) :
    List Entry := filterArch (filterPn l pnFilter) arch

/-! ## clean -/

/-- Seconds per unit, scripts/isar-sstate:692. -/
def unitSeconds : Char → Option Nat
  | 's' => some 1
  | 'm' => some 60
  | 'h' => some 3600
  | 'd' => some 86400
  | 'w' => some 604800
  | _ => none

/-- The unit after the number; days if there is none. -/
def unitOf (s : Str) : Nat :=
  match s with
  | [] => 86400
  | c :: _ => (unitSeconds c).getD 86400

/-- `convert_to_seconds`, scripts/isar-sstate:691-700.  The expression is not anchored at the
end, so what follows the number and the unit is ignored. -/
def toSeconds (x : Str) : Option Nat :=
  let digits := x.takeWhile Char.isDigit
  if digits = [] then none
  else some (decVal digits * unitOf (x.dropWhile Char.isDigit))

def isArchive (f : Fields) : Bool := f.suffix = "tgz".toList || f.suffix = "tar.zst".toList

/-- What is deleted.  `siginfo_files` is computed from `all_files` (line 722).
scripts/isar-sstate:719-727. -/
def toDelete (all : List Entry) (maxAge maxSig : Nat) (pnFilter : Option (Str → Bool))
    (arch : Option Str) : List Entry :=
  let archives := applyFilters (all.filter fun f => isArchive f.fields) pnFilter arch
  let siginfos := applyFilters all pnFilter arch
  let delArchives := archives.filter fun f => (maxAge : Int) ≤ f.age
  let hashes := delArchives.map (·.fields.hash)
  let delSiginfos := siginfos.filter fun f =>
    (maxSig : Int) ≤ f.age || decide (f.fields.hash ∈ hashes)
  delArchives ++ delSiginfos

/-- `sstate_clean`, scripts/isar-sstate:690-738; `none` if the arguments cannot be parsed. -/
def clean (fs : Fs) (maxAge : Str) (maxSig : Option Str) (pnFilter : Option (Str → Bool))
    (arch : Option Str) : Option Fs := do
  let a ← toSeconds maxAge
  let s ← toSeconds (maxSig.getD maxAge)
  pure ((toDelete (listAll fs) a (max a s) pnFilter arch).foldl (fun fs f => delete fs f.path) fs)

/-! ## upload -/

/-- Is a file left out? scripts/isar-sstate:667-671. -/
def selected (pnFilter : Option (Str → Bool)) (arch : Option Str) (name : Str) : Bool :=
  let parts := splitOn ':' name
  let pnOk := match pnFilter, parts[1]? with
    | some r, some pn => r pn
    | _, _ => true
  let archOk := match arch, parts[5]? with
    | some a, some x => a = [] || x = a
    | _, _ => true
  pnOk && archOk

/-- The files to upload, scripts/isar-sstate:662-678; the file name is the last component. -/
def toUpload (src : List (Path × File)) (target : Fs) (pnFilter : Option (Str → Bool))
    (arch : Option Str) : List (Path × File) :=
  src.filter fun e => selected pnFilter arch (e.1.getLastD []) && !target.exists e.1

/-- `os.makedirs(..., exist_ok=True)`: `none` if a component is a file,
scripts/isar-sstate:329-334. -/
def makedirs (fs : Fs) (d : Path) : Option Fs :=
  if (parents d d.length).any fun q => fs.files.any fun e => e.1 = q then none
  else some { fs with dirs := fs.dirs ++ (parents d d.length).filter (· ∉ fs.dirs) }

/-- Replace or add a file. -/
def setFile (fs : Fs) (p : Path) (f : File) : Fs :=
  { fs with files := fs.files.filter (·.1 ≠ p) ++ [(p, f)] }

/-- One iteration of the upload loop, scripts/isar-sstate:682-686: a failing `mkdir` makes the
copy fail.  The copy is new: its age is 0. -/
def uploadOne (fs : Fs) (e : Path × File) : Option Fs :=
  (makedirs fs e.1.dropLast).map fun fs => setFile fs e.1 ⟨e.2.content, 0⟩

/-- The upload loop. -/
def uploadAll : Fs → List (Path × File) → Option Fs
  | fs, [] => some fs
  | fs, e :: es =>
    match uploadOne fs e with
    | none => none
    | some fs => uploadAll fs es

/-- `sstate_upload`, scripts/isar-sstate:651-687. -/
def upload (src : List (Path × File)) (target : Fs) (pnFilter : Option (Str → Bool))
    (arch : Option Str) : Option Fs :=
  uploadAll target (toUpload src target pnFilter arch)

/-- An upload that is interrupted: `k` files are uploaded completely, and of the next one the
first `part` characters are written, if `part` is given (`shutil.copy` writes in place). -/
def uploadInterrupted (src : List (Path × File)) (target : Fs) (pnFilter : Option (Str → Bool))
    (arch : Option Str) (k : Nat) (part : Option Nat) : Option Fs :=
  let l := toUpload src target pnFilter arch
  match uploadAll target (l.take k), l[k]?, part with
  | some fs, some e, some n => uploadOne fs (e.1, { e.2 with content := e.2.content.take n })
  | r, _, _ => r

/-! ## lint -/

/-- The three counters, scripts/isar-sstate:879-881. -/
structure Hits where
  src : Nat
  build : Nat
  other : Nat
deriving DecidableEq, Repr

/-- Count one path, scripts/isar-sstate:913-922, 927-936. -/
def countPath (buildDir srcDir path : Str) (h : Hits) : Hits :=
  if startsWith path buildDir then { h with build := h.build + 1 }
  else if startsWith path srcDir then { h with src := h.src + 1 }
  else { h with other := h.other + 1 }

/-- An entry of `SRC_URI`, scripts/isar-sstate:908-923. -/
def lintUri (buildDir srcDir : Str) (h : Hits) (uri : Str) : Hits :=
  if startsWith uri "file:///".toList then countPath buildDir srcDir (uri.drop 7) h else h

/-- The checks of a value without its leading whitespace. -/
def lintValue (buildDir srcDir name val : Str) (h : Hits) : Hits :=
  if name = "SRC_URI".toList then (words val).foldl (lintUri buildDir srcDir) h
  else if val.head? = some '/' then countPath buildDir srcDir val h
  else h

/-- `name[0].isupper()` for ASCII names -/
def upperName (name : Str) : Bool := (name.head?.map Char.isUpper).getD false

/-- The loop body for one variable, scripts/isar-sstate:896-936; `ignored` says whether the name
is in one of the lists of ignored names. -/
def lintVar (ignored : Str → Bool) (buildDir srcDir : Str) (h : Hits) (v : Str × Str) : Hits :=
  if !upperName v.1 || ignored v.1 then h
  else lintValue buildDir srcDir v.1 (lstrip v.2) h

/-- All signatures; each is its task and its variables.  scripts/isar-sstate:882-940. -/
def lintAll (skipTask : Str → Bool) (ignored : Str → Bool) (buildDir srcDir : Str)
    (sigs : List (Str × List (Str × Str))) : Hits :=
  sigs.foldl (fun h s => if skipTask s.1 then h
    else s.2.foldl (lintVar ignored buildDir srcDir) h) ⟨0, 0, 0⟩

/-- The exit status seen by the caller: `sys.exit(hits)` keeps the lowest eight bits.
scripts/isar-sstate:948-950, 972. -/
def lintStatus (exitCode : Option Nat) (h : Hits) : Nat :=
  match exitCode with
  | some e => e % 256
  | none => (h.src + h.build) % 256

/-! ## Temporary downloads -/

/-- The temporary files on disk, those remembered by the target, the cache, and the next unused
file name. -/
structure Tmp where
  disk : List Nat
  tmpfiles : List Nat
  cache : List (Path × Option Nat)
  next : Nat

/-- `download` of the http and S3 targets: if the remote file is missing, the temporary file is
neither removed nor remembered.  scripts/isar-sstate:458-467, 567-577. -/
def realDownload (st : Tmp) (found : Bool) : Tmp × Option Nat :=
  let n := st.next
  let st := { st with disk := n :: st.disk, next := n + 1 }
  if found then ({ st with tmpfiles := st.tmpfiles ++ [n] }, some n) else (st, none)

/-- `release`, scripts/isar-sstate:469-473, 579-583. -/
def realRelease (st : Tmp) (f : Option Nat) : Tmp :=
  match f with
  | none => st
  | some n =>
    if n ∈ st.tmpfiles then
      { st with disk := st.disk.filter (· ≠ n), tmpfiles := st.tmpfiles.filter (· ≠ n) }
    else st

/-- `download_cached`, scripts/isar-sstate:281-291. -/
def downloadCached (st : Tmp) (p : Path) (found : Bool) : Tmp × Option Nat :=
  match st.cache.lookup p with
  | some r => (st, r)
  | none =>
    let (st, r) := realDownload st found
    ({ st with cache := st.cache ++ [(p, r)] }, r)

/-- `cleanup_cache`, scripts/isar-sstate:301-308. -/
def cleanupCache (st : Tmp) : Tmp :=
  { st.cache.foldl (fun st e => realRelease st e.2) st with cache := [] }

end Isar.Sstate
