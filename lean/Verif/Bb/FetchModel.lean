import Verif.Py.Str
/-!
# Model of fetching: `bitbake/lib/bb/fetch2/__init__.py` and `wget.py`

`Fetch.download` with the checksums, the done stamps, the premirrors, the upstream server and the
mirrors, for URLs that are fetched with `wget` and for `file://` URLs.

Every operation on the disk takes one event from a script, which says that it works and how much time
has passed, that it fails with an `IOError`, or that the process is killed there.  What the servers
answer is a parameter.  So a statement about all scripts and all answers is a statement about all
crash points, all failures of the disk and all servers.

Simplifications.  The local path of a download is a plain file, not a directory, so that
`supports_checksum` (fetch2:1427-1438) is true.  The done stamp (`.done`) and the file that `wget`
writes (`.tmp`) belong to the path of the download and are kept apart from the other files.  A link
to the file of a `file://` mirror is a copy of it.  A file with a wrong checksum is moved out of the
way.  There are no mirror tarballs.  The locks are in `LockModel`; one `Fetch.download` at a time
works on a path.  Messages and events are left out.
-/

namespace Bb.Fetch
open Py

/-- fetch2:36, `CHECKSUM_LIST`. -/
inductive Alg where
  | md5 | sha256 | sha1 | sha384 | sha512
deriving DecidableEq, Repr

/-- fetch2:36. -/
def algs : List Alg := [.md5, .sha256, .sha1, .sha384, .sha512]

/-- The dictionary from the names of checksums to their values. -/
abbrev Sums := List (Alg × Str)

/-- A file: what is in it, and the time of its last change. -/
structure File where
  data : Str
  mtime : Nat
deriving DecidableEq, Repr

/-- A done stamp.  The checksums are `none` if the file cannot be loaded: it is empty, or it was cut
off while it was written. -/
structure Stamp where
  sums : Option Sums
  mtime : Nat
deriving DecidableEq, Repr

/-- `FetchData` (fetch2:1287-1376). -/
structure Ud where
  url : Str
  /-- `localpath`. -/
  path : Str
  /-- The method: `Local` (`file://`) or `Wget`. -/
  isLocal : Bool
  /-- `ignore_checksums`: set for mirrors (fetch2:1011). -/
  ignore : Bool
  /-- fetch2:1310-1325: the checksums that the recipe gives. -/
  expected : Alg → Option Str

/-- local.py:35: `needdonestamp`. -/
def Ud.stamped (u : Ud) : Bool := !u.isLocal

/-- wget.py:73: `recommends_checksum`; fetch2:1440-1445: not for `file://`. -/
def Ud.recommends (u : Ud) : Bool := !u.isLocal

/-- fetch2:579-580: an empty checksum is none. -/
def Ud.expect (u : Ud) (a : Alg) : Option Str :=
  if u.expected a = some [] then none else u.expected a

/-- What happens to one operation on the disk. -/
inductive Ev where
  /-- It works, and after it the clock is further by some ticks, or shows the same tick. -/
  | ok (ticks : Nat)
  /-- It fails with an `IOError`, whose number is `ESTALE` or another one. -/
  | fault (stale : Bool)
  /-- The process is killed. -/
  | crash
deriving DecidableEq, Repr

/-- What a run of `wget` does. -/
inductive Answer where
  /-- It fails; a part of the file may be there. -/
  | fail (part : Option File)
  /-- It says that it worked, and there is no file. -/
  | nothing
  /-- It works.  While it runs there is a part of the file. -/
  | done (part : File) (all : File)

/-- The configuration. -/
structure Env where
  /-- The functions that compute checksums (`bb.utils.md5_file` and others). -/
  hash : Alg → Str → Str
  /-- `BB_STRICT_CHECKSUM`, or `"0"`. -/
  strict : Str
  /-- `BB_NO_NETWORK`. -/
  noNetwork : Bool
  /-- `BB_FETCH_PREMIRRORONLY`. -/
  premirrorOnly : Bool
  /-- `trusted_network` while the network is enabled. -/
  trusted : Str → Bool
  /-- What `build_mirroruris` makes of a URL with `PREMIRRORS`, before it looks at `trusted_network`. -/
  premirrors : Ud → List Ud
  /-- The same with `MIRRORS`. -/
  mirrors : Ud → List Ud
  /-- The answer of `wget`, for the number of requests made before and the URL. -/
  answer : Nat → Str → Answer
  /-- The pattern that is the name matches the name: no `[`.  `bb.utils.remove` takes a pattern. -/
  plain : Str → Bool

/-- The exceptions. -/
inductive Exc where
  /-- Not an exception: the process was killed. -/
  | crash
  /-- `IOError` with the number `ESTALE` or another one. -/
  | io (stale : Bool)
  /-- `ChecksumError`. -/
  | checksum (sum : Str)
  /-- `NoChecksumError`. -/
  | noChecksum
  /-- `NetworkAccess`. -/
  | network
  /-- Another `BBFetchException`. -/
  | fetch
deriving DecidableEq, Repr

/-- The disk and the clock, what will happen, and a record of the requests. -/
structure World where
  files : Str → Option File
  /-- The files with `.tmp` after the name. -/
  tmps : Str → Option File
  /-- The files with `.done` after the name. -/
  stamps : Str → Option Stamp
  now : Nat
  script : List Ev
  /-- The URLs that were requested over the network, the last one first. -/
  contacts : List Str
  /-- The files that were moved out of the way, with the checksum in their new name. -/
  bad : List (Str × Str × File)

/-- A computation that changes the world and may raise an exception. -/
def M (α : Type) := World → Except Exc α × World

instance : Monad M where
  pure a := fun w => (.ok a, w)
  bind m f := fun w =>
    match m w with
    | (.ok a, w') => f a w'
    | (.error e, w') => (.error e, w')

/-- `raise`. -/
def raise {α : Type} (e : Exc) : M α := fun w => (.error e, w)

/-- `try: … except …:`. -/
def M.catch {α : Type} (m : M α) (h : Exc → M α) : M α := fun w =>
  match m w with
  | (.ok a, w') => (.ok a, w')
  | (.error e, w') => h e w'

/-- Look at the world. -/
def look : M World := fun w => (.ok w, w)

/-- Change the world. -/
def change (f : World → World) : M Unit := fun w => (.ok (), f w)

/-- `if c: m`. -/
def onlyIf (c : Prop) [Decidable c] (m : M Unit) : M Unit := if c then m else pure ()

/-- A function changed at one place. -/
def upd {α : Type} (f : Str → Option α) (p : Str) (v : Option α) : Str → Option α :=
  fun q => if q = p then v else f q

/-- One operation on the disk: `none` if it works, and whether it is `ESTALE` if it fails. -/
def step : M (Option Bool) := fun w =>
  match w.script with
  | [] => (.ok none, w)
  | .ok t :: r => (.ok none, { w with script := r, now := w.now + t })
  | .fault s :: r => (.ok (some s), { w with script := r })
  | .crash :: r => (.error .crash, { w with script := r })

/-- One operation on the disk whose failure is an `IOError`. -/
def io : M Unit := do
  match ← step with
  | none => pure ()
  | some s => raise (.io s)

/-- `open` and `read` of a file. -/
def readFile (at' : World → Option File) : M Str := do
  io
  let w ← look
  match at' w with
  | none => raise (.io false)
  | some f => pure f.data

/-- fetch2:569-587, `compute_checksum_info`: the value that was loaded from the done stamp, or the
value for the file. -/
def sumOf (env : Env) (pre : Sums) (at' : World → Option File) (a : Alg) : M Str :=
  match pre.lookup a with
  | some s => pure s
  | none => do
    let d ← readFile at'
    pure (env.hash a d)

/-- fetch2:589-593: all the checksums. -/
def computeSums (env : Env) (pre : Sums) (at' : World → Option File) : List Alg → M Sums
  | [] => pure []
  | a :: l => do
    let s ← sumOf env pre at' a
    let r ← computeSums env pre at' l
    pure ((a, s) :: r)

/-- fetch2:624-630: the last checksum that differs from the one that is expected. -/
def badSum (u : Ud) : Sums → Option Str → Option Str
  | [], b => b
  | (a, s) :: l, b =>
    match u.expect a with
    | some e => badSum u l (if e ≠ s then some s else b)
    | none => badSum u l b

/-- fetch2:632-642: an exception if there is a wrong checksum (the test is `if bad_checksum:`). -/
def raiseBad (sums : Sums) : Option Str → M Sums
  | some s => if s ≠ [] then raise (.checksum s) else pure sums
  | none => pure sums

/-- fetch2:549-642, `verify_checksum`. -/
def verifyChecksum (env : Env) (u : Ud) (pre : Sums) (at' : World → Option File) (fatal : Bool) :
    M Sums :=
  if u.ignore then pure [] else do
    let sums ← computeSums env pre at' algs
    if fatal && u.recommends && algs.all (fun a => (u.expect a).isNone) then
      if env.strict = "1".toList then raise .noChecksum
      else if env.strict = "ignore".toList then pure sums
      else raiseBad sums (badSum u sums none)
    else raiseBad sums (badSum u sums none)

/-- `bb.utils.remove` (utils.py:715-735) of the done stamp: it removes the files whose names match
the pattern. -/
def removeStamp (env : Env) (p : Str) : M Unit := do
  let w ← look
  if env.plain p && (w.stamps p).isSome then
    io
    change fun w => { w with stamps := upd w.stamps p none }
  else pure ()

/-- `bb.utils.remove` of the download. -/
def removeFile (env : Env) (p : Str) : M Unit := do
  let w ← look
  if env.plain p && (w.files p).isSome then
    io
    change fun w => { w with files := upd w.files p none }
  else pure ()

/-- The file at a path is moved out of the way. -/
def moveAway (p sum : Str) (w : World) : World :=
  match w.files p with
  | some f => { w with files := upd w.files p none, bad := (p, sum, f) :: w.bad }
  | none => w

/-- fetch2:1032-1043, `rename_bad_checksum`, and the test before it that the file exists:
`movefile` (utils.py:769-850) does nothing if it fails. -/
def renameBad (p sum : Str) : M Unit := do
  let w ← look
  if (w.files p).isSome then
    match ← step with
    | none => change (moveAway p sum)
    | some _ => pure ()
  else pure ()

/-- The two steps of the writing of a done stamp: the file is made or emptied, and then the
checksums are written. -/
def writeStamp (p : Str) (s : Sums) : M Unit := do
  io
  change fun w => { w with stamps := upd w.stamps p (some ⟨none, w.now⟩) }
  io
  change fun w => { w with stamps := upd w.stamps p (some ⟨some s, w.now⟩) }

/-- fetch2:667-687: the checksums of the done stamp, if it is newer than the file and can be
loaded. -/
def precomputed (w : World) (p : Str) : Sums :=
  match w.files p, w.stamps p with
  | some f, some st => if f.mtime < st.mtime then st.sums.getD [] else []
  | _, _ => []

/-- fetch2:697-705: what `verify_donestamp` does after an exception. -/
def stampFailed (env : Env) (u : Ud) : Exc → M Bool
  | .checksum c => do
    renameBad u.path c
    removeStamp env u.path
    pure false
  | e => raise e

/-- fetch2:644-706, `verify_donestamp`. -/
def verifyDonestamp (env : Env) (u : Ud) (orig : Option Ud) : M Bool :=
  if !u.stamped || orig.any (fun o => !o.stamped) then pure true else do
    let w ← look
    if (w.files u.path).isNone then
      removeStamp env u.path
      pure false
    else
      M.catch
        (do
          let s ← verifyChecksum env u (precomputed w u.path) (fun w => w.files u.path) true
          onlyIf (s ≠ precomputed w u.path) (writeStamp u.path s)
          pure true)
        (stampFailed env u)

/-- fetch2:719-725: the done stamp gets a new time, and a failure is ignored. -/
def touch (p : Str) : M Unit := do
  match ← step with
  | none => change fun w =>
      { w with stamps := upd w.stamps p ((w.stamps p).map fun st => { st with mtime := w.now }) }
  | some _ => pure ()

/-- fetch2:732-739: what `update_stamp` does after an exception. -/
def updateFailed (env : Env) (u : Ud) : Exc → M Unit
  | .checksum c => do
    renameBad u.path c
    removeStamp env u.path
    raise (.checksum c)
  | e => raise e

/-- fetch2:709-739, `update_stamp`. -/
def updateStamp (env : Env) (u : Ud) : M Unit :=
  if !u.stamped then pure () else do
    let w ← look
    if (w.stamps u.path).isSome then touch u.path
    else
      M.catch
        (do
          let s ← verifyChecksum env u [] (fun w => w.files u.path) true
          writeStamp u.path s)
        (updateFailed env u)

/-- `wget` runs and writes the file with `.tmp` after the name. -/
def transfer (env : Env) (u : Ud) : M Unit := do
  let w ← look
  change fun w => { w with contacts := u.url :: w.contacts }
  match env.answer w.contacts.length u.url with
  | .fail part => do
    change fun w => { w with tmps := upd w.tmps u.path part }
    raise .fetch
  | .nothing => change fun w => { w with tmps := upd w.tmps u.path none }
  | .done part all => do
    change fun w => { w with tmps := upd w.tmps u.path (some part) }
    io
    change fun w => { w with tmps := upd w.tmps u.path (some all) }

/-- wget.py:144: `os.rename` of the file with `.tmp` after the name. -/
def rename (p : Str) : M Unit := do
  io
  let w ← look
  match w.tmps p with
  | none => raise (.io false)
  | some f => change fun w => { w with files := upd w.files p (some f), tmps := upd w.tmps p none }

/-- wget.py:98-155, `Wget.download`, with `check_network_access` (fetch2:964-974). -/
def wget (env : Env) (nn : Bool) (u : Ud) : M Unit :=
  if nn then raise .network
  else if !env.trusted u.url then raise .fetch
  else do
    transfer env u
    let _ ← verifyChecksum env u [] (fun w => w.tmps u.path) false
    rename u.path
    let w ← look
    match w.files u.path with
    | none => raise .fetch
    | some f =>
      if f.data = [] then
        io
        change fun w => { w with files := upd w.files u.path none }
        raise .fetch
      else pure ()

/-- `ud.method.download`; local.py:69-80 for `file://`. -/
def method (env : Env) (nn : Bool) (u : Ud) : M Unit :=
  if u.isLocal then do
    let w ← look
    if (w.files u.path).isNone then raise .fetch else pure ()
  else wget env nn u

/-- fetch2:1632-1636, `clean`; local.py:90: nothing for `file://`. -/
def clean (env : Env) (u : Ud) : M Unit :=
  if u.isLocal then pure () else removeFile env u.path

/-- fetch2:1131-1146, `ensure_symlink`. -/
def ensureSymlink (target link : Str) : M Unit := do
  let w ← look
  if (w.files link).isNone then
    io
    change fun w => { w with files := upd w.files link (w.files target) }
  else pure ()

/-- fetch2:1101-1127: what `try_mirror_url` does after an exception. -/
def mirrorFailed (env : Env) (u : Ud) : Exc → M Bool
  | .io true => pure false
  | .checksum c => do
    renameBad u.path c
    clean env u
    pure false
  | .fetch => do
    clean env u
    pure false
  | e => raise e

/-- fetch2:1046-1128, `try_mirror_url` for one mirror, without the case of mirror tarballs.  The
result says whether the fetch is finished. -/
def tryMirror (env : Env) (nn : Bool) (orig u : Ud) : M Bool :=
  M.catch
    (do
      let v ← verifyDonestamp env u (some orig)
      let w ← look
      onlyIf (v = false ∨ w.files u.path = none) (method env nn u)
      let w ← look
      if (w.files u.path).isNone then pure false
      else if u.path = orig.path then pure true
      else do
        ensureSymlink u.path orig.path
        updateStamp env orig
        pure true)
    (mirrorFailed env u)

/-- fetch2:1149-1166, `try_mirrors`. -/
def tryMirrors (env : Env) (nn : Bool) (orig : Ud) : List Ud → M Bool
  | [] => pure false
  | u :: l => do
    let r ← tryMirror env nn orig u
    if r then pure true else tryMirrors env nn orig l

/-- fetch2:999-1001: mirrors that are not trusted are skipped (fetch2:1174: all are trusted without
network); fetch2:1011: the checksums of the others are ignored. -/
def allowed (env : Env) (nn : Bool) (l : List Ud) : List Ud :=
  (l.filter fun u => nn || env.trusted u.url).map fun u => { u with ignore := true }

/-- fetch2:1857-1860: a wrong checksum after a premirror. -/
def premirrorFailed : Exc → M Bool
  | .checksum _ => pure false
  | e => raise e

/-- fetch2:1846-1860: the download that is there, or the premirrors. -/
def firstTry (env : Env) (u : Ud) : M Bool := do
  let ok ← verifyDonestamp env u none
  let w ← look
  if ok && (w.files u.path).isSome then pure true
  else do
    let d ← tryMirrors env env.noNetwork u (allowed env env.noNetwork (env.premirrors u))
    if d then M.catch (do updateStamp env u; pure true) premirrorFailed else pure false

/-- fetch2:1897-1902: the mirrors, after the upstream server has failed. -/
def lastTry (env : Env) (nn : Bool) (u : Ud) (verified : Bool) : M Bool := do
  onlyIf (verified = false) (clean env u)
  tryMirrors env nn u (allowed env nn (env.mirrors u))

/-- fetch2:1882-1902: what is done when the upstream server has failed. -/
def upstreamFailed (env : Env) (nn : Bool) (u : Ud) (verified : Bool) : Exc → M Bool
  | .checksum c => do
    renameBad u.path c
    lastTry env nn u verified
  | .fetch => lastTry env nn u verified
  | e => raise e

/-- fetch2:1869-1902: the upstream server, and then the mirrors. -/
def secondTry (env : Env) (nn : Bool) (u : Ud) (verified : Bool) : M Bool :=
  M.catch
    (do
      onlyIf (nn = false ∧ env.trusted u.url = false) (raise .fetch)
      method env nn u
      updateStamp env u
      pure true)
    (upstreamFailed env nn u verified)

/-- fetch2:1866-1868: the done stamp is looked at again after a download. -/
def recheck (env : Env) (u : Ud) (done : Bool) : M Bool :=
  if done then verifyDonestamp env u none else pure false

/-- fetch2:1869-1902: the upstream server and the mirrors, if nothing was found before. -/
def others (env : Env) (u : Ud) (done verified : Bool) (w : World) : M Bool :=
  if done = false ∧ (verified = false ∨ w.files u.path = none) then
    secondTry env (env.noNetwork || env.premirrorOnly) u verified
  else pure done

/-- fetch2:1835-1909: one URL of `Fetch.download`. -/
def fetchOne (env : Env) (u : Ud) : M Unit := do
  let done ← firstTry env u
  let verified ← recheck env u done
  let w ← look
  let done ← others env u done verified w
  let w ← look
  if done = false ∨ w.files u.path = none then raise .fetch
  else updateStamp env u

/-- fetch2:1824-1930, `Fetch.download`: an `IOError` that is not `ESTALE` ends the work on the URL
and nothing else (fetch2:1911-1914). -/
def download (env : Env) : List Ud → Bool → M Unit
  | [], missing => if missing then raise .fetch else pure ()
  | u :: l, missing => fun w =>
    match fetchOne env u w with
    | (.ok _, w') => download env l missing w'
    | (.error (.io true), w') => (.error (.checksum []), w')
    | (.error (.io false), w') => download env l missing w'
    | (.error .noChecksum, w') => download env l true w'
    | (.error e, w') => (.error e, w')

end Bb.Fetch
