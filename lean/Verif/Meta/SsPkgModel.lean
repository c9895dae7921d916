import Verif.Py.Str
/-!
# Writing archives into the shared state cache

Model of `sstate_create_package` (`meta/classes-global/sstate.bbclass:833-876`), run by any number of
processes for the same archive, each of which can fail or be killed between any two steps.

The cache directory is shared (by the tasks of several builds, on one or more machines), so that steps of
the processes interleave in any order.  Other users of the cache can remove the archive, and the fetcher can
put a link to an archive of a mirror in its place.

Simplifications: a file is a list of bytes that `tar` appends one by one; `chmod` and `touch` change no
content and are left out, except that they take a step; `ln -f` replaces the name in one step, as GNU `ln`
does since 8.30; `mktemp` gives each process a name of its own; `mkdir` does not fail.
-/

namespace Meta.SsPkg

/-- What the name of the archive (`SSTATE_PKG`) stands for. -/
inductive Entry where
  | absent
  /-- A symbolic link to nothing. -/
  | dangling
  /-- A symbolic link to an archive of a mirror, with its content. -/
  | mirror (content : List Nat)
  /-- A hard link to the file that process `i` has written. -/
  | file (i : Nat)
deriving DecidableEq, Repr

/-- The next step of a process. -/
inductive Pc where
  /-- sstate.bbclass:835: `[ -e ${SSTATE_PKG} ]`. -/
  | start
  /-- sstate.bbclass:841. -/
  | mktemp
  /-- sstate.bbclass:851-861: `tar`, with what is left to write. -/
  | tar (left : List Nat)
  /-- sstate.bbclass:864: `[ -h ${SSTATE_PKG} ]`. -/
  | isLink
  /-- sstate.bbclass:864: `[ ! -e ${SSTATE_PKG} ]`. -/
  | isDangling
  /-- sstate.bbclass:867. -/
  | linkForce
  /-- sstate.bbclass:868: `[ ! -e ${SSTATE_PKG} ]`. -/
  | isAbsent
  /-- sstate.bbclass:871. -/
  | link
  /-- sstate.bbclass:875. -/
  | remove
  /-- The function has returned. -/
  | finished
  /-- The function has failed, or the process was killed. -/
  | stopped
deriving DecidableEq, Repr

structure World where
  pkg : Entry
  /-- The file that a process has created. -/
  content : Nat → List Nat
  /-- The temporary name of a process is there. -/
  tmp : Nat → Bool
  pc : Nat → Pc

/-- Change the value at one place. -/
def upd {α : Type} (f : Nat → α) (i : Nat) (a : α) : Nat → α := fun j => if j = i then a else f j

/-- `[ -e ${SSTATE_PKG} ]`, which follows links. -/
def isThere : Entry → Bool
  | .mirror _ => true
  | .file _ => true
  | _ => false

/-- `[ -h ${SSTATE_PKG} ]`. -/
def isLink : Entry → Bool
  | .dangling => true
  | .mirror _ => true
  | _ => false

/-- The next step of a process; `bad` says that the command fails.  `arch i` is what `tar` writes for
process `i`: the processes need not have built the same files (sstate.bbclass:833-876). -/
def procStep (arch : Nat → List Nat) (w : World) (i : Nat) (bad : Bool) : World :=
  match w.pc i with
  | .start => { w with pc := upd w.pc i (if isThere w.pkg then .finished else .mktemp) }
  | .mktemp =>
    if bad then { w with pc := upd w.pc i .stopped }
    else { w with tmp := upd w.tmp i true, content := upd w.content i [], pc := upd w.pc i (.tar (arch i)) }
  | .tar left =>
    if bad then { w with pc := upd w.pc i .stopped }
    else match left with
      | [] => { w with pc := upd w.pc i .isLink }
      | b :: left =>
        { w with content := upd w.content i (w.content i ++ [b]), pc := upd w.pc i (.tar left) }
  | .isLink => { w with pc := upd w.pc i (if isLink w.pkg then .isDangling else .isAbsent) }
  | .isDangling => { w with pc := upd w.pc i (if isThere w.pkg then .isAbsent else .linkForce) }
  | .linkForce =>
    if bad then { w with pc := upd w.pc i .remove }
    else { w with pkg := .file i, pc := upd w.pc i .remove }
  | .isAbsent => { w with pc := upd w.pc i (if isThere w.pkg then .remove else .link) }
  | .link =>
    if bad then { w with pc := upd w.pc i .remove }
    else { w with
      pkg := (if w.pkg = .absent then .file i else w.pkg)
      pc := upd w.pc i .remove }
  | .remove =>
    if bad then { w with pc := upd w.pc i .stopped }
    else { w with tmp := upd w.tmp i false, pc := upd w.pc i .finished }
  | .finished => w
  | .stopped => w

/-- What happens. -/
inductive Ev where
  /-- The next step of process `i`, which may fail. -/
  | step (i : Nat) (bad : Bool)
  /-- Process `i` is killed. -/
  | kill (i : Nat)
  /-- The fetcher puts a link to an archive of a mirror in place, if the name is not there
  (bitbake/lib/bb/fetch2/__init__.py:1143-1146, `ensure_symlink`).  That it removes a link to nothing
  before is `removed`, because it removes what is there by then. -/
  | mirrored (content : List Nat)
  /-- The archive of the mirror is removed. -/
  | mirrorGone
  /-- Someone removes the archive. -/
  | removed
deriving DecidableEq, Repr

def step (arch : Nat → List Nat) (w : World) : Ev → World
  | .step i bad => procStep arch w i bad
  | .kill i => { w with pc := upd w.pc i .stopped }
  | .mirrored c => if w.pkg = .absent then { w with pkg := .mirror c } else w
  | .mirrorGone =>
    match w.pkg with
    | .mirror _ => { w with pkg := .dangling }
    | _ => w
  | .removed => { w with pkg := .absent }

def run (arch : Nat → List Nat) (w : World) (evs : List Ev) : World := evs.foldl (step arch) w

/-- Before the first process starts. -/
def init (pkg : Entry) : World where
  pkg := pkg
  content := fun _ => []
  tmp := fun _ => false
  pc := fun _ => .start

/-- An open archive, as `tar` has it when it unpacks (sstate.bbclass:909). -/
inductive Handle where
  | mirror (content : List Nat)
  | file (i : Nat)
deriving DecidableEq

/-- Opening the archive. -/
def openPkg (w : World) : Option Handle :=
  match w.pkg with
  | .mirror c => some (.mirror c)
  | .file i => some (.file i)
  | _ => none

/-- Reading an open archive. -/
def read (w : World) : Handle → List Nat
  | .mirror c => c
  | .file i => w.content i

end Meta.SsPkg
