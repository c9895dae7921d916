import Verif.Py.Str

/-
Handlers of Isar for the events of a build (meta/classes-global/isar-events.bbclass).
-/

namespace Meta.Events
open Py

/-! ### Tasks that run more than once -/

/-- What the handlers get to know.  A task is the pair of `T` and `BB_RUNTASK`.  `silent` is the failure of a task that does not
tell of its errors; no handler is registered for it (build.py:745). -/
inductive Ev where
  | build
  | started (task : Str × Str)
  | failed (task : Str × Str)
  | silent (task : Str × Str)
  | succeeded (task : Str × Str)
deriving DecidableEq

/-- What a handler says: nothing, that a task ran more than once, or an exception as there is no file to be removed. -/
inductive Said where
  | nothing | multiple | noFile
deriving DecidableEq

/-- isar-events.bbclass:19-21, `task_once_stamp`. -/
def onceStamp (task : Str × Str) : Str := task.1 ++ "/once.".toList ++ task.2

/-- isar-events.bbclass:13-44, `build_started`, `task_started` and `task_failed`, with the names of the files that are there.  The
pattern of `build_started` matches all of them, as `T` is `${TMPDIR}/work/${DISTRO}-${DISTRO_ARCH}/${PN}/${PV}-${PR}/temp`. -/
def once (files : List Str) : Ev → List Str × Said
  | .build => ([], .nothing)
  | .started t => if onceStamp t ∈ files then (files, .multiple) else (onceStamp t :: files, .nothing)
  | .failed t => if onceStamp t ∈ files then (files.filter (· ≠ onceStamp t), .nothing) else (files, .noFile)
  | .silent _ => (files, .nothing)
  | .succeeded _ => (files, .nothing)

/-- What is said for each event. -/
def onceAll (files : List Str) : List Ev → List Said
  | [] => []
  | e :: es => (once files e).2 :: onceAll (once files e).1 es

/-! ### Mounts that are left -/

structure Mount where
  dev : Str
  point : Str
  type : Str
  opts : Str
deriving DecidableEq

/-- How the kernel writes a name in `/proc/mounts`, proc(5). -/
def esc (s : Str) : Str := s.flatMap fun c =>
  if c = ' ' then "\\040".toList else if c = '\t' then "\\011".toList else if c = '\n' then "\\012".toList
  else if c = '\\' then "\\134".toList else [c]

/-- A line of `/proc/mounts`. -/
def line (m : Mount) : Str := join [' '] [esc m.dev, esc m.point, esc m.type, esc m.opts, "0".toList, "0".toList] ++ ['\n']

/-- What the shell makes of the word of line 82 of isar-events.bbclass.  Only backslashes are modelled, not quotes, `$` and so on. -/
def shellWord : Str → Str
  | [] => []
  | '\\' :: c :: s => c :: shellWord s
  | c :: s => c :: shellWord s

/-- `umount`, with what is mounted, the newest first: the newest one at this place goes, unless something newer is mounted below it.
That files are in use is not modelled. -/
def umount (p : Str) : List Mount → Option (List Mount)
  | [] => none
  | m :: ms => if m.point = p then some ms
      else if startsWith m.point (p ++ ['/']) then none
      else (umount p ms).map (m :: ·)

/-- isar-events.bbclass:71: `line.split()[1]`. -/
def second (l : Str) : Str := (words l)[1]?.getD []

/-- isar-events.bbclass:68-85, for one line: the place that is to be unmounted. -/
def place (base : Str) (l : Str) : Option Str := if isSub base l then some (shellWord (second l)) else none

/-- isar-events.bbclass:68-85: the loop, the newest first.  A failure is told and ignored. -/
def unmountAll (base : Str) : List Str → List Mount → List Mount
  | [], ms => ms
  | l :: ls, ms => match place base l with
    | none => unmountAll base ls ms
    | some p => unmountAll base ls ((umount p ms).getD ms)

/-- isar-events.bbclass:48-89, `build_completed`: what is mounted then, the newest first, and how many errors or warnings tell of
it. -/
def completed (tmpdir mc : Str) (failOnCleanup : Bool) (ms : List Mount) : List Mount × Nat :=
  if tmpdir = [] then (ms, 0)
  else if mc ≠ "default".toList then (ms, 0)
  else
    let base := tmpdir ++ "/work/".toList
    let ls := ms.map line
    let n := (ls.filter (isSub base ·)).length
    if failOnCleanup then (ms, n) else (unmountAll base ls ms, n)

end Meta.Events
