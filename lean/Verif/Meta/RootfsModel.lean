import Verif.Py.Str
/-!
# Model of the mounting and of the tasks of `meta/classes-recipe/rootfs.bbclass`

Paths are lists of components.  The mount table is a list of mount points, newest first; the
kind of a mount (bind, tmpfs, proc) and its propagation are not modelled.  What the shell and
the kernel answer is a parameter (`Env`): every mount command may fail.
-/

namespace Isar.Rootfs
open Py

/-- An absolute path as the list of its components. -/
abbrev Path := List Str

/-- The part of the system that the scripts look at and change: the mount table (newest mount
first) and, for the three directories that the scripts create and remove, the number of
entries of the directory below the mounts (`none`: it does not exist). -/
structure Sys where
  mounts : List Path
  apt : Option Nat
  base : Option Nat
  work : Option Nat
deriving DecidableEq, Repr

/-- What the system answers during one run of a script: whether mounting on a path succeeds,
whether `mount --make-rslave` succeeds, whether `/sys/firmware` exists on the host, how many
entries the directory of the isar-apt repository has, whether `ISAR_USE_CACHED_BASE_REPO` is
set, and whether a mount is in use by a process. -/
structure Env where
  ok : Path → Bool
  rslave : Bool
  firmware : Bool
  repoEntries : Nat
  cached : Bool
  inUse : Path → Bool

/-- The result of a command: the system afterwards and whether the exit status was 0. -/
abbrev Res := Sys × Bool

/-- `set -e`: go on with the next command only after success.
meta/classes-recipe/rootfs.bbclass:140, 186; also the `&&` of lines 142-144. -/
def Res.andThen (r : Res) (f : Sys → Res) : Res := if r.2 then f r.1 else r

/-- `mountpoint -q`. -/
def mountpoint (p : Path) (s : Sys) : Bool := s.mounts.contains p

/-- `mount … p`: on success the mount is on top of the table. -/
def mount (e : Env) (p : Path) (s : Sys) : Res :=
  if e.ok p then ({ s with mounts := p :: s.mounts }, true) else (s, false)

/-- `mountpoint -q p || mount … p`, meta/classes-recipe/rootfs.bbclass:145-148, 163, 169, 177. -/
def mountOnce (e : Env) (p : Path) (s : Sys) : Res :=
  if mountpoint p s then (s, true) else mount e p s

/-- The paths that are mounted, relative to the rootfs. -/
def pDev : Path := ["dev".toList]
@[inherit_doc pDev] def pShm : Path := ["dev".toList, "shm".toList]
@[inherit_doc pDev] def pPts : Path := ["dev".toList, "pts".toList]
@[inherit_doc pDev] def pProc : Path := ["proc".toList]
@[inherit_doc pDev] def pSys : Path := ["sys".toList]
@[inherit_doc pDev] def pFirmware : Path := ["sys".toList, "firmware".toList]
@[inherit_doc pDev] def pApt : Path := ["isar-apt".toList]
@[inherit_doc pDev] def pWork : Path := ["isar-work".toList]
@[inherit_doc pDev] def pBase : Path := ["base-apt".toList]

/-- The three mounts for `/dev`, meta/classes-recipe/rootfs.bbclass:141-144. -/
def mountDev (e : Env) (r : Path) (s : Sys) : Res :=
  if mountpoint (r ++ pDev) s then (s, true)
  else ((mount e (r ++ pDev) s).andThen (mount e (r ++ pShm))).andThen (mount e (r ++ pPts))

/-- `mount --make-rslave`, meta/classes-recipe/rootfs.bbclass:149. -/
def makeRslave (e : Env) (s : Sys) : Res := (s, e.rslave)

/-- The tmpfs on `/sys/firmware`, meta/classes-recipe/rootfs.bbclass:153-155: mounted without
looking whether it is mounted already. -/
def mountFirmware (e : Env) (r : Path) (s : Sys) : Res :=
  if e.firmware then mount e (r ++ pFirmware) s else (s, true)

/-- `[ ! -e isar-apt ] || [ <number of entries> = 0 ]`, meta/classes-recipe/rootfs.bbclass:159-160.
If the repository is mounted, its entries are seen. -/
def aptFree (e : Env) (r : Path) (s : Sys) : Bool :=
  if mountpoint (r ++ pApt) s then e.repoEntries = 0 else s.apt = none || s.apt = some 0

/-- `mkdir -p` for one of the three directories. -/
def mkdirP (o : Option Nat) : Option Nat := some (o.getD 0)

/-- The mount of isar-apt, meta/classes-recipe/rootfs.bbclass:157-165. -/
def mountApt (e : Env) (r : Path) (s : Sys) : Res :=
  if aptFree e r s then mountOnce e (r ++ pApt) { s with apt := mkdirP s.apt } else (s, true)

/-- The mount of the work directory, meta/classes-recipe/rootfs.bbclass:167-171.  The test of
line 167 is always true: `'$ROOTFSDIR'` is quoted and not expanded by bitbake, so that the path
tested is `$ROOTFSDIR/isar-work`. -/
def mountWork (e : Env) (r : Path) (s : Sys) : Res :=
  mountOnce e (r ++ pWork) { s with work := mkdirP s.work }

/-- The mount of base-apt, meta/classes-recipe/rootfs.bbclass:173-179. -/
def mountBase (e : Env) (r : Path) (s : Sys) : Res :=
  if e.cached then mountOnce e (r ++ pBase) { s with base := mkdirP s.base } else (s, true)

/-- `rootfs_do_mounts`, meta/classes-recipe/rootfs.bbclass:138-182. -/
def doMounts (e : Env) (r : Path) (s : Sys) : Res :=
  (((((((mountDev e r s).andThen (mountOnce e (r ++ pProc))).andThen
    (mountOnce e (r ++ pSys))).andThen (makeRslave e)).andThen (mountFirmware e r)).andThen
    (mountApt e r)).andThen (mountWork e r)).andThen (mountBase e r)

/-- `umount p`: takes the newest mount on `p` away.  It fails if the mount is in use, by a
process or because something is mounted below it.  (Simplification: any mount strictly below
`p` counts.) -/
def umount (e : Env) (p : Path) (s : Sys) : Res :=
  if e.inUse p || s.mounts.any (fun m => p.isPrefixOf m && m ≠ p) then (s, false)
  else ({ s with mounts := s.mounts.erase p }, true)

/-- `if mountpoint -q p; then umount p; fi`, meta/classes-recipe/rootfs.bbclass:202-219. -/
def umountIf (e : Env) (p : Path) (s : Sys) : Res :=
  if mountpoint p s then umount e p s else (s, true)

/-- `rmdir --ignore-fail-on-non-empty` of a directory on which nothing is mounted. -/
def rmdirEmpty (o : Option Nat) : Option Nat := if o = some 0 then none else o

/-- meta/classes-recipe/rootfs.bbclass:187-190: `umount` and `rmdir`; `rmdir` fails if something
is still mounted on the directory. -/
def umountApt (e : Env) (r : Path) (s : Sys) : Res :=
  if mountpoint (r ++ pApt) s then
    (umount e (r ++ pApt) s).andThen fun s =>
      if mountpoint (r ++ pApt) s then (s, false) else ({ s with apt := rmdirEmpty s.apt }, true)
  else (s, true)

/-- meta/classes-recipe/rootfs.bbclass:192-195. -/
def umountBase (e : Env) (r : Path) (s : Sys) : Res :=
  if mountpoint (r ++ pBase) s then
    (umount e (r ++ pBase) s).andThen fun s =>
      if mountpoint (r ++ pBase) s then (s, false)
      else ({ s with base := rmdirEmpty s.base }, true)
  else (s, true)

/-- meta/classes-recipe/rootfs.bbclass:197-200. -/
def umountWork (e : Env) (r : Path) (s : Sys) : Res :=
  if mountpoint (r ++ pWork) s then
    (umount e (r ++ pWork) s).andThen fun s =>
      if mountpoint (r ++ pWork) s then (s, false)
      else ({ s with work := rmdirEmpty s.work }, true)
  else (s, true)

/-- `rootfs_do_umounts`, meta/classes-recipe/rootfs.bbclass:184-222. -/
def doUmounts (e : Env) (r : Path) (s : Sys) : Res :=
  ((((((((umountApt e r s).andThen (umountBase e r)).andThen (umountWork e r)).andThen
    (umountIf e (r ++ pPts))).andThen (umountIf e (r ++ pShm))).andThen
    (umountIf e (r ++ pDev))).andThen (umountIf e (r ++ pProc))).andThen
    (umountIf e (r ++ pFirmware))).andThen (umountIf e (r ++ pSys))

/-! ### The tasks -/

/-- The Python variable `lock` of `do_rootfs_install`: not assigned, an open lock file, or a
closed one.  meta/classes-recipe/rootfs.bbclass:453-460. -/
inductive Lock
  | unbound
  | held
  | closed
deriving DecidableEq, Repr

/-- A command of a task: the flag `isar-apt-lock` and what `bb.build.exec_func` does; `false`
means that an exception is raised. -/
structure Cmd where
  flag : Str
  act : Sys → Res

/-- `"acquire-before" in flag` (a substring test), meta/classes-recipe/rootfs.bbclass:453. -/
def Cmd.acquires (c : Cmd) : Bool := isSub "acquire-before".toList c.flag
/-- `"release-after" in flag` (a substring test), meta/classes-recipe/rootfs.bbclass:459. -/
def Cmd.releases (c : Cmd) : Bool := isSub "release-after".toList c.flag

/-- The state of `do_rootfs_install`: the system, the lock and, for every command that was
started, whether the lock was held while it ran. -/
structure World where
  sys : Sys
  lock : Lock
  ran : List Bool
deriving DecidableEq, Repr

/-- `lockfile` before the command, meta/classes-recipe/rootfs.bbclass:453-455.  A lock that was
held already is dropped when the variable is assigned, so that one lock is held. -/
def acquire (c : Cmd) (w : World) : World :=
  if c.acquires then { w with lock := .held } else w

/-- `exec_func`, meta/classes-recipe/rootfs.bbclass:457. -/
def execCmd (c : Cmd) (w : World) : World × Bool :=
  ({ w with sys := (c.act w.sys).1, ran := w.ran ++ [decide (w.lock = .held)] }, (c.act w.sys).2)

/-- `unlockfile` after the command, meta/classes-recipe/rootfs.bbclass:459-460,
bitbake/lib/bb/utils.py:518-530: an exception if the variable is not assigned or the file is
closed. -/
def release (c : Cmd) (w : World) : World × Bool :=
  if c.releases then
    if w.lock = .held then ({ w with lock := .closed }, true) else (w, false)
  else (w, true)

/-- The loop over the commands, meta/classes-recipe/rootfs.bbclass:450-461; it ends with the
first exception. -/
def runCmds : List Cmd → World → World × Bool
  | [], w => (w, true)
  | c :: cs, w =>
    let x := execCmd c (acquire c w)
    if x.2 then
      let y := release c x.1
      if y.2 then runCmds cs y.1 else y
    else x

/-- `do_rootfs_install`, meta/classes-recipe/rootfs.bbclass:431-464: the commands of lines
432-437 (`prepare`, the configuration commands, `rootfs_do_mounts`, the installation commands)
and the `finally` block.  `em` and `eu` are the environments of the mount and of the unmount
script.  The progress report is not modelled. -/
def installTask (em eu : Env) (r : Path) (prepare : Cmd) (configure install : List Cmd)
    (s : Sys) : World × Bool :=
  let mounts : Cmd := ⟨[], doMounts em r⟩
  let x := runCmds (prepare :: configure ++ mounts :: install) ⟨s, .unbound, []⟩
  let u := doUmounts eu r x.1.sys
  ({ x.1 with sys := u.1 }, x.2 && u.2)

/-- The commands of a task without locks, in order, up to the first exception. -/
def runAll : List (Sys → Res) → Sys → Res
  | [], s => (s, true)
  | c :: cs, s => (c s).andThen (runAll cs)

/-- `do_rootfs_postprocess`, meta/classes-recipe/rootfs.bbclass:606-627: mounting and the
installation of qemu happen outside the `try`, and the function returns without unmounting if
there is no command. -/
def postprocessTask (em eu : Env) (r : Path) (qemu : Sys → Res) (cmds : List (Sys → Res))
    (s : Sys) : Res :=
  (doMounts em r s).andThen fun s => (qemu s).andThen fun s =>
    if cmds.isEmpty then (s, true)
    else
      let x := runAll cmds s
      let u := doUmounts eu r x.1
      (u.1, x.2 && u.2)

/-- `do_generate_initramfs`, meta/classes-recipe/rootfs.bbclass:635-646. -/
def initramfsTask (em eu : Env) (r : Path) (qemu generate : Sys → Res) (s : Sys) : Res :=
  (doMounts em r s).andThen fun s => (qemu s).andThen fun s =>
    let x := generate s
    let u := doUmounts eu r x.1
    (u.1, x.2 && u.2)

end Isar.Rootfs
