import Verif.Py.Str
/-!
# Configurations of schroot

Model of `meta/classes-recipe/sbuild.bbclass`: `schroot_create_configs`, `schroot_delete_configs`, `insert_mounts`,
`remove_mounts` and `schroot_configure_ccache`, and of the functions that use them: `do_dpkg_build` and `do_devshell`
in `dpkg-base.bbclass`, `do_fetch_common_source` in `dpkg-source.bbclass`, `imager_run` in
`image-tools-extension.bbclass` and `download` in `aptsrc_fetcher.py`.

The functions are lists of steps, so that a run may be stopped between any two of them, and steps of several runs
may come in any order.  Simplified: of the profile directory only `fstab` is modelled, as a list of lines; paths have
no spaces and, of the special characters of `sed`, only dots.  Left out: what `schroot` and `sbuild` do.
-/

namespace Meta.Schroot
open Py

/-- What `/etc/schroot` has under one name: the file in `chroot.d`, the profile directory and the file `fstab` in it.
`inside`: a `cp -rf` that is under way has found the directory. -/
structure Entry where
  conf : Option (List Str)
  dir : Bool
  fstab : Option (List Str)
  inside : Bool
deriving DecidableEq, Repr

/-- What the functions know about a recipe; `mounts` are the words of SCHROOT_MOUNTS. -/
structure Recipe where
  schrootDir : Str
  baseApt : Str
  workdir : Str
  bpn : Str
  dlDir : Str
  /-- `[ -d ${DL_DIR} ]` -/
  dlThere : Bool
  mounts : List Str
  ccacheDir : Str
  isarApt : Str

/-- The steps. -/
inductive Step where
  /-- `cat << EOF > "${SCHROOT_CONF_FILE}"` -/
  | conf (lines : List Str)
  /-- `echo ... >> "${SCHROOT_CONF_FILE}"` -/
  | confAdd (line : Str)
  /-- `cp -rf "${SCHROOT_CONF}/sbuild" "${SBUILD_CONF_DIR}"`, first part -/
  | mkdir
  /-- the second part of it -/
  | copy
  /-- `grep -qxF "${line}" fstab || echo "${line}" >> fstab` -/
  | add (line : Str)
  /-- `sed -i "\|${line}|d" fstab` -/
  | del (line : Str)
  /-- `rm -rf "${SBUILD_CONF_DIR}"`, first part -/
  | rmFstab
  /-- the second part of it -/
  | rmDir
  /-- `rm -f "${SCHROOT_CONF_FILE}"` -/
  | rmConf
  /-- anything else -/
  | other
deriving DecidableEq, Repr

/-- Whether a line begins with what the expression means; a dot stands for any character. -/
def dotPrefix : Str → Str → Bool
  | [], _ => true
  | _ :: _, [] => false
  | p :: ps, c :: cs => (p == '.' || p == c) && dotPrefix ps cs

/-- Whether `sed` finds the expression in the line. -/
def hits (pat : Str) : Str → Bool
  | [] => dotPrefix pat []
  | c :: cs => dotPrefix pat (c :: cs) || hits pat cs

/-- One step; `T` is `fstab` in the profile `sbuild` of the system.  `cp -rf` into a directory that is there puts the
copy inside, so that its `fstab` stays as it is. -/
def step (T : List Str) (e : Entry) : Step → Entry
  | .conf lines => { e with conf := some lines }
  | .confAdd line => { e with conf := some (e.conf.getD [] ++ [line]) }
  | .mkdir => { e with dir := true, inside := e.dir }
  | .copy => if e.inside then e else { e with fstab := some T }
  | .add line => if line ∈ e.fstab.getD [] then e else { e with fstab := some (e.fstab.getD [] ++ [line]) }
  | .del line => { e with fstab := e.fstab.map fun l => l.filter fun x => !hits line x }
  | .rmFstab => { e with fstab := none }
  | .rmDir => { e with dir := false }
  | .rmConf => { e with conf := none }
  | .other => e

def run (T : List Str) (e : Entry) (s : List Step) : Entry := s.foldl (step T) e

/-- sbuild.bbclass:44 and others: a line of `fstab`. -/
def bind (src dst : Str) : Str := src ++ ' ' :: dst ++ " none rw,bind,private 0 0".toList

/-- sbuild.bbclass:22-40: the file in `chroot.d`; only the lines that depend on the recipe. -/
def confLines (name : Str) (r : Recipe) : List Str :=
  ['[' :: name ++ [']'], "directory=".toList ++ r.schrootDir, "profile=".toList ++ name]

/-- sbuild.bbclass:20-57, `schroot_create_configs` -/
def create (name : Str) (r : Recipe) : List Step :=
  [.conf (confLines name r), .mkdir, .copy, .add (bind r.baseApt "/base-apt".toList),
    .add (bind r.workdir ("/home/builder/".toList ++ r.bpn))] ++
  (if r.dlThere then [.add (bind r.dlDir "/downloads".toList)] else [])

/-- sbuild.bbclass:59-72, `schroot_delete_configs` -/
def delete : List Step := [.rmFstab, .rmDir, .rmConf]

/-- `${mp%%:*}` -/
def beforeColon (mp : Str) : Str := mp.takeWhile (· ≠ ':')

/-- `${mp#*:}` -/
def afterColon (mp : Str) : Str := if ':' ∈ mp then (mp.dropWhile (· ≠ ':')).drop 1 else mp

/-- sbuild.bbclass:109 and 120 -/
def mountLine (mp : Str) : Str := bind (beforeColon mp) (afterColon mp)

/-- sbuild.bbclass:105-114, `insert_mounts` -/
def insertMounts (r : Recipe) : List Step := r.mounts.map fun mp => .add (mountLine mp)

/-- sbuild.bbclass:116-124, `remove_mounts` -/
def removeMounts (r : Recipe) : List Step := r.mounts.map fun mp => .del (mountLine mp)

/-- sbuild.bbclass:126-145, `schroot_configure_ccache` -/
def ccache (r : Recipe) : List Step :=
  [.add (bind r.ccacheDir "/ccache".toList), .confAdd "command-prefix=/ccache/sbuild-setup".toList]

/-- dpkg-base.bbclass:162-169, `dpkg_schroot_create_configs` -/
def dpkgCreate (name : Str) (r : Recipe) : List Step :=
  create name r ++ [.add (r.isarApt ++ ' ' :: "/isar-apt".toList ++ " none rw,bind 0 0".toList)]

/-! ## Several runs -/

/-- `/etc/schroot`, and steps of any runs in any order, each with the name that it uses. -/
def exec (T : List Str) (σ : Str → Entry) (sched : List (Str × Step)) : Str → Entry :=
  sched.foldl (fun σ s => fun n => if n = s.1 then step T (σ n) s.2 else σ n) σ

/-- The steps with one name. -/
def proj (n : Str) (sched : List (Str × Step)) : List Step := (sched.filter fun s => s.1 == n).map (·.2)

/-- sbuild.bbclass:10, `SBUILD_CHROOT` -/
def chrootName (distro user uuid : Str) (pid : Nat) : Str :=
  distro ++ '-' :: user ++ '-' :: uuid ++ '-' :: dec pid

/-! ## Errors -/

/-- A function that sets up, then arranges for a cleanup, and goes on. -/
structure Task where
  setup : List Step
  body : List Step
  cleanup : List Step

/-- The steps that are done if the step with this number fails, or none.  Before the cleanup is arranged an error
ends the run at once; later `finally`, or the trap for `EXIT`, does the cleanup. -/
def Task.steps (t : Task) : Option Nat → List Step
  | none => t.setup ++ t.body
  | some k =>
    if k < t.setup.length then t.setup.take k
    else t.setup ++ t.body.take (k - t.setup.length) ++ t.cleanup

/-- dpkg-base.bbclass:171-177, `do_dpkg_build`: the cleanup is done in any case. -/
def dpkgBuild (name : Str) (r : Recipe) (work : List Step) : Task where
  setup := dpkgCreate name r
  body := work ++ delete
  cleanup := delete

/-- image-tools-extension.bbclass:19-84, `imager_run`.  The session begins before the traps are set. -/
def imagerRun (name : Str) (r : Recipe) (work : List Step) : Task where
  setup := create name r ++ insertMounts r ++ [.other]
  body := work ++ removeMounts r ++ delete
  cleanup := removeMounts r ++ delete

/-- dpkg-source.bbclass:58-85, `do_fetch_common_source`.  Other than in `imager_run` there is no `set +e` in the
handler: it ends if the session cannot be ended. -/
def fetchCommonSource (name : Str) (r : Recipe) (work : List Step) (ended : Bool) : Task where
  setup := create name r ++ insertMounts r ++ [.other]
  body := work ++ removeMounts r ++ delete
  cleanup := if ended then removeMounts r ++ delete else []

/-- aptsrc_fetcher.py:23-52, `download`, and 54-85, `unpack`.  The session, and the lock, come before `try`. -/
def aptSrc (name : Str) (r : Recipe) (work : List Step) (ended : Bool) : Task where
  setup := create name r ++ [.other, .other]
  body := work ++ delete
  cleanup := if ended then delete else []

/-- dpkg-base.bbclass:237-267, `do_devshell`: there is no `try`. -/
def devshell (name : Str) (r : Recipe) (work : List Step) : Task where
  setup := dpkgCreate name r ++ work
  body := delete
  cleanup := []

end Meta.Schroot
