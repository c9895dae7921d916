/-!
# Preventing daemons in the root file system

Model of meta/recipes-core/isar-mmdebstrap/files/chroot-setup.sh, which is called with "setup" when the root file system is prepared
(meta/classes-recipe/rootfs.bbclass:240-247) and with "cleanup" when it is finalized (meta/classes-recipe/image.bbclass:449-456).
Simplified: the directories that `check_target` asks for are there (chroot-setup.sh:35-56), files are regular files, and the script runs as
root, so that writing and removing does not fail.
-/

namespace Meta.Chroot

/-- A directory; all but /sbin and /usr/sbin are numbers. -/
inductive Dir where
  | sbin
  | usrSbin
  | other (n : Nat)
deriving DecidableEq

/-- A name: policy-rc.d, start-stop-daemon, initctl, or another one. -/
inductive Name where
  | policy
  | ssd
  | initctl
  | other (n : Nat)
deriving DecidableEq

/-- A path, `real` if its name ends in ".REAL". -/
structure Path where
  dir : Dir
  name : Name
  real : Bool := false
deriving DecidableEq

structure File where
  data : Nat
  exec : Bool
deriving DecidableEq

/-- What the script writes (chroot-setup.sh:86-90, 95-101, 106-113). -/
def fake (n : Name) : File :=
  match n with
  | .policy => ⟨0, true⟩
  | .ssd => ⟨1, true⟩
  | _ => ⟨2, true⟩

structure State where
  /-- /sbin is a link to /usr/sbin -/
  merged : Bool
  files : Path → Option File
  /-- the diversions of dpkg, each to the name with ".REAL" -/
  db : List Path

/-- Where a path leads. -/
def canon (m : Bool) (p : Path) : Path := if m = true ∧ p.dir = .sbin then { p with dir := .usrSbin } else p

def get (s : State) (p : Path) : Option File := s.files (canon s.merged p)

def put (s : State) (p : Path) (v : Option File) : State :=
  { s with files := fun q => if q = canon s.merged p then v else s.files q }

def Path.toReal (p : Path) : Path := { p with real := true }

/-- `dpkg-divert --add --rename` (called at chroot-setup.sh:63): nothing if there is the same diversion already; fails if a file would be
overwritten.  dpkg compares the names as they are written. -/
def divertAdd (s : State) (p : Path) : Option State :=
  if p ∈ s.db then some s
  else if (get s p).isSome ∧ (get s p.toReal).isSome then none
  else
    match get s p with
    | some f => some { put (put s p.toReal (some f)) p none with db := p :: s.db }
    | none => some { s with db := p :: s.db }

/-- `dpkg-divert --remove --rename` (called at chroot-setup.sh:72) after the file itself is removed: nothing if there is no such
diversion. -/
def divertRemove (s : State) (p : Path) : State :=
  if p ∈ s.db then
    match get s p.toReal with
    | some f => { put (put s p (some f)) p.toReal none with db := s.db.erase p }
    | none => { s with db := s.db.erase p }
  else s

/-- chroot-setup.sh:66-73, `undivert` -/
def undivert (s : State) (p : Path) : State := divertRemove (put s p none) p

def policySbin : Path := { dir := .sbin, name := .policy }
def policy : Path := { dir := .usrSbin, name := .policy }
def ssd : Path := { dir := .sbin, name := .ssd }
def initctl : Path := { dir := .sbin, name := .initctl }

def isExec (f : Option File) : Bool := f.any (·.exec)

/-- chroot-setup.sh:83-90 -/
def setupPolicy (s : State) : Option State :=
  (if (get s policySbin).isSome then divertAdd s policySbin else some s).map fun s => put s policy (some (fake .policy))

/-- chroot-setup.sh:92-101 -/
def setupSsd (s : State) : Option State :=
  (if (get s ssd).isSome then divertAdd s ssd else some s).map fun s => put s ssd (some (fake .ssd))

/-- chroot-setup.sh:104-114 -/
def setupInitctl (s : State) : Option State :=
  if isExec (get s initctl) then (divertAdd s initctl).map fun s => put s initctl (some (fake .initctl)) else some s

/-- chroot-setup.sh:75-115, `chroot_setup` -/
def setup (s : State) : Option State := ((setupPolicy s).bind setupSsd).bind setupInitctl

/-- chroot-setup.sh:124-126 -/
def cleanupInitctl (s : State) : State := if isExec (get s initctl.toReal) then undivert s initctl else s

/-- chroot-setup.sh:117-127, `chroot_cleanup` -/
def cleanup (s : State) : State := cleanupInitctl (undivert (undivert s policy) ssd)

/-- dpkg unpacks a file of a package: where it is diverted to, if its name, as the package has it, is diverted. -/
def unpack (s : State) (x : Path × File) : State := put s (if x.1 ∈ s.db then x.1.toReal else x.1) (some x.2)

def unpackAll (s : State) (xs : List (Path × File)) : State := xs.foldl unpack s

/-- The steps of image.bbclass:453-456: each command of the cleanup, and the removal of the script. -/
inductive Step where
  | rm (p : Path)
  | unlink (p : Path)
  | initctl
  | script

/-- The root file system and whether chroot-setup.sh is in it. -/
structure Root where
  s : State
  script : Bool

def step (r : Root) : Step → Root
  | .rm p => { r with s := put r.s p none }
  | .unlink p => { r with s := divertRemove r.s p }
  | .initctl => { r with s := cleanupInitctl r.s }
  | .script => { r with script := false }

/-- The commands that are run. -/
def steps (r : Root) : List Step :=
  (if r.script then [.rm policy, .unlink policy, .rm ssd, .unlink ssd, .initctl] else []) ++ [.script]

/-- image.bbclass:449-456, the first part of `do_rootfs_finalize`. -/
def finalize (r : Root) : Root := (steps r).foldl step r

/-- The same, interrupted after some commands.  (The commands for initctl are taken together.) -/
def interrupted (n : Nat) (r : Root) : Root := ((steps r).take n).foldl step r

end Meta.Chroot
