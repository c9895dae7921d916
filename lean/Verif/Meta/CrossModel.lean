import Verif.Py.Str
/-!
# Where a package is built

Model of meta/classes-recipe/crossvars.bbclass and of the chroots that meta/recipes-devtools/sbuild-chroot makes.
-/

namespace Meta.Cross

open Py

/-- The variables that are read. -/
structure Conf where
  /-- `DISTRO_ARCH` -/
  distro : Str
  /-- `HOST_ARCH` -/
  host : Str
  /-- `COMPAT_DISTRO_ARCH` -/
  compat : Option Str
  /-- `ISAR_ENABLE_COMPAT_ARCH` -/
  compatOn : Bool
  /-- `ISAR_CROSS_COMPILE` -/
  cross : Bool
  /-- `SBUILD_FLAVOR`; no flavor is the empty text -/
  flavor : Str
  /-- `SCHROOT_HOST_DIR` and `SCHROOT_TARGET_DIR` (bitbake.conf:64-65) -/
  hostDir : Str
  targetDir : Str

/-- crossvars.bbclass:18-19; the same at sbuild-chroot.inc:17. -/
def suffix (c : Conf) : Str := if c.flavor = [] then [] else '-' :: c.flavor

/-- The text that stands for `BUILD_ARCH` in the value of `PACKAGE_ARCH`: it is not set yet. -/
def buildArchRef : Str := "${BUILD_ARCH}".toList

/-- crossvars.bbclass:26-28: is the package built in the chroot of the host? -/
def onHost (c : Conf) (pkg : Str) : Bool :=
  decide (c.distro ≠ c.host) &&
    (decide (pkg = c.host) || ((decide (pkg = c.distro) || decide (c.compat = some pkg) || decide (pkg = buildArchRef)) && c.cross))

/-- What is set. -/
structure Vars where
  /-- `BUILD_ARCH` -/
  arch : Str
  /-- `SCHROOT_DIR` -/
  dir : Str
  /-- `SCHROOT_DEP` -/
  dep : Str
  /-- `SDK_TOOLCHAIN` -/
  toolchain : List Str
deriving DecidableEq

/-- crossvars.bbclass:40-41 with compat.bbclass:35-37, `isar_can_build_compat`. -/
def compatToolchain (c : Conf) : List Str :=
  match c.compat with
  | some a => if c.compatOn then ["crossbuild-essential-".toList ++ a] else []
  | none => []

/-- crossvars.bbclass:11-43. -/
def vars (c : Conf) (pkg : Str) : Vars :=
  if onHost c pkg then
    ⟨c.host, c.hostDir ++ suffix c, "sbuild-chroot-host".toList ++ suffix c ++ ":do_build".toList,
      ("crossbuild-essential-".toList ++ c.distro) :: compatToolchain c⟩
  else
    ⟨c.distro, c.targetDir ++ suffix c, "sbuild-chroot-target".toList ++ suffix c ++ ":do_build".toList,
      "build-essential".toList :: compatToolchain c⟩

/-- The value of `PACKAGE_ARCH` afterwards. -/
def packageArch (c : Conf) (pkg : Str) : Str := if pkg = buildArchRef then (vars c pkg).arch else pkg

/-- A chroot: the recipe that makes it, where it is put, and what is in it. -/
structure Chroot where
  recipe : Str
  dir : Str
  arch : Str
  packages : List Str
deriving DecidableEq

/-- sbuild-chroot.inc:20-53: the packages of both chroots that are compilers. -/
def common (c : Conf) : List Str :=
  (if c.compatOn then ["crossbuild-essential-".toList ++ (c.compat.getD "None".toList)] else []) ++ ["build-essential".toList]

/-- sbuild-chroot-host.bb:8-20 and sbuild-chroot.inc:67-73.  A recipe of a flavor sets `SBUILD_FLAVOR` and has it in its name. -/
def hostChroot (c : Conf) : Chroot :=
  ⟨"sbuild-chroot-host".toList ++ suffix c, c.hostDir ++ suffix c, c.host, common c ++ ["crossbuild-essential-".toList ++ c.distro]⟩

/-- sbuild-chroot-target.bb:8-15 and sbuild-chroot.inc:67-73; rootfs.bbclass:8 for the architecture. -/
def targetChroot (c : Conf) : Chroot :=
  ⟨"sbuild-chroot-target".toList ++ suffix c, c.targetDir ++ suffix c, c.distro, common c⟩

/-- dpkg-base.bbclass:147-151, `isar_deb_build_profiles`: is the profile `cross` added? -/
def crossProfile (c : Conf) (pkg : Str) : Bool := decide ((vars c pkg).arch ≠ packageArch c pkg)

end Meta.Cross
