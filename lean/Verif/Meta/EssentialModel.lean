import Verif.Py.Str
/-!
# Packages that must be rebuilt before all others

Model of meta/classes-recipe/essential.bbclass, which adds to every package and every image dependencies on the packages in
`ISAR_REBUILD_ESSENTIAL_PKGS`.
-/

namespace Meta.Essential
open Py

def sCompat : Str := "-compat".toList
def sNative : Str := "-native".toList

/-- essential.bbclass:10-11: whether packages for the other architecture can be built (compat.bbclass:35-37), and whether packages for the host
are built on their own, that is `DISTRO_ARCH` is not `HOST_ARCH`. -/
structure Conf where
  compat : Bool
  native : Bool
deriving DecidableEq

/-- essential.bbclass:19-28 -/
def variants (c : Conf) (p : Str) : List Str :=
  if endsWith p sCompat && c.compat then [p]
  else if endsWith p sNative && c.native then [p]
  else [p] ++ (if c.compat then [p ++ sCompat] else []) ++ (if c.native then [p ++ sNative] else [])

/-- essential.bbclass:17-28 -/
def essentials (c : Conf) (pkgs : List Str) : List Str := pkgs.flatMap (variants c)

/-- Tasks: `do_local_isarapt` (dpkg-base.bbclass:131), `do_rootfs_install` (rootfs.bbclass:431), a name that the class asks for, and others. -/
inductive Task where
  | localIsarapt
  | rootfsInstall
  | installRootfs
  | other (n : Nat)
deriving DecidableEq

structure Recipe where
  pn : Str
  /-- the tasks that are defined -/
  tasks : List Task
  /-- the packages that must be deployed before a task (`do_deploy_deb` in the flag `depends`) -/
  depends : Task → List Str

/-- essential.bbclass:35-39 for one package; `d.getVar` of a task that is not defined gives nothing. -/
def addOne (r : Recipe) (p : Str) : Recipe :=
  { r with depends := fun t =>
      if (t = .localIsarapt ∨ t = .installRootfs) ∧ t ∈ r.tasks then r.depends t ++ [p] else r.depends t }

/-- essential.bbclass:30-39 -/
def apply (c : Conf) (pkgs : List Str) (r : Recipe) : Recipe :=
  if r.pn ∈ essentials c pkgs then r else (essentials c pkgs).foldl addOne r

end Meta.Essential
