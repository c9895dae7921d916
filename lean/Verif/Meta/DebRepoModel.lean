import Verif.Py.Str
/-!
# The local package repositories

Model of `repo_add_packages`, `repo_del_package` and `repo_contains_package`
(`meta/classes-recipe/repository.bbclass`), of `deb_clean` and `do_deploy_deb`
(`meta/classes-recipe/dpkg-base.bbclass`) and of `populate_base_apt`
(`meta/recipes-devtools/base-apt/base-apt.bb`).

What `reprepro` does is an assumption, from its manual: with the configuration in `distributions.in` (no `Limit`)
each list of an architecture has one version of a package; `includedeb` puts a package into the list of its
architecture, or into all lists if it is for all; it does not replace a newer version; it fails if the
repository has a file for the same package, version and architecture with another content, or if it does not know
the architecture; `removefilter` removes from all lists what matches.

Simplified: versions are numbers, their places in the order of dpkg; contents are numbers; and each call of
`reprepro` happens as a whole.  Left out: source packages, priorities, signatures, and the lock, under which all
of these functions run.
-/

namespace Meta.DebRepo
open Py

/-- A package file: the fields `Package`, `Architecture` and `Version`, and its content. -/
structure Deb where
  pkg : Str
  arch : Str
  ver : Nat
  content : Nat
deriving DecidableEq, Repr

/-- A repository: for each architecture and package what its list has. -/
abbrev Repo := Str → Str → Option Deb

/-- isar-apt/files/distributions.in:2 and base-apt/files/distributions.in:2 -/
def archs : List Str :=
  ["i386".toList, "armhf".toList, "arm64".toList, "amd64".toList, "mipsel".toList, "riscv64".toList]

/-- The lists into which a package goes. -/
def targets (a : Str) : List Str := if a = "all".toList then archs else if a ∈ archs then [a] else []

/-- What a list has after a package was added. -/
def newest (o : Option Deb) (d : Deb) : Deb :=
  match o with
  | some o => if d.ver < o.ver then o else d
  | none => d

/-- The entry is the same package with the same version, from whatever file. -/
def same (d : Deb) (o : Deb) : Bool := o.pkg == d.pkg && o.ver == d.ver && o.arch == d.arch

/-- repository.bbclass:120-139: the first entry that `listfilter` finds. -/
def entry (r : Repo) (d : Deb) : Option Deb := archs.findSome? fun i => (r i d.pkg).filter (same d)

/-- Whether there is another file for the same package, version and architecture. -/
def clashes (r : Repo) (d : Deb) : Bool :=
  archs.any fun i => (r i d.pkg).any fun o => same d o && o.content != d.content

/-- The lists after a package was added. -/
def put (r : Repo) (d : Deb) : Repo := fun i p =>
  if i ∈ targets d.arch ∧ p = d.pkg then some (newest (r i p) d) else r i p

/-- `reprepro includedeb` -/
def includeDeb (r : Repo) (d : Deb) : Option Repo :=
  if targets d.arch = [] then none
  else if clashes r d then none
  else some (put r d)

/-- repository.bbclass:97-111, `repo_del_package`: `reprepro removefilter` with name and architecture. -/
def removeDeb (r : Repo) (d : Deb) : Repo :=
  fun i p => (r i p).filter fun o => !(o.pkg == d.pkg && o.arch == d.arch)

/-- repository.bbclass:60-81, `repo_add_packages` -/
def addAll : Repo → List Deb → Option Repo
  | r, [] => some r
  | r, d :: ds =>
    match includeDeb r d with
    | some r' => addAll r' ds
    | none => none

/-- dpkg-base.bbclass:211-219, `deb_clean` -/
def cleanAll (r : Repo) (ds : List Deb) : Repo := ds.foldl removeDeb r

/-- dpkg-base.bbclass:224-228, `do_deploy_deb`, with the packages in the work directory; without any, the
pattern `*.deb` stays as it is, and adding it fails. -/
def deploy (r : Repo) (ds : List Deb) : Option Repo := if ds = [] then none else addAll (cleanAll r ds) ds

/-- A deployment that is stopped: after `n` packages were removed, or after all were removed and `n` added. -/
def stopped (r : Repo) (ds : List Deb) (adding : Bool) (n : Nat) : Option Repo :=
  if adding then addAll (cleanAll r ds) (ds.take n) else some (cleanAll r (ds.take n))

/-- repository.bbclass:113-151, `repo_contains_package`: 0 if it has this file, 1 if it has another one for the
version, 2 otherwise. -/
def contains (r : Repo) (d : Deb) : Nat :=
  match entry r d with
  | some o => if o.content = d.content then 0 else 1
  | none => 2

/-- base-apt.bb:18-44: one file of the directory with downloads. -/
def populateOne (r : Repo) (d : Deb) : Option Repo :=
  if contains r d = 0 then some r
  else if contains r d = 1 then includeDeb (removeDeb r d) d
  else includeDeb r d

/-- base-apt.bb:15-52, `populate_base_apt`, without sources: all files, in the order of `find`. -/
def populate : Repo → List Deb → Option Repo
  | r, [] => some r
  | r, d :: ds =>
    match populateOne r d with
    | some r' => populate r' ds
    | none => none

/-- The repository as `repo_create` makes it. -/
def empty : Repo := fun _ _ => none

end Meta.DebRepo
