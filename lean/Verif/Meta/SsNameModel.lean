import Verif.Py.Path
/-!
# Names of archives in the shared state cache, and which of them are needed

Model of `meta/classes-global/sstate.bbclass`: `generate_sstatefn`, the names that are written and looked
for, and `setscene_depvalid`.

Lengths are counted in characters, as in the code; the limit of file systems is in bytes, which is the
same for ASCII.
-/

namespace Meta.SsName
open Py

inductive Err where
  /-- The name has too few components (`IndexError`). -/
  | index
  /-- `bb.fatal`: the name cannot be made short enough. -/
  | tooLong
deriving DecidableEq, Repr

/-- `s[:n]` in Python: a negative number counts from the end. -/
def upTo (s : Str) (n : Int) : Str :=
  if 0 ≤ n then s.take n.toNat else s.take (s.length - n.natAbs)

/-- sstate.bbclass:11-16: the limit. -/
def limit (siginfo : Bool) : Nat := if siginfo then 254 else 254 - 8

/-- sstate.bbclass:11-16: the extension. -/
def extension (siginfo : Bool) : Str :=
  if siginfo then ".tar.zst.siginfo".toList else ".tar.zst".toList

/-- sstate.bbclass:17-18. -/
def hashOr (hash : Str) : Str := if hash = [] then "INVALID".toList else hash

/-- The end of the name: hash, task and extension (sstate.bbclass:19). -/
def tail (hash task : Str) (siginfo : Bool) : Str := hash ++ "_".toList ++ task ++ extension siginfo

/-- sstate.bbclass:22-29: the shortened specification. -/
def shorten (spec hash task : Str) (siginfo : Bool) : Except Err Str :=
  match splitOn ':' spec with
  | c0 :: c1 :: c2 :: c3 :: c4 :: c5 :: c6 :: rest =>
    let avail : Int := ((limit siginfo : Int) - (tail hash task siginfo).length - c0.length - c1.length -
      c5.length - c6.length - 7) / 3
    .ok (join ":".toList (c0 :: c1 :: upTo c2 avail :: upTo c3 avail :: upTo c4 avail :: c5 :: c6 :: rest))
  | _ => .error .index

/-- sstate.bbclass:33: directories and name. -/
def place (hash fn : Str) : Str :=
  hash.take 2 ++ "/".toList ++ (hash.drop 2).take 2 ++ "/".toList ++ fn

/-- sstate.bbclass:8-33, `generate_sstatefn`, for a task. -/
def sstatefn (spec hash0 task : Str) (siginfo : Bool) : Except Err Str :=
  let hash := hashOr hash0
  if (spec ++ tail hash task siginfo).length > limit siginfo then
    match shorten spec hash task siginfo with
    | .error e => .error e
    | .ok spec' =>
      if (spec' ++ tail hash task siginfo).length > limit siginfo then .error .tooLong
      else .ok (place hash (spec' ++ tail hash task siginfo))
  else .ok (place hash (spec ++ tail hash task siginfo))

/-- What a recipe says about its archives. -/
structure Recipe where
  /-- `SSTATE_PKGSPEC`. -/
  pkgspec : Str
  /-- `SSTATE_SWSPEC`. -/
  swspec : Str
  /-- The recipe inherits `native`, `crosssdk` or `cross` (sstate.bbclass:150). -/
  native : Bool
  /-- `NATIVELSBSTRING`. -/
  lsb : Str

/-- sstate.bbclass:38, 150-151, 192-194: `SSTATE_PKGNAME` of a task, without `do_`. -/
def written (r : Recipe) (hash task : Str) : Except Err Str :=
  if task = "populate_lic".toList then sstatefn r.swspec hash task false
  else (sstatefn r.pkgspec hash task false).map ((if r.native then r.lsb ++ "/".toList else []) ++ ·)

/-- sstate.bbclass:80, 152: `BB_HASHFILENAME`. -/
def hashfn (r : Recipe) : Str :=
  (if r.native then "True".toList else "False".toList) ++ " ".toList ++ r.pkgspec ++ " ".toList ++ r.swspec

/-- sstate.bbclass:938. -/
def sharedTasks : List Str :=
  ["fetch".toList, "unpack".toList, "patch".toList, "populate_lic".toList, "preconfigure".toList]

/-- sstate.bbclass:927-946, `getpathcomponents` and `getsstatefile`. -/
def lookedFor (lsb hashfn' hash task : Str) : Except Err Str :=
  match splitOn ' ' hashfn' with
  | flag :: spec :: sw :: _ =>
    if task ∈ sharedTasks ∧ sw ≠ [] then sstatefn sw hash task false
    else (sstatefn spec hash task false).map ((if flag = "True".toList then lsb ++ "/".toList else []) ++ ·)
  | _ => .error .index

/-! ## Which tasks are needed -/

/-- A task that is considered: its key, recipe and task name. -/
structure Item where
  key : Str
  pn : Str
  name : Str
deriving DecidableEq

/-- sstate.bbclass:1087. -/
def directTasks : List Str :=
  ["do_populate_lic".toList, "do_deploy_source_date_epoch".toList, "do_shared_workdir".toList,
    "do_stash_locale".toList, "do_gcc_stash_builddir".toList, "do_create_spdx".toList]

/-- sstate.bbclass:1089-1090. -/
def isNativeCross (x : Str) : Bool :=
  endsWith x "-native".toList || isSub "-cross-".toList x || isSub "-crosssdk".toList x ||
    endsWith x "-cross".toList

/-- sstate.bbclass:1114. -/
def packageWrites : List Str :=
  ["do_package_write_deb".toList, "do_package_write_ipk".toList, "do_package_write_rpm".toList]

/-- What is decided for one that depends on the task: it does not need it, or it does. -/
inductive Need where
  | skip
  | needed
deriving DecidableEq

/-- sstate.bbclass:1128-1163: a sysroot that depends on a sysroot. -/
def sysroots (excluded : Str → Str → Bool) (t d : Item) : Need :=
  if excluded d.pn t.pn then .skip
  else if d.pn = "meta-extsdk-toolchain".toList then .needed
  else if isNativeCross t.pn && isNativeCross d.pn then .needed
  else if isNativeCross d.pn then .needed
  else if isNativeCross t.pn && decide (t.pn ≠ "shadow-native".toList) then .skip
  else .needed

/-- sstate.bbclass:1125: the recipes of `useradd.bbclass`. -/
def userRecipes : List Str :=
  ["shadow-native".toList, "shadow-sysroot".toList, "base-passwd".toList, "pseudo-native".toList]

/-- sstate.bbclass:1104-1170: the loop body.  The regular expressions of
`SSTATE_EXCLUDEDEPS_SYSROOT` are a predicate. -/
def consider (excluded : Str → Str → Bool) (notneeded : List Str) (t d : Item) : Need :=
  if t.key = d.key then .skip
  else if d.key ∈ notneeded then .skip
  else if t.name = "do_package".toList ∧ (d.name = "do_package".toList ∨ d.name ∈ packageWrites ∨
      d.name = "do_packagedata".toList ∨ d.name = "do_package_qa".toList) then .skip
  else if t.name = "do_populate_sysroot".toList ∧ d.name ∈ packageWrites then .needed
  else if t.name = "do_populate_sysroot".toList ∧ (d.name = "do_package".toList ∨
      d.name = "do_packagedata".toList ∨ d.name = "do_package_qa".toList ∨ d.name = "do_deploy".toList) then .skip
  else if isNativeCross d.pn = true ∧ (d.name ∈ packageWrites ∨ d.name = "do_packagedata".toList ∨
      d.name = "do_package".toList ∨ d.name = "do_package_qa".toList) then .skip
  else if (t.name = "do_package".toList ∨ t.name = "do_populate_sysroot".toList) ∧
      (userRecipes.any fun u => endsWith d.pn u) = true ∧ d.name = "do_populate_sysroot".toList then .skip
  else if t.name = "do_populate_sysroot".toList ∧ d.name = "do_populate_sysroot".toList then
    sysroots excluded t d
  else if d.name ∈ directTasks then .skip
  else .needed

/-- sstate.bbclass:1072-1171, `setscene_depvalid`: the task can be skipped. -/
def depvalid (excluded : Str → Str → Bool) (notneeded : List Str) (t : Item) (dependees : List Item) :
    Bool :=
  if t.name ∈ directTasks then true
  else if t.name = "do_packagedata".toList then
    !(dependees.any fun d => decide (d.name = "do_packagedata".toList))
  else dependees.all fun d => decide (consider excluded notneeded t d = .skip)

end Meta.SsName
