import Verif.Meta.RootfsModel
/-!
# What the rootfs tasks are expected to do with mounts and with the lock
-/

namespace Isar.Rootfs
open Py

/-- `m` lies strictly below the directory `r`. -/
def below (r m : Path) : Bool := r.isPrefixOf m && m ≠ r

/-- The mounts that have nothing to do with the rootfs, in their order. -/
def others (r : Path) (ms : List Path) : List Path := ms.filter fun m => !below r m

/-- Nothing is mounted below the rootfs. -/
def Unmounted (r : Path) (s : Sys) : Prop := ∀ m ∈ s.mounts, below r m = false

/-- No process uses a mount. -/
def Idle (e : Env) : Prop := ∀ p, e.inUse p = false

/-- The paths, relative to the rootfs, that are to be mounted: always six; `/sys/firmware` if the
host has it; isar-apt if there is no such directory or it is empty; base-apt if the cached base
repository is used. -/
def Wanted (e : Env) (s : Sys) (q : Path) : Prop :=
  q ∈ [pDev, pShm, pPts, pProc, pSys, pWork] ∨ (e.firmware = true ∧ q = pFirmware) ∨
  ((s.apt = none ∨ s.apt = some 0) ∧ q = pApt) ∨ (e.cached = true ∧ q = pBase)

/-- A directory without entries counts as missing. -/
def nonEmpty : Option Nat → Option Nat
  | some 0 => none
  | o => o

/-- The command leaves the mount table alone, whether it succeeds or fails. -/
def KeepsMounts (act : Sys → Res) : Prop := ∀ s, (act s).1.mounts = s.mounts

/-- For the commands `cs`: the `i`-th command is to run with the lock held, because a command up
to it acquires the lock and no command from there on, before it, releases it. -/
def NeedsLock (cs : List Cmd) (i : Nat) : Prop :=
  ∃ j : Nat, j ≤ i ∧ (∃ c : Cmd, cs[j]? = some c ∧ c.acquires = true) ∧
    ∀ (k : Nat) (c : Cmd), j ≤ k → k < i → cs[k]? = some c → c.releases = false

/-- After the commands `cs` the lock is to be held: the last acquisition was not released. -/
def Outstanding (cs : List Cmd) : Prop :=
  ∃ j : Nat, (∃ c : Cmd, cs[j]? = some c ∧ c.acquires = true) ∧
    ∀ (k : Nat) (c : Cmd), j ≤ k → cs[k]? = some c → c.releases = false

/-- Every command that releases the lock runs with the lock held. -/
def Balanced (cs : List Cmd) : Prop :=
  ∀ (i : Nat) (c : Cmd), cs[i]? = some c → c.releases = true → NeedsLock cs i

end Isar.Rootfs
