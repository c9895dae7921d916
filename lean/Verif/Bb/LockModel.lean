import Verif.Py.Str
/-!
# Model of lock files: `bitbake/lib/bb/utils.py`

A state machine with any number of users of locks (open files of processes) and any number of lock
files.  One step is one system call, and the steps of different users interleave in any order.

What is assumed of the kernel: `open(name, 'a+')` opens the file that is there or makes a new one;
`flock` gives a shared lock if nobody else has an exclusive lock on the file, and an exclusive lock
if nobody else has a lock; a lock ends when the file is closed or the process ends; the inode number
of a file is not used again while the file is open.  Inodes are numbers that are never used again,
which is the same for a comparison made while the file is open.  Nobody but `unlockfile` removes a
lock file.
-/

namespace Bb.Lock
open Py

/-- `LOCK_SH` and `LOCK_EX`. -/
inductive Mode where
  | shared | exclusive
deriving DecidableEq, Repr

/-- Where a user of locks is in `lockfile` and `unlockfile`: the name of the lock file, the kind of
lock, and the inode of the open file. -/
inductive PC where
  /-- Not in these functions, without a lock. -/
  | idle
  /-- utils.py:496, after `open`. -/
  | opened (f : Str) (m : Mode) (n : Nat)
  /-- utils.py:498, after `flock`. -/
  | locked (f : Str) (m : Mode) (n : Nat)
  /-- utils.py:500, `os.path.exists` was true. -/
  | checked (f : Str) (m : Mode) (n : Nat)
  /-- utils.py:503, `lockfile` has returned, and `unlockfile` was not called yet. -/
  | held (f : Str) (m : Mode) (n : Nat)
  /-- utils.py:525, the lock is exclusive. -/
  | upgraded (f : Str) (n : Nat)
  /-- utils.py:526, after `unlink`. -/
  | unlinked (f : Str) (n : Nat)
  /-- utils.py:525, the lock could not be made exclusive.  It may be lost by that. -/
  | refused (l : Option (Mode × Nat))
deriving DecidableEq, Repr

/-- The `flock` lock that the kernel has for a user. -/
def PC.lock : PC → Option (Mode × Nat)
  | .idle | .opened _ _ _ => none
  | .locked _ m n | .checked _ m n | .held _ m n => some (m, n)
  | .upgraded _ n | .unlinked _ n => some (.exclusive, n)
  | .refused l => l

/-- The files on the disk and the users. -/
structure Sys where
  /-- The inode of a name. -/
  path : Str → Option Nat
  /-- The next inode. -/
  next : Nat
  pc : Nat → PC

/-- A user goes on. -/
def Sys.goto (s : Sys) (p : Nat) (c : PC) : Sys :=
  { s with pc := fun q => if q = p then c else s.pc q }

/-- A name gets another inode, or none. -/
def Sys.bind (s : Sys) (f : Str) (n : Option Nat) : Sys :=
  { s with path := fun g => if g = f then n else s.path g }

/-- May the kernel give this lock?  All other locks on the file are compatible. -/
def Sys.mayLock (s : Sys) (p : Nat) (m : Mode) (n : Nat) : Prop :=
  ∀ q, q ≠ p → ∀ m', (s.pc q).lock = some (m', n) → m = .shared ∧ m' = .shared

/-- The steps of one user: `lockfile`, utils.py:452-516, and `unlockfile`, utils.py:518-530. -/
inductive Step (p : Nat) : Sys → Sys → Prop where
  /-- utils.py:496: the file is there. -/
  | openOld {s : Sys} {f : Str} {n : Nat} (m : Mode) (h : s.pc p = .idle) (e : s.path f = some n) :
    Step p s (s.goto p (.opened f m n))
  /-- utils.py:496: a new file. -/
  | openNew {s : Sys} {f : Str} (m : Mode) (h : s.pc p = .idle) (e : s.path f = none) :
    Step p s ({ (s.bind f (some s.next)) with next := s.next + 1 }.goto p (.opened f m s.next))
  /-- utils.py:498: the lock is given. -/
  | grant {s : Sys} {f : Str} {m : Mode} {n : Nat} (h : s.pc p = .opened f m n)
    (e : s.mayLock p m n) : Step p s (s.goto p (.locked f m n))
  /-- utils.py:500: some file of that name is there. -/
  | exist {s : Sys} {f : Str} {m : Mode} {n : Nat} (h : s.pc p = .locked f m n)
    (e : s.path f ≠ none) : Step p s (s.goto p (.checked f m n))
  /-- utils.py:499-503: it is the file that was locked. -/
  | same {s : Sys} {f : Str} {m : Mode} {n : Nat} (h : s.pc p = .checked f m n)
    (e : s.path f = some n) : Step p s (s.goto p (.held f m n))
  /-- utils.py:504-516, 527-530: the file is closed, because it is another file, after an error, at
  the end of `unlockfile`, or because the process ends at any time. -/
  | close {s : Sys} : Step p s (s.goto p .idle)
  /-- utils.py:525: the lock becomes exclusive. -/
  | upgrade {s : Sys} {f : Str} {m : Mode} {n : Nat} (h : s.pc p = .held f m n)
    (e : s.mayLock p .exclusive n) : Step p s (s.goto p (.upgraded f n))
  /-- utils.py:525: it cannot; the old lock may be lost. -/
  | refuse {s : Sys} {f : Str} {m : Mode} {n : Nat} (l : Option (Mode × Nat))
    (h : s.pc p = .held f m n) (e : ¬ s.mayLock p .exclusive n) (hl : l = none ∨ l = some (m, n)) :
    Step p s (s.goto p (.refused l))
  /-- utils.py:526: the name is removed. -/
  | unlink {s : Sys} {f : Str} {n : Nat} (h : s.pc p = .upgraded f n) :
    Step p s ((s.bind f none).goto p (.unlinked f n))

/-- The states that can be reached: nobody has a lock at the start, and there may be lock files left
over from before. -/
inductive Reach : Sys → Prop where
  | start (s : Sys) (h : ∀ p, s.pc p = .idle) (hn : ∀ f n, s.path f = some n → n < s.next) : Reach s
  | step {s s' : Sys} (p : Nat) (h : Reach s) (e : Step p s s') : Reach s'

/-! ### Several locks -/

/-- A process in `fileslocked`, utils.py:437-450: the locks that it has, and those that it still
needs, in this order. -/
structure Proc where
  has : List Str
  needs : List Str
deriving DecidableEq, Repr

/-- One step of all processes: one of them gets its next lock, or has all and lets all go.  The lock
of a name is exclusive, also against the same process: each call opens the file again. -/
inductive MStep : List Proc → List Proc → Prop where
  | acquire {ps : List Proc} {i : Nat} {has needs : List Str} {f : Str}
    (h : ps[i]? = some ⟨has, f :: needs⟩) (e : ∀ q ∈ ps, f ∉ q.has) :
    MStep ps (ps.set i ⟨has ++ [f], needs⟩)
  | release {ps : List Proc} {i : Nat} {has : List Str} (h : ps[i]? = some ⟨has, []⟩)
    (e : has ≠ []) : MStep ps (ps.set i ⟨[], []⟩)

/-- The states that can be reached from processes without locks. -/
inductive MReach (needs : List (List Str)) : List Proc → Prop where
  | start : MReach needs (needs.map fun l => ⟨[], l⟩)
  | step {ps ps' : List Proc} (h : MReach needs ps) (e : MStep ps ps') : MReach needs ps'

end Bb.Lock
