import Verif.Py.Str

/-!
# Statistics of builds

Model of meta/lib/buildstats.py, `SystemStats`: pressure, shares of the processor, data of disks and when samples are taken.  Files in /proc are already split into fields and numbers; quotients are pairs
of a numerator and a denominator; times are whole numbers in milliseconds; the files with the records and the events of the disk monitor are left out.
-/

namespace Isar.Meta.Stats

open Py

/-- buildstats.py:153-172, `_reduce_pressure`: the value that is kept, and the difference that is recorded; a kept value of 0 counts as none -/
def reducePressure (last : Option Nat) (total : Nat) : Option Nat × Option Int :=
  let reduced :=
    match last with
    | some l => if l ≠ 0 then some ((total : Int) - (l : Int)) else none
    | none => none
  (some total, reduced)

/-- the differences that are recorded for samples in a row (buildstats.py:174-204) -/
def pressures : Option Nat → List Nat → List Int
  | _, [] => []
  | last, t :: ts =>
    let (last, reduced) := reducePressure last t
    reduced.toList ++ pressures last ts

/-- buildstats.py:137-139: the first line of /proc/stat, its first seven numbers -/
structure Times where
  user : Nat
  nice : Nat
  system : Nat
  idle : Nat
  iowait : Nat
  irq : Nat
  softirq : Nat

/-- buildstats.py:148, what is recorded: parts for users, system and waiting, each divided by `whole` -/
structure Shares where
  user : Int
  system : Int
  iowait : Int
  whole : Int
deriving DecidableEq

/-- buildstats.py:134-151, `_reduce_stat`, when there is an earlier sample -/
def reduceStat (old new : Times) : Shares :=
  let user : Int := (new.user + new.nice : Int) - (old.user + old.nice)
  let system : Int := (new.system + new.irq + new.softirq : Int) - (old.system + old.irq + old.softirq)
  let idle : Int := (new.idle : Int) - old.idle
  let iowait : Int := (new.iowait : Int) - old.iowait
  let sum := max (user + system + idle + iowait) 1
  ⟨user, system, iowait, sum⟩

/-- buildstats.py:69: `^([hsv]d.|mtdblock\d|mmcblk\d|cciss/c\d+d\d+.*)$` without its last part -/
def diskName : Str → Bool
  | [a, 'd', c] => (a = 'h' ∨ a = 's' ∨ a = 'v') ∧ c ≠ '\n'
  | ['m', 't', 'd', 'b', 'l', 'o', 'c', 'k', c] => c.isDigit
  | ['m', 'm', 'c', 'b', 'l', 'k', c] => c.isDigit
  | _ => false

/-- buildstats.py:103-112, one line of /proc/diskstats: the name and the number of fields, sectors read and written and the time in use (fields 2, 5, 9 and 12) -/
structure DiskLine where
  name : Str
  fields : Nat
  read : Nat
  written : Nat
  use : Nat

/-- buildstats.py:96-100, `_diskstats_is_relevant_line` -/
def relevant (l : DiskLine) : Bool := if l.fields ≠ 14 then false else diskName l.name

/-- buildstats.py:102-112: the sums over the lines -/
def diskSums : List DiskLine → Nat × Nat × Nat
  | [] => (0, 0, 0)
  | l :: ls =>
    let (r, w, u) := diskSums ls
    if relevant l then (r + l.read, w + l.written, u + l.use) else (r, w, u)

/-- buildstats.py:180-204, `sample`: the times of the samples that are taken, each with whether it was forced, for calls at given times -/
def samples (minTime : Int) : Int → List (Int × Bool) → List (Int × Bool)
  | _, [] => []
  | lastProc, (now, force) :: calls =>
    if now - lastProc > minTime ∨ force = true then (now, force) :: samples minTime now calls else samples minTime lastProc calls

end Isar.Meta.Stats
