import Verif.Py.Str
/-!
# The monitor of disk space

Model of bitbake/lib/bb/monitordisk.py.  `os.path.realpath` and what the system says about a file system are
parameters.  Not modelled: the name of the device (only shown), making the directories, log texts and the event
with the usage of all disks.
-/

namespace Bb.DiskMon

open Py

/-- monitordisk.py:18-30: what the regular expressions allow after the unit: at most one white space, and a
line end. -/
def tailOk (t : Str) : Bool :=
  match t with
  | [] => true
  | [c] => isWs c
  | [c, d] => isWs c && d == '\n'
  | _ => false

/-- monitordisk.py:14-31, `convertGMK`. -/
def convertGMK (s : Str) : Option Nat :=
  let d := s.takeWhile Char.isDigit
  if d = [] ∨ d.head? = some '0' then none
  else
    match s.dropWhile Char.isDigit with
    | [] => some (decVal d)
    | c :: t =>
      if (c = 'g' ∨ c = 'G') ∧ tailOk t then some (decVal d * 1024 ^ 3)
      else if (c = 'm' ∨ c = 'M') ∧ tailOk t then some (decVal d * 1024 ^ 2)
      else if (c = 'k' ∨ c = 'K') ∧ tailOk t then some (decVal d * 1024)
      else if tailOk (c :: t) then some (decVal d)
      else none

/-- monitordisk.py:84: the actions. -/
inductive Action where
  | halt
  | stoptasks
  | warn
  deriving DecidableEq, Repr

/-- monitordisk.py:78-86. -/
def actionOf (s : Str) : Option Action :=
  if s = "ABORT".toList then some .halt
  else if s = "HALT".toList then some .halt
  else if s = "STOPTASKS".toList then some .stoptasks
  else if s = "WARN".toList then some .warn
  else none

/-- monitordisk.py:95-103, 105-113: a value that may be missing; an error is `none`. -/
def valueOf (s : Str) : Option (Option Nat) :=
  if s = [] then some none else (convertGMK s).map some

/-- What is watched: monitordisk.py:124 and 183-191. -/
structure Entry where
  path : Str
  action : Action
  minSpace : Option Nat
  minInode : Option Nat
  preS : Int
  preI : Int
  checked : Bool
  deriving DecidableEq, Repr

/-- monitordisk.py:70-124: one word of `BB_DISKMON_DIRS`. -/
def parseOne (real : Str → Str) (w : Str) : Option Entry :=
  match splitOn ',' w with
  | a :: p :: s :: r =>
    match actionOf a with
    | none => none
    | some act =>
      if real p = [] then none
      else
        match valueOf s, valueOf (join [','] r) with
        | some ms, some mi =>
          if ms = none ∧ mi = none then none else some ⟨real p, act, ms, mi, 0, 0, false⟩
        | _, _ => none
  | _ => none

/-- monitordisk.py:124: `devDict[(path, action)] = …`. -/
def setEntry (l : List Entry) (e : Entry) : List Entry :=
  if l.any fun x => x.path = e.path && x.action = e.action then
    l.map fun x => if x.path = e.path ∧ x.action = e.action then e else x
  else l ++ [e]

/-- monitordisk.py:62-126, `getDiskData`: `none` if a word is wrong. -/
def parseGo (real : Str → Str) : List Str → List Entry → Option (List Entry)
  | [], acc => some acc
  | w :: ws, acc =>
    match parseOne real w with
    | none => none
    | some e => parseGo real ws (setEntry acc e)

/-- monitordisk.py:62-126, `getDiskData`. -/
def getDiskData (real : Str → Str) (dirs : Str) : Option (List Entry) := parseGo real (words dirs) []

/-- What `os.statvfs` says: free space in bytes, free inodes and all inodes. -/
structure Stat where
  free : Int
  favail : Int
  files : Int
  deriving DecidableEq, Repr

/-- What the monitor does: a warning about space or inodes with what is left, and the end of the run queue, at
once or after the running tasks. -/
inductive Ev where
  | warnS (free : Int)
  | warnI (free : Int)
  | finish (now : Bool)
  deriving DecidableEq, Repr

/-- monitordisk.py:222-231, 249-258: the end of the run queue, if it was not asked for before. -/
def stop (e : Entry) : Entry × List Ev :=
  match e.action, e.checked with
  | .stoptasks, false => ({ e with checked := true }, [.finish false])
  | .halt, false => ({ e with checked := true }, [.finish true])
  | _, _ => (e, [])

/-- monitordisk.py:215-231: the part about space. -/
def checkSpace (interval : Int) (st : Stat) (e : Entry) : Entry × List Ev :=
  match e.minSpace with
  | some m =>
    if st.free < m then
      let w := e.preS = 0 ∨ (e.preS - st.free > interval ∧ e.checked = false)
      let e1 := if w then { e with preS := st.free } else e
      ((stop e1).1, (if w then [.warnS st.free] else []) ++ (stop e1).2)
    else (e, [])
  | none => (e, [])

/-- monitordisk.py:233-258: the part about inodes. -/
def checkInode (interval : Int) (st : Stat) (e : Entry) : Entry × List Ev :=
  match e.minInode with
  | some m =>
    if st.favail < m then
      if st.files = 0 ∨ st.favail = -1 then ({ e with minInode := none }, [])
      else
        let w := e.preI = 0 ∨ (e.preI - st.favail > interval ∧ e.checked = false)
        let e1 := if w then { e with preI := st.favail } else e
        ((stop e1).1, (if w then [.warnI st.favail] else []) ++ (stop e1).2)
    else (e, [])
  | none => (e, [])

/-- monitordisk.py:202-258: one entry in one check. -/
def checkOne (si ii : Int) (st : Stat) (e : Entry) : Entry × List Ev :=
  let r := checkSpace si st e
  let q := checkInode ii st r.1
  (q.1, r.2 ++ q.2)

/-- monitordisk.py:195-261, `check`: all entries, with what the system says about each path. -/
def check (si ii : Int) (stat : Str → Stat) (es : List Entry) : List Entry × List Ev :=
  (es.map fun e => (checkOne si ii (stat e.path) e).1, es.flatMap fun e => (checkOne si ii (stat e.path) e).2)

/-- One entry through a history of checks: what is done in each. -/
def run (si ii : Int) : Entry → List Stat → List (List Ev)
  | _, [] => []
  | e, st :: h => (checkOne si ii st e).2 :: run si ii (checkOne si ii st e).1 h

/-- All entries through a history of checks. -/
def runAll (si ii : Int) : List Entry → List (Str → Stat) → List (List Ev)
  | _, [] => []
  | es, st :: h => (check si ii st es).2 :: runAll si ii (check si ii st es).1 h

/-- monitordisk.py:128-163, `getInterval`, for a value that is set: `([^,]*),?\s*(.*)`.  White space at the
front of the second value is skipped. -/
def getInterval (s : Str) : Option (Nat × Nat) :=
  let a := s.takeWhile (· ≠ ',')
  let b := lstrip ((s.dropWhile (· ≠ ',')).drop 1)
  match (if a = [] then some (50 * 1024 * 1024) else convertGMK a),
      (if b = [] then some (5 * 1024) else convertGMK b) with
  | some x, some y => some (x, y)
  | _, _ => none

end Bb.DiskMon
