import Verif.Py.Str

/-
The server of hash equivalence (bitbake/lib/hashserv/sqlite.py, bitbake/lib/hashserv/server.py).
-/

namespace Bb.Hash
open Py

/-- sqlite.py:23-35: a row of outputs; method, task and output are the key.  `more` are the optional columns that are not `NULL`. -/
structure Out where
  method : Str
  task : Str
  out : Str
  created : Nat
  more : List (Str × Str)
deriving DecidableEq, Repr

/-- sqlite.py:14-19: a row of unified hashes; method and task are the key. -/
structure Uni where
  method : Str
  task : Str
  uni : Str
  mark : Str
deriving DecidableEq, Repr

/-- The tables, and the mark of a collection that is under way. -/
structure Db where
  outs : List Out
  unis : List Uni
  mark : Option Str
deriving DecidableEq, Repr

/-- sqlite.py:310-319. -/
def getUni (db : Db) (m t : Str) : Option Str := (db.unis.find? fun y => decide (y.method = m) && decide (y.task = t)).map (·.uni)

/-- sqlite.py:417-437: `INSERT OR IGNORE`. -/
def insertUni (db : Db) (m t u : Str) : Db :=
  if db.unis.any fun y => decide (y.method = m) && decide (y.task = t) then db
  else { db with unis := db.unis ++ [⟨m, t, u, db.mark.getD []⟩] }

/-- Whether there is a row with this key. -/
def hasOut (db : Db) (m t o : Str) : Bool := db.outs.any fun x => decide (x.method = m) && decide (x.task = t) && decide (x.out = o)

/-- sqlite.py:439-450: the table after it. -/
def insertOut (db : Db) (x : Out) : Db := if hasOut db x.method x.task x.out then db else { db with outs := db.outs ++ [x] }

/-- `ORDER BY created ASC LIMIT 1`. -/
def oldest : List (Nat × Str) → Option (Nat × Str)
  | [] => none
  | x :: xs => match oldest xs with
    | none => some x
    | some y => if y.1 < x.1 then some y else some x

/-- A row of outputs joined with its unified hash. -/
def joined (db : Db) (x : Out) : Option (Nat × Str) := (getUni db x.method x.task).map fun u => (x.created, u)

/-- sqlite.py:290-308: the oldest other task with the same output. -/
def equivalent (db : Db) (m o t : Str) : Option Str :=
  (oldest ((db.outs.filter fun x => decide (x.method = m) && decide (x.out = o) && decide (x.task ≠ t)).filterMap (joined db))).map (·.2)

/-- sqlite.py:244-259: the oldest task with this output. -/
def byOut (db : Db) (m o : Str) : Option Str :=
  (oldest ((db.outs.filter fun x => decide (x.method = m) && decide (x.out = o)).filterMap (joined db))).map (·.2)

/-- What a client reports. -/
structure Rep where
  method : Str
  task : Str
  out : Str
  uni : Str
  more : List (Str × Str)
deriving DecidableEq, Repr

def Rep.row (r : Rep) (now : Nat) : Out := ⟨r.method, r.task, r.out, now, r.more⟩

/-- server.py:485-486: whether an output is taken for new.  `always` is for versions of python that give the last row of the connection also for an `INSERT` that was
ignored, so that it always is. -/
def fresh (always : Bool) (db : Db) (r : Rep) : Bool := always || !hasOut db r.method r.task r.out

/-- server.py:471-510, without upstream: the tables after a report. -/
def report (always : Bool) (db : Db) (r : Rep) (now : Nat) : Db :=
  if fresh always db r then insertUni (insertOut db (r.row now)) r.method r.task ((equivalent (insertOut db (r.row now)) r.method r.out r.task).getD r.uni)
  else insertOut db (r.row now)

/-- server.py:512-522: the answer, from the tables after it. -/
def answer (db : Db) (r : Rep) : Str := (getUni db r.method r.task).getD r.uni

/-- server.py:447-462: the answer of a server that is read only, or to a client that must not report. -/
def answerRo (db : Db) (r : Rep) : Str := (byOut db r.method r.out).getD r.uni

/-! ### With an upstream server: while its answer is awaited, others are served -/

structure State where
  db : Db
  /-- Reports that wait for the upstream server. -/
  pend : List (Nat × Rep)

inductive Op where
  /-- A report comes in at some time, from a client. -/
  | start (id : Nat) (r : Rep) (now : Nat)
  /-- The answer of the upstream server. -/
  | finish (id : Nat) (up : Option Str)
  /-- server.py:524-540. -/
  | equiv (m t u : Str)
  /-- server.py:344-346, 368-370, 374-379, 849-863: what the upstream server knows is taken over. -/
  | backfill (m t u : Str)

/-- server.py:485-508: a report until it waits: at once if there is another task with this output. -/
def startRep (always : Bool) (s : State) (id : Nat) (r : Rep) (now : Nat) : State :=
  if fresh always s.db r then match equivalent (insertOut s.db (r.row now)) r.method r.out r.task with
    | some u => { s with db := insertUni (insertOut s.db (r.row now)) r.method r.task u }
    | none => { db := insertOut s.db (r.row now), pend := s.pend ++ [(id, r)] }
  else { s with db := insertOut s.db (r.row now) }

/-- server.py:502-510: when the upstream server has answered. -/
def finishRep (s : State) (id : Nat) (up : Option Str) : State := match s.pend.find? fun p => p.1 == id with
  | none => s
  | some p => { db := insertUni s.db p.2.method p.2.task (up.getD p.2.uni), pend := s.pend.filter fun q => q.1 != id }

def step (always : Bool) (s : State) : Op → State
  | .start id r now => startRep always s id r now
  | .finish id up => finishRep s id up
  | .equiv m t u => { s with db := insertUni s.db m t u }
  | .backfill m t u => { s with db := insertUni s.db m t u }

/-! ### Administration -/

/-- A condition: a dictionary, with `None` for some. -/
abbrev Cond := List (Str × Option Str)

/-- sqlite.py:83-89: the columns that are in a condition. -/
def where_ (cols : List Str) (c : Cond) : List (Str × Str) := cols.filterMap fun k => match c.lookup k with
  | some (some v) => some (k, v)
  | _ => none

def uniCols : List Str := ["method".toList, "taskhash".toList, "unihash".toList, "gc_mark".toList]

/-- The value of a column. -/
def Uni.col (y : Uni) (k : Str) : Option Str := match uniCols.idxOf? k with
  | some 0 => some y.method
  | some 1 => some y.task
  | some 2 => some y.uni
  | some 3 => some y.mark
  | _ => none

/-- `WHERE … AND …`. -/
def Uni.meets (y : Uni) (w : List (Str × Str)) : Bool := w.all fun kv => y.col kv.1 == some kv.2

def outCols : List Str := ["method".toList, "taskhash".toList, "outhash".toList, "created".toList, "owner".toList, "PN".toList, "PV".toList, "PR".toList, "task".toList, "outhash_siginfo".toList]

/-- The value of a column; the time of creation is `none` here, since it is nothing that a client knows. -/
def Out.col (x : Out) (k : Str) : Option Str := match outCols.idxOf? k with
  | some 0 => some x.method
  | some 1 => some x.task
  | some 2 => some x.out
  | some 3 => none
  | some _ => x.more.lookup k
  | none => none

def Out.meets (x : Out) (w : List (Str × Str)) : Bool := w.all fun kv => x.col kv.1 == some kv.2

/-- sqlite.py:321-337. -/
def remove (db : Db) (c : Cond) : Db :=
  { db with
    outs := if where_ outCols c = [] then db.outs else db.outs.filter fun x => !x.meets (where_ outCols c)
    unis := if where_ uniCols c = [] then db.unis else db.unis.filter fun y => !y.meets (where_ uniCols c) }

/-- sqlite.py:365-384. -/
def gcMark (db : Db) (k : Str) (c : Cond) : Db :=
  { db with
    mark := some k
    unis := if where_ uniCols c = [] then db.unis else db.unis.map fun y => if y.meets (where_ uniCols c) then { y with mark := k } else y }

/-- server.py:586-602, sqlite.py:386-400; `none` is a refusal. -/
def gcSweep (db : Db) (k : Str) : Option Db := match db.mark with
  | none => none
  | some cur => if cur = [] ∨ k ≠ cur then none else some { db with mark := none, unis := db.unis.filter fun y => y.mark == cur }

/-- server.py:613-617, sqlite.py:402-415: what is in the table after a request to clean, at some time, with an age in seconds.  `oldest` is `now - (-age)`. -/
def cleanUnused (db : Db) (now : Nat) (age : Int) : Db :=
  { db with outs := db.outs.filter fun x => !(decide ((x.created : Int) < now + age) && !(db.unis.any fun y => decide (y.method = x.method) && decide (y.task = x.task))) }

end Bb.Hash
