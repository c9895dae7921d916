import Verif.Py.Str

/-!
# The table of revisions

Model of bitbake/lib/bb/persist_data.py:32-239 (tables in a database that several processes use) and of bitbake/lib/bb/fetch2/__init__.py:496-518 (`fetcher_init`),
533-540 (`fetcher_compare_revisions`), 1658-1673 (`latest_revision`).  SQLite is a parameter: an attempt is done as a whole or finds the database locked.
-/

namespace Isar.Bb.Revs

open Py

/-- the rows of a table -/
abbrev Db := List (Str × Str)

inductive Err
  | operational | key | type_ | fetch
deriving DecidableEq, Repr

/-- what happens to one attempt: it is done, it finds the database locked (until the next attempt others change the table), another failure -/
inductive Att
  | ok
  | locked (others : Db → Db)
  | failed

/-- an operation in a transaction: it gives a value and the new table, or an exception, which rolls back -/
abbrev Op (α : Type) := Db → Except Err (α × Db)

/-- persist_data.py:62-79, `transaction` -/
def transaction {α : Type} (op : Op α) (db : Db) : Except Err α × Db :=
  match op db with
  | .ok (a, db') => (.ok a, db')
  | .error e => (.error e, db)

/-- persist_data.py:35-60, `retry`: `left` is 500 - `count`; after the listed attempts there is no failure. -/
def retryGo {α : Type} (op : Op α) : Nat → List Att → Db → Except Err α × Db
  | _, [], db => transaction op db
  | _, .ok :: _, db => transaction op db
  | _, .failed :: _, db => (.error .operational, db)
  | 0, .locked _ :: _, db => (.error .operational, db)
  | left + 1, .locked others :: atts, db => retryGo op left atts (others db)

def retry {α : Type} (op : Op α) (atts : List Att) (db : Db) : Except Err α × Db := retryGo op 500 atts db

/-- persist_data.py:158-165, `__getitem__` -/
def getOp (k : Str) : Op Str := fun db =>
  match db.lookup k with
  | some v => .ok (v, db)
  | none => .error .key

/-- persist_data.py:174-190, `__setitem__` -/
def setOp (k v : Str) : Op Unit := fun db =>
  if (db.lookup k).isSome then .ok ((), db.map fun x => if x.1 = k then (k, v) else x)
  else .ok ((), db ++ [(k, v)])

/-- persist_data.py:167-172, `__delitem__` -/
def delOp (k : Str) : Op Unit := fun db =>
  if (db.lookup k).isSome then .ok ((), db.filter fun x => decide (x.1 ≠ k)) else .error .key

/-- persist_data.py:233-236, `clear` -/
def clearOp : Op Unit := fun _ => .ok ((), [])

/-- persist_data.py:116-149: `_row_iter` takes every exception, and gives `None`, over which one cannot iterate -/
def rows (atts : List Att) (db : Db) : Except Err Db × Db :=
  match atts with
  | [] => (.ok db, db)
  | .ok :: _ => (.ok db, db)
  | .locked others :: _ => (.error .type_, others db)
  | .failed :: _ => (.error .type_, db)

/-- fetch2/__init__.py:496-518, `fetcher_init`: the saved revisions and the table; `i` and `c` are the attempts of reading and clearing -/
def fetcherInit (policy : Str) (i c : List Att) (saved db : Db) : Except Err Db × Db :=
  let (saved, db) := if saved = [] then (match rows i db with
      | (.ok r, db) => (r, db)
      | (.error _, db) => (saved, db)) else (saved, db)
  let policy := if policy = [] then "clear".toList else policy
  if policy = "cache".toList then (.ok saved, db)
  else if policy = "clear".toList then
    match retry clearOp c db with
    | (.ok _, db) => (.ok saved, db)
    | (.error e, db) => (.error e, db)
  else (.error .fetch, db)

/-- the same set of rows, `dict(a) == dict(b)` -/
def sameRows (a b : Db) : Bool := (a ++ b).all fun x => a.lookup x.1 == b.lookup x.1

/-- fetch2/__init__.py:533-540, `fetcher_compare_revisions` -/
def changed (i : List Att) (saved db : Db) : Except Err Bool :=
  match rows i db with
  | (.ok r, _) => .ok (!sameRows r saved)
  | (.error e, _) => .error e

/-- A process that wants a revision (fetch2/__init__.py:1658-1673): it looks in the table, asks the server if there is none, and stores the answer. -/
inductive Proc
  | look
  | ask
  | store (rev : Str)
  | done (rev : Str)
deriving DecidableEq, Repr

/-- one step of one process, `remote` is what the server answers at this time -/
def step (key remote : Str) (p : Proc) (db : Db) : Proc × Db :=
  match p with
  | .look => match db.lookup key with
    | some v => (.done v, db)
    | none => (.ask, db)
  | .ask => (.store remote, db)
  | .store r => (.done r, (transaction (setOp key r) db).2)
  | .done r => (.done r, db)

/-- Steps of several processes for the same key: which process, and what the server answers then. -/
def run (key : Str) : List (Nat × Str) → List Proc → Db → List Proc × Db
  | [], ps, db => (ps, db)
  | (i, remote) :: ss, ps, db =>
    match ps[i]? with
    | none => run key ss ps db
    | some p =>
      let r := step key remote p db
      run key ss (ps.set i r.1) r.2

end Isar.Bb.Revs
