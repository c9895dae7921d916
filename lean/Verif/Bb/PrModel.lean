import Verif.Py.Str

/-
The service of package revisions (bitbake/lib/prserv/db.py, PRTable; bitbake/lib/prserv/serv.py, PRServerClient).
-/

namespace Bb.Pr
open Py

/-- db.py:52-57: a row; version, architecture and checksum are the key. -/
structure Row where
  version : Str
  arch : Str
  sum : Str
  value : Int
deriving DecidableEq, Repr

abbrev Table := List Row

/-- Rows of a package: `version=? AND pkgarch=?`. -/
def Row.of (r : Row) (v a : Str) : Bool := r.version = v && r.arch = a

/-- The row of a key. -/
def Row.key (r : Row) (v a c : Str) : Bool := r.version = v && r.arch = a && r.sum = c

/-- `max` of a list of values, `NULL` of none. -/
def maxVal : List Int → Option Int
  | [] => none
  | x :: xs => match maxVal xs with
    | none => some x
    | some y => some (if x ≤ y then y else x)

/-- db.py:116-125. -/
def findMax (t : Table) (v a : Str) : Option Int := maxVal ((t.filter (·.of v a)).map (·.value))

/-- db.py:105-114. -/
def find (t : Table) (v a c : Str) : Option Int := (t.find? (·.key v a c)).map (·.value)

/-- `ifnull(max(value)+1, 0)`. -/
def nextVal (t : Table) (v a : Str) : Int := match findMax t v a with
  | none => 0
  | some m => m + 1

/-- `INSERT OR REPLACE`. -/
def put (t : Table) (v a c : Str) (x : Int) : Table := t.filter (fun r => !r.key v a c) ++ [⟨v, a, c, x⟩]

/-- `value >= max`, which is not so for `NULL`. -/
def atLeast (x : Int) : Option Int → Bool
  | none => false
  | some m => m ≤ x

/-- db.py:161-193: without history; the answer, and the table after it. -/
def getNoHist (ro : Bool) (t : Table) (v a c : Str) : Int × Table :=
  match t.find? fun r => r.key v a c && atLeast r.value (findMax t v a) with
  | some r => (r.value, t)
  | none =>
    if ro then (nextVal t v a, t)
    else (nextVal t v a, put t v a c (nextVal t v a))

/-- db.py:127-159: with history. -/
def getHist (ro : Bool) (t : Table) (v a c : Str) : Int × Table := match find t v a c with
  | some x => (x, t)
  | none =>
    if ro then (nextVal t v a, t)
    else (nextVal t v a, t ++ [⟨v, a, c, nextVal t v a⟩])

/-- db.py:195-199. -/
def getValue (nohist ro : Bool) (t : Table) (v a c : Str) : Int × Table := if nohist then getNoHist ro t v a c else getHist ro t v a c

/-- db.py:201-226: with history. -/
def importHist (t : Table) (v a c : Str) (x : Int) : Table := match find t v a c with
  | some _ => t
  | none => t ++ [⟨v, a, c, x⟩]

/-- db.py:228-253: without. -/
def importNoHist (t : Table) (v a c : Str) (x : Int) : Table := match find t v a c with
  | some _ => t.map fun r => if r.key v a c && decide (r.value < x) then ⟨v, a, c, x⟩ else r
  | none => t ++ [⟨v, a, c, x⟩]

/-- db.py:255-259; nothing if read only. -/
def importOne (nohist ro : Bool) (t : Table) (v a c : Str) (x : Int) : Table :=
  if ro then t else if nohist then importNoHist t v a c x else importHist t v a c x

/-- db.py:261-313: the rows that are given out, for all packages: without history those with the greatest value of their package.  Rows without a version are left
out. -/
def exported (nohist : Bool) (t : Table) : List Row :=
  (if nohist then t.filter fun r => findMax t r.version r.arch == some r.value else t).filter fun r => r.version ≠ []

/-! ### The server -/

/-- Requests that change something; of others `broken` is one that makes an exception. -/
inductive Req where
  | get (v a c : Str)
  | import_ (v a c : Str) (x : Int)
  | broken
deriving DecidableEq, Repr

/-- What the server has, and what is in the file. -/
structure Server where
  mem : Table
  disk : Table

/-- serv.py:40-47: a request.  `sync_if_dirty` is in the `else` of a `try` that returns, and so it is never called (lines 42, 46-47). -/
def serve (nohist ro : Bool) (s : Server) : Req → Option Int × Server
  | .get v a c => (some (getValue nohist ro s.mem v a c).1, { s with mem := (getValue nohist ro s.mem v a c).2 })
  | .import_ v a c x => (none, { s with mem := importOne nohist ro s.mem v a c x })
  | .broken => (none, { s with disk := s.mem })

/-- serv.py:139-142: an orderly stop. -/
def stopped (s : Server) : Server := { s with disk := s.mem }

/-- A start after the process was killed: what was not committed is lost. -/
def killed (s : Server) : Server := { s with mem := s.disk }

end Bb.Pr
