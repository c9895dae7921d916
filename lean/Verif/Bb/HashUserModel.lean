import Verif.Py.Dict

/-
Users of the server of hash equivalence and what they may do (bitbake/lib/hashserv/server.py, bitbake/lib/hashserv/sqlite.py).
-/

namespace Bb.HashUser
open Py

/-- server.py:20-35: permissions; `none` (`@none`) is taken out where permissions are given (server.py:680-684). -/
inductive Perm where
  | read | report | dbAdmin | userAdmin | all
deriving DecidableEq, Repr

structure User where
  name : Str
  perms : List Perm
deriving DecidableEq, Repr

/-- A row: permissions and the hash of the token. -/
abbrev Users := Dict (List Perm × Str)

/-- server.py:191-222: what a request needs. -/
structure Needs where
  perms : List Perm
  anon : Bool
  self : Bool

/-- server.py:272-290. -/
def permitted (anonPerms : List Perm) (user : Option User) (n : Needs) : Bool :=
  (n.anon && (anonPerms.contains .all || n.perms.all anonPerms.contains)) ||
  match user with
  | none => false
  | some u => u.perms.contains .all || n.perms.all u.perms.contains

/-- Requests; `user` of a request is `none` if it has no name. -/
inductive Req where
  | auth (name token : Str)
  | refresh (name : Option Str)
  | setPerms (name : Str) (perms : List Perm)
  | getUser (name : Option Str)
  | getAll
  | newUser (name : Str) (perms : List Perm)
  | delete (name : Option Str)
  | become (name : Str)
  /-- Requests to read, to report, and to administrate the tables. -/
  | get | report | equiv | dbAdmin
deriving DecidableEq, Repr

/-- The decorators of the handlers: server.py:321, 350, 412, 433, 466, 524-623, 661, 699, 712, 725, 738, 759, 768; `none` for the one without (server.py:627-628). -/
def needs : Req → Option Needs
  | .auth _ _ => none
  | .refresh _ => some ⟨[.userAdmin], false, true⟩
  | .setPerms _ _ => some ⟨[.userAdmin], false, false⟩
  | .getUser _ => some ⟨[.userAdmin], false, true⟩
  | .getAll => some ⟨[.userAdmin], false, false⟩
  | .newUser _ _ => some ⟨[.userAdmin], false, false⟩
  | .delete _ => some ⟨[.userAdmin], false, true⟩
  | .become _ => some ⟨[.userAdmin], false, false⟩
  | .get => some ⟨[.read], true, false⟩
  | .report => some ⟨[.read], true, false⟩
  | .equiv => some ⟨[.read, .report], true, false⟩
  | .dbAdmin => some ⟨[.dbAdmin], true, false⟩

/-- The name in a request. -/
def Req.name : Req → Option Str
  | .refresh n => n
  | .getUser n => n
  | .delete n => n
  | .auth n _ => some n
  | .setPerms n _ => some n
  | .newUser n _ => some n
  | .become n => some n
  | _ => none

/-- server.py:193-197: a request of a user about themself; the name is filled in. -/
def selfService (user : Option User) (r : Req) : Option Str := match user with
  | none => none
  | some u => if (r.name.getD u.name) = u.name then some u.name else none

/-- What the server has: users, and the user of each connection. -/
structure Server where
  users : Users
  conns : Nat → Option User

structure Config where
  anonPerms : List Perm
  readOnly : Bool
  /-- The hash of a token, with a salt: `hash_token`. -/
  hash : Str → Str
  /-- The token in a request is the one in the table. -/
  matches_ : Str → Str → Bool

/-- server.py:251-267: requests that a server which is read only does not have. -/
def writes : Req → Bool
  | .refresh _ => true
  | .setPerms _ _ => true
  | .newUser _ _ => true
  | .delete _ => true
  | .equiv => true
  | .dbAdmin => true
  | _ => false

def setUser (s : Server) (c : Nat) (u : User) : Server := { s with conns := fun d => if d = c then some u else s.conns d }

/-- What a handler does; `fresh` is the new token.  `none` is an error. -/
def handle (cfg : Config) (s : Server) (c : Nat) (fresh : Str) (name : Option Str) : Req → Option Server
  | .auth n token => match s.users.lookup n with
    | none => none
    | some row => if cfg.matches_ token row.2 then some (setUser s c ⟨n, row.1⟩) else none
  | .refresh _ => match name with
    | none => none
    | some n => match s.users.lookup n with
      | none => none
      | some row => some { s with users := s.users.set n (row.1, cfg.hash fresh) }
  | .setPerms n p => match s.users.lookup n with
    | none => none
    | some row => some { s with users := s.users.set n (p, row.2) }
  | .newUser n p => match s.users.lookup n with
    | some _ => none
    | none => some { s with users := s.users.set n (p, cfg.hash fresh) }
  | .delete _ => match name with
    | none => none
    | some n => match s.users.lookup n with
      | none => none
      | some _ => some { s with users := s.users.del n }
  | .become n => match s.users.lookup n with
    | none => none
    | some row => some (setUser s c ⟨n, row.1⟩)
  | _ => some s

/-- server.py:191-222, 309-319: a request on a connection. -/
def serve (cfg : Config) (s : Server) (c : Nat) (fresh : Str) (r : Req) : Option Server :=
  if cfg.readOnly && writes r then none
  else match needs r with
    | none => handle cfg s c fresh r.name r
    | some n =>
      if n.self && (selfService (s.conns c) r).isSome then handle cfg s c fresh (selfService (s.conns c) r) r
      else if permitted cfg.anonPerms (s.conns c) n then handle cfg s c fresh r.name r
      else none

/-- server.py:801-808: what may be given to users that are not known. -/
def anonOk (p : List Perm) : Bool := p.all fun x => x = .read || x = .report || x = .dbAdmin

/-- A connection that was opened now. -/
def connect (s : Server) (c : Nat) : Server := { s with conns := fun d => if d = c then none else s.conns d }

end Bb.HashUser
