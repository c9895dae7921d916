import Verif.Py.Str

/-!
# The environment of the user and the server

Model of bitbake/lib/bb/utils.py:587-681 (which variables are kept), bitbake/lib/bb/main.py:447 and 519-521 (the client), bitbake/lib/bb/cookerdata.py:232-248 with
bitbake/lib/bb/data.py:99-109 (what gets into the metadata) and bitbake/lib/bb/cooker.py:410-461 (a client connects to a server that runs already).
Simplified: renamed variables, which end the parsing (cookerdata.py:242-244), the options other than the environment and `BB_ORIGENV` are left out, and parsing always
succeeds.
-/

namespace Isar.Bb.Env

open Py

/-- `os.environ`, or a dictionary of variables; names are not repeated -/
abbrev Env := List (Str × Str)

def get (e : Env) (k : Str) : Option Str := e.lookup k

def del (e : Env) (k : Str) : Env := e.filter fun x => x.1 != k

def set (e : Env) (k v : Str) : Env := del e k ++ [(k, v)]

def keys (e : Env) : List Str := e.map (·.1)

def preserveEnv : Str := "BB_PRESERVE_ENV".toList
def passthrough : Str := "BB_ENV_PASSTHROUGH".toList
def additions : Str := "BB_ENV_PASSTHROUGH_ADDITIONS".toList
def lcAll : Str := "LC_ALL".toList

/-- utils.py:587-600 -/
def exportedVars : List Str :=
  ["BB_TASKHASH".toList, "HOME".toList, "LOGNAME".toList, "PATH".toList, "PWD".toList, "SHELL".toList, "USER".toList, lcAll, "BBSERVER".toList]

/-- utils.py:602-609 -/
def preservedVars : List Str := ["BBPATH".toList, preserveEnv, additions] ++ exportedVars

/-- utils.py:651-668 -/
def approved (e : Env) : List Str :=
  if (get e preserveEnv).isSome then keys e
  else
    let base := match get e passthrough with
      | some v => words v ++ [passthrough]
      | none => preservedVars
    match get e additions with
    | some v =>
      let more := base ++ words v
      if additions ∈ more then more else more ++ [additions]
    | none => base

/-- utils.py:633-641: what is left, and what was removed -/
def filterEnv (e : Env) (good : List Str) : Env × Env :=
  (e.filter fun x => x.1 ∈ good, e.filter fun x => x.1 ∉ good)

def utf8 : Str := "en_US.UTF-8".toList

/-- utils.py:670-679 with line 647 -/
def clean (e : Env) : Env × Env :=
  if (get e preserveEnv).isSome then (e, [])
  else
    let f := filterEnv e (approved e)
    (set f.1 lcAll utf8, f.2)

/-- main.py:447 and 519-521: a server that is started gets the first, and after that the client tells it the second (ui/knotty.py, `updateToServer`). -/
def started (e : Env) : Env := (clean e).1

def sent (e : Env) : Env := (clean e).2.foldl (fun m x => set m x.1 x.2) (clean e).1

/-- A server: its own environment, what it knows of that of the client (`configuration.env`), and the variables from the environment in the metadata with
whether they are exported; the last is the number of times that the configuration was parsed. -/
structure Server where
  environ : Env
  conf : Env
  data : Str → Option (Str × Bool)
  parses : Nat

/-- cookerdata.py:238-247 and data.py:99-109 -/
def inherit (environ conf : Env) : Str → Option (Str × Bool) := fun k =>
  match get conf k with
  | some v => if k ∈ approved environ then some (v, decide (k ∈ exportedVars)) else none
  | none => none

/-- cooker.py, `__init__`: the first parsing is done without the environment of a client (cookerdata.py:120-145, `self.env = {}`). -/
def start (environ : Env) : Server := ⟨environ, [], inherit environ [], 1⟩

/-- cooker.py:441-454, one variable; the second is `clean` -/
def visit (new : Env) (s : Env × Bool) (k : Str) : Env × Bool :=
  let s1 := match get new k with
    | some v => if (get s.1 k).isNone then (set s.1 k v, false) else s
    | none => s
  let s2 := if (get s1.1 k).isSome ∧ (get new k).isNone then (del s1.1 k, false) else s1
  match get s2.1 k, get new k with
  | some u, some v => if v = u then s2 else (set s2.1 k v, false)
  | _, _ => s2

/-- cooker.py:440-461 -/
def update (s : Server) (new : Env) : Server :=
  let r := (approved s.environ).foldl (visit new) (s.conf, true)
  if r.2 then { s with conf := new }
  else { s with conf := new, data := inherit s.environ new, parses := s.parses + 1 }

/-- clients that connect one after the other, with the environments in which they were started -/
def connectAll (s : Server) (es : List Env) : Server := es.foldl (fun s e => update s (sent e)) s

/-- the server that the first of the clients starts, after all of them -/
def session (e : Env) (es : List Env) : Server := connectAll (start (started e)) (e :: es)

end Isar.Bb.Env
