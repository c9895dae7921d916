import Verif.Py.Path

/-!
# Addresses of servers

Model of bitbake/lib/bb/asyncrpc/client.py:19-40 (`parse_address`), of what servers announce (bitbake/lib/bb/asyncrpc/serv.py:165-169, 200, 240-244) and of the directory in which sockets
are opened (serv.py:186-197, client.py:69-84).  A line end after a port, and signs, blanks and underscores in it, which Python accepts, are left out; digits are those of ASCII.
-/

namespace Isar.Bb.Addr

open Py

inductive Addr
  | unix (path : Str)
  | ws (uri : Str)
  | tcp (host : Str) (port : Nat)
deriving DecidableEq, Repr

def unixPrefix : Str := ['u', 'n', 'i', 'x', ':', '/', '/']
def wsPrefix : Str := ['w', 's', ':', '/', '/']
def wssPrefix : Str := ['w', 's', 's', ':', '/', '/']

/-- `int(port)` -/
def toInt (s : Str) : Option Nat := if s ≠ [] ∧ s.all Char.isDigit = true then some (decVal s) else none

/-- client.py:33, the regular expression -/
def bracketed : Str → Option (Str × Str)
  | '[' :: r =>
    match r.dropWhile (· ≠ ']') with
    | ']' :: ':' :: port => if port ≠ [] ∧ port.all Char.isDigit = true then some (r.takeWhile (· ≠ ']'), port) else none
    | _ => none
  | _ => none

/-- client.py:33-38: host and port as texts -/
def hostPort (addr : Str) : Option (Str × Str) :=
  match bracketed addr with
  | some x => some x
  | none => match splitOn ':' addr with
    | [host, port] => some (host, port)
    | _ => none

/-- client.py:27-40, `parse_address`; `none` is an exception -/
def parse (addr : Str) : Option Addr :=
  if startsWith addr unixPrefix then some (.unix (addr.drop unixPrefix.length))
  else if startsWith addr wsPrefix || startsWith addr wssPrefix then some (.ws addr)
  else match hostPort addr with
    | some (host, port) => (toInt port).map fun p => .tcp host p
    | none => none

/-- serv.py:165-169 -/
def announceTcp (v6 : Bool) (host : Str) (port : Nat) : Str :=
  if v6 then '[' :: host ++ ']' :: ':' :: dec port else host ++ ':' :: dec port

/-- serv.py:240-244 -/
def announceWs (v6 : Bool) (host : Str) (port : Nat) : Str := wsPrefix ++ announceTcp v6 host port

/-- serv.py:200 -/
def announceUnix (cwd path : Str) : Str := unixPrefix ++ abspath cwd path

/-- serv.py:186-197, client.py:72-79: the directory and the name in which the socket is opened; to change to a directory with an empty name is an error. -/
def socketAt (path : Str) : Option (Str × Str) := if dirname path = [] then none else some (dirname path, basename path)

end Isar.Bb.Addr
