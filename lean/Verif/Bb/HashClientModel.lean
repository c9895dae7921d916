/-!
# The client of the hash equivalence server

Model of bitbake/lib/bb/asyncrpc/client.py, `AsyncClient`, and bitbake/lib/hashserv/client.py, `AsyncClient`: connections that are made again
when they are lost, and the modes in which a connection is.  The other end of the connection is as in bitbake/lib/bb/asyncrpc/serv.py,
`process_requests`, and bitbake/lib/hashserv/server.py, `_stream_handler`.  Simplified: there is no user name (hashserv/client.py:31-37), a
request is never refused with an error (asyncrpc/client.py:155-157), and the answer to a question is one message.
-/

namespace Bb.HashClient

/-- hashserv/client.py:16-18 -/
inductive Mode where
  | normal
  | get
  | exist
deriving DecidableEq

inductive Msg where
  /-- a request as JSON -/
  | req (n : Nat)
  /-- `get-stream` and `exists-stream` -/
  | enter (m : Mode)
  /-- "END" -/
  | fin
  /-- a line in one of the streams -/
  | line (x : Nat)
deriving DecidableEq

/-- What the server does: it runs a request, looks something up in a mode, or looks up what was not meant as a question. -/
inductive Done where
  | ran (n : Nat)
  | looked (m : Mode) (x : Nat)
  | garbage
deriving DecidableEq

/-- Answers of the server: the line `ok`, the same in quotes as JSON, and what was found; that is JSON for a request, and a line as it is
in the streams. -/
inductive Reply where
  | ok
  | quoted
  | val (d : Done)
deriving DecidableEq

/-- Whether the answer can be read as JSON (asyncrpc/connection.py:56-61).  Simplified: a hash is not read as a number. -/
def Reply.json : Reply → Bool
  | .quoted => true
  | .val (.ran _) => true
  | _ => false

/-- `self.socket`, with the mode in which the server is at the other end and the answers that were sent and not yet read. -/
inductive Sock where
  | none
  | dead
  | alive (m : Mode) (q : List Reply)
deriving DecidableEq

/-- What becomes of a connection while it is used: nothing, it is lost before the server has the question (or it cannot be made), it is
lost before the client has the answer (or while the headers are sent), or the answer comes after the client has stopped waiting for it. -/
inductive Fault where
  | ok
  | before
  | after
  | late
deriving DecidableEq

structure S where
  sock : Sock := .none
  /-- `self.mode` -/
  mode : Mode := .normal
  /-- what is to become of the connection, each time it is used; nothing, when the list has ended -/
  env : List Fault := []
  /-- what the server has done -/
  log : List Done := []
deriving DecidableEq

/-- What a coroutine gives: a value, or nothing if it raises one of the exceptions for connections (asyncrpc/client.py:140-146). -/
abbrev M (α : Type) := S → Option α × S

def bind {α β : Type} (x : M α) (f : α → M β) : M β := fun s =>
  match x s with
  | (some a, s') => f a s'
  | (.none, s') => (.none, s')

def setClient (m : Mode) : M Unit := fun s => (some (), { s with mode := m })

/-- asyncrpc/serv.py:84-98 and hashserv/server.py:381-410: the new mode, the answer and what was done; the connection is closed if a text
comes that is no JSON.  A request that comes in one of the streams is taken as a line; what becomes of it is
simplified to one answer. -/
def serve : Mode → Msg → Option (Mode × Reply × List Done)
  | .normal, .req n => some (.normal, .val (.ran n), [.ran n])
  | .normal, .enter m => some (m, .quoted, [])
  | .normal, .fin => none
  | .normal, .line _ => none
  | _, .fin => some (.normal, .ok, [])
  | m, .line x => some (m, .val (.looked m x), [.looked m x])
  | m, _ => some (m, .val .garbage, [.garbage])

/-- Whether the client reads the answer to this as JSON. -/
def Msg.json : Msg → Bool
  | .req _ => true
  | .enter _ => true
  | _ => false

/-- Reading the first of the answers that came (asyncrpc/connection.py:56-95).  Answers that are no JSON where it is expected raise
`JSONDecodeError`; without an answer the connection was closed. -/
def readFirst (msg : Msg) (m : Mode) : List Reply → M Reply
  | [] => fun s => (none, { s with sock := .dead })
  | r :: q => fun s => (if msg.json && !r.json then none else some r, { s with sock := .alive m q })

/-- Sending and receiving (asyncrpc/client.py:161-162, hashserv/client.py:42-43, 55-56).  The time to wait is 30 seconds
(asyncrpc/client.py:48); the connection is not closed when it is over (asyncrpc/connection.py:78-82). -/
def exchange (msg : Msg) : M Reply := fun s =>
  match s.sock with
  | .alive m q =>
    match s.env.headD .ok, serve m msg with
    | .before, _ => (none, { s with sock := .dead, env := s.env.tail })
    | _, none => (none, { s with sock := .dead, env := s.env.tail })
    | .ok, some (m', r, d) => readFirst msg m' (q ++ [r]) { s with env := s.env.tail, log := s.log ++ d }
    | .after, some (_, _, d) => (none, { s with sock := .dead, env := s.env.tail, log := s.log ++ d })
    | .late, some (m', r, d) =>
      if q = [] then (none, { s with sock := .alive m' [r], env := s.env.tail, log := s.log ++ d })
      else readFirst msg m' (q ++ [r]) { s with env := s.env.tail, log := s.log ++ d }
  | _ => (none, s)

/-- asyncrpc/client.py:121-124, `connect`, with hashserv/client.py:28-30, `setup_connection`; nothing is waited for
(asyncrpc/client.py:107-109).  A connection that was made stays when the headers cannot be sent. -/
def connect : M Unit := fun s =>
  match s.sock with
  | .none =>
    match s.env.headD .ok with
    | .before => (none, { s with env := s.env.tail })
    | .after => (none, { s with sock := .dead, env := s.env.tail })
    | _ => (some (), { s with sock := .alive .normal [], mode := .normal, env := s.env.tail })
  | _ => (some (), s)

/-- asyncrpc/client.py:134-153, `_send_wrapper`, which tries as often again as the number says.  Before each of these the connection is
closed (asyncrpc/client.py:152, 126-129), but not after the last. -/
def wrap {α : Type} (p : M α) : Nat → M α
  | 0 => bind connect fun _ => p
  | n + 1 => fun s =>
    match bind connect (fun _ => p) s with
    | (some a, s') => (some a, s')
    | (none, s') => wrap p n { s' with sock := .none }

/-- hashserv/client.py:74-81 with 54-56: back to the normal mode. -/
def toEnd : M Unit := bind (wrap (exchange .fin) 3) fun r => fun s => if r = .ok then (some (), s) else (none, s)

/-- hashserv/client.py:53-89, `_set_mode` for the normal mode. -/
def toNormal : M Unit := fun s =>
  if s.mode = .normal then (some (), s) else bind toEnd (fun _ => setClient .normal) s

/-- hashserv/client.py:47-51 and asyncrpc/client.py:159-166, `invoke`. -/
def invoke (msg : Msg) : M Reply := bind toNormal fun _ => wrap (exchange msg) 3

/-- hashserv/client.py:58-65, `normal_to_stream` -/
def toStream (m : Mode) : M Unit := bind (invoke (.enter m)) fun r => fun s => if r = .quoted then (some (), s) else (none, s)

/-- hashserv/client.py:53-89, `_set_mode` for the modes of the streams.  The mode of the client is set at the end. -/
def setMode (m : Mode) : M Unit := fun s =>
  if s.mode = m then (some (), s)
  else bind (if s.mode = .normal then fun s => (some (), s) else toEnd) (fun _ => bind (toStream m) fun _ => setClient m) s

/-- hashserv/client.py:39-45, `send_stream` -/
def sendStream (m : Mode) (x : Nat) : M Reply := wrap (bind (setMode m) fun _ => exchange (.line x)) 3

/-- What is asked of the client: a request such as `report_unihash`, or `get_unihash` and `unihash_exists`. -/
inductive Call where
  | request (n : Nat)
  | getUnihash (x : Nat)
  | unihashExists (x : Nat)
deriving DecidableEq

def call : Call → M Reply
  | .request n => invoke (.req n)
  | .getUnihash x => sendStream .get x
  | .unihashExists x => sendStream .exist x

/-- Calls one after the other; the connections may break in any way at each. -/
def calls : S → List (Call × List Fault) → List (Option Reply) × S
  | s, [] => ([], s)
  | s, (c, env) :: cs =>
    let r := call c { s with env := env }
    (r.1 :: (calls r.2 cs).1, (calls r.2 cs).2)

end Bb.HashClient
