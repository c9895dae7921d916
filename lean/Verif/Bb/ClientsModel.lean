/-!
# The clients of the server

Model of the connection loop of the server, bitbake/lib/bb/server/process.py, `ProcessServer.main`.  Clients are numbers.  The server for
XMLRPC is not modelled.
-/

namespace Bb.Clients

/-- `timeout`: 0 or not set, -1, or a time. -/
inductive Timeout where
  | none
  | never
  | after (t : Nat)
deriving DecidableEq

/-- What happens, in order. -/
inductive Ev where
  /-- the connection is accepted (process.py:237) -/
  | connected (k : Nat)
  /-- it becomes the controlling one (process.py:228, 243) -/
  | turn (k : Nat)
  /-- the client has sent where its events, commands and replies go (process.py:248-266) -/
  | served (k : Nat)
  /-- a command of a client is run and the reply is sent to a client (process.py:285, 296-298) -/
  | ran (k : Nat) (to : Option Nat) (c : Nat)
  /-- the controlling connection is closed (process.py:204-207) -/
  | left (k : Nat)
deriving DecidableEq

structure State where
  timeout : Timeout
  /-- `controllersock` -/
  ctrl : Option Nat := none
  /-- the clients at the ends of `command_channel` and `command_channel_reply` -/
  chan : Option Nat := none
  reply : Option Nat := none
  /-- `haveui`, `hadanyui` -/
  haveui : Bool := false
  hadanyui : Bool := false
  /-- `lastui` -/
  lastui : Nat := 0
  /-- `newconnections` -/
  waiting : List Nat := []
  quit : Bool := false
  log : List Ev := []
deriving DecidableEq

/-- What comes from the controlling connection. -/
inductive FromCtrl where
  | fds
  | eof
  /-- neither three descriptors nor the end: `recvfds` (process.py:759-780) raises an exception that is not caught (process.py:268) -/
  | junk
deriving DecidableEq

/-- What comes from the command channel. -/
inductive FromChan where
  | eof
  | terminate
  | command (c : Nat)
deriving DecidableEq

/-- What is outside in one turn of the loop. -/
structure In where
  /-- the connections that are there to be accepted -/
  accepts : List Nat := []
  /-- what the connections that were ready give -/
  ctrl : Option FromCtrl := none
  chan : Option FromChan := none
  /-- the time -/
  now : Nat := 0
  /-- `wait_for_idle` succeeds (process.py:210) -/
  idleOk : Bool := true
  /-- something is ready when a client has left (process.py:223) -/
  more : Bool := false
  /-- the idle thread is found to have ended (process.py:496-499) -/
  dead : Bool := false
deriving DecidableEq

/-- process.py:235-244: a connection is accepted. -/
def accept (s : State) (k : Nat) : State :=
  match s.ctrl with
  | some _ => { s with waiting := s.waiting ++ [k], log := s.log ++ [.connected k] }
  | none => { s with ctrl := some k, log := s.log ++ [.connected k, .turn k] }

/-- process.py:204-207. -/
def closeCtrl (s : State) : State :=
  match s.ctrl with
  | some k => { s with ctrl := none, log := s.log ++ [.left k] }
  | none => s

/-- process.py:208-222. -/
def closeUi (i : In) (s : State) : State :=
  if s.haveui then { s with quit := s.quit || !i.idleOk, chan := none, reply := none, lastui := i.now, haveui := false } else s

/-- process.py:223-231: the next client is the one at the end of the list. -/
def nextClient (i : In) (s : State) : State :=
  match s.waiting.getLast?, s.quit with
  | some k, false => { s with waiting := s.waiting.dropLast, ctrl := some k, log := s.log ++ [.turn k] }
  | _, _ => if s.timeout = .none ∧ i.more = false then { s with quit := true } else s

/-- process.py:202-231, `disconnect_client`. -/
def disconnect (i : In) (s : State) : State := nextClient i (closeUi i (closeCtrl s))

/-- process.py:245-269.  What was ready is the connection that was there before new ones were accepted. -/
def fromCtrl (i : In) (before : Option Nat) (s : State) : State :=
  match before, i.ctrl with
  | some k, some .fds =>
    { s with chan := some k, reply := some k, haveui := true, hadanyui := true, log := s.log ++ [.served k] }
  | some _, some .eof => disconnect i s
  | _, _ => s

/-- process.py:271-274. -/
def timedOut (i : In) (s : State) : Bool :=
  match s.timeout with
  | .after t => !s.haveui && t != 0 && decide (s.lastui + t < i.now)
  | _ => false

/-- process.py:279-281 -/
def neverUsed (i : In) (s : State) : Bool := !s.hadanyui && decide (s.timeout = .none) && decide (s.lastui + 30 < i.now)

def timeouts (i : In) (s : State) : State := if timedOut i s || neverUsed i s then { s with quit := true } else s

/-- process.py:324 and 496-499. -/
def idleCommands (i : In) (s : State) : State := if i.dead then { s with quit := true } else s

/-- process.py:283-303.  The channel that was ready is the one that was there before, if it is still open. -/
def fromChan (i : In) (before : Option Nat) (s : State) : State :=
  match before, s.chan, i.chan with
  | some _, some _, some .eof => disconnect i s
  | some _, some _, some .terminate => { s with quit := true }
  | some _, some k, some (.command c) => idleCommands i { s with log := s.log ++ [.ran k s.reply c] }
  | _, _, _ => idleCommands i s

/-- process.py:248, 268: the exception ends the loop. -/
def raises (i : In) (s : State) : Bool := s.ctrl.isSome && decide (i.ctrl = some .junk)

/-- process.py:234-324: one turn of the loop. -/
def turn (s : State) (i : In) : State :=
  if s.quit then s else if raises i s then { i.accepts.foldl accept s with quit := true } else fromChan i s.chan (timeouts i (fromCtrl i s.ctrl (i.accepts.foldl accept s)))

def run (s : State) (is : List In) : State := is.foldl turn s

end Bb.Clients
