/-!
# Asynchronous commands of the server

Model of the two threads of the server that deal with asynchronous commands: the main thread that takes them (bitbake/lib/bb/command.py,
`Command.runCommand`) and the idle thread that runs them (bitbake/lib/bb/server/process.py, `ProcessServer.idle_thread_internal`).  They
share the command that is running and the table of idle functions, both under one lock; what is done under the lock is one step here, and
the steps of the threads come in any order.
-/

namespace Bb.Server

/-- The idle functions: `runAsyncCommand` (command.py:109-142), and the function that a command for a build registers
(cooker.py:1474-1505, `buildTargetsIdle`, and 1398-1434, `buildFileIdle`), a new one for each command. -/
inductive Fn where
  | run
  | build (c : Nat)
deriving DecidableEq

/-- What an idle function does when it is called, as far as the caller sees it. -/
inductive Outcome where
  /-- it wants to be called again: `True`, a time or files to wait for (process.py:445-453) -/
  | keep
  /-- it is done with its work -/
  | done
  /-- `runAsyncCommand` only: the command has registered a function for a build -/
  | start
  /-- an exception -/
  | raise
deriving DecidableEq

/-- What came back from a function: `False`, an `idleFinish`, or an exception that reaches the thread. -/
inductive Ret where
  | false
  | finish
  | broken
deriving DecidableEq

/-- Where the idle thread is. -/
inductive Pc where
  /-- before process.py:426 -/
  | top
  /-- before process.py:435, with the functions that are still to be called -/
  | at (items : List Fn)
  /-- command.py:150-152: within a command that ends at once; the event is fired, the command is still the current one -/
  | body (items : List Fn)
  /-- a function has returned: before process.py:438, 443 or 459 -/
  | ret (f : Fn) (r : Ret) (items : List Fn)
  /-- before process.py:439: the function is removed, no event is fired -/
  | fire (items : List Fn)
  /-- command.py:151-152: the event is fired, the command is still the current one -/
  | clear (items : List Fn)
  /-- the thread has ended -/
  | dead
deriving DecidableEq

/-- What a client sees: its command is accepted (`set_async_cmd`, process.py:174; the reply comes later), and one of the events `CommandFailed`, `CommandExit` and
`CommandCompleted` (command.py:144-150), fired while a command is the current one. -/
inductive Ev where
  | accepted (c : Nat)
  | finished (c : Option Nat)
deriving DecidableEq

structure State where
  /-- `currentAsyncCommand` -/
  cur : Option Nat := none
  /-- `_idlefuns`, in the order of registration -/
  funs : List Fn := []
  /-- the main thread has set the current command and not yet registered `runAsyncCommand` (between command.py:104 and 106) -/
  setting : Bool := false
  pc : Pc := .top
  /-- `quit` -/
  quit : Bool := false
  /-- what was seen, in order -/
  log : List Ev := []
deriving DecidableEq

/-- process.py:161-162, `_idle_check`. -/
def idleCheck (s : State) : Bool := s.funs.isEmpty && s.cur.isNone

/-- process.py:117-121: the table is a dictionary, so that a function that is there keeps its place. -/
def register (f : Fn) (funs : List Fn) : List Fn := if f ∈ funs then funs else funs ++ [f]

/-- process.py:421-424.  If the function is not there, `del` raises, within the handler of exceptions too: the thread ends, and the main
thread sees that and ends the server (process.py:496-499). -/
def remove (f : Fn) (s : State) (next : Pc) : State :=
  if f ∈ s.funs then { s with funs := s.funs.filter (· ≠ f), pc := next } else { s with pc := .dead, quit := true }

/-- process.py:435: a function is called.  `runAsyncCommand` turns exceptions into `idleFinish` (command.py:129-142), and does so too if there
is no command (command.py:127-128).  The functions for builds end with `idleFinish` (cooker.py:1501). -/
def call (f : Fn) (o : Outcome) (items : List Fn) (s : State) : State :=
  match f with
  | .run =>
    match s.cur with
    | none => { s with pc := .ret .run .finish items }
    | some c =>
      match o with
      | .keep => { s with pc := .at items }
      | .done => { s with pc := .body items, log := s.log ++ [.finished s.cur] }
      | .start => { s with pc := .ret .run .false items, funs := register (.build c) s.funs }
      | .raise => { s with pc := .ret .run .finish items }
  | .build c =>
    match o with
    | .keep => { s with pc := .at items }
    | .done | .start => { s with pc := .ret (.build c) .finish items }
    | .raise => { s with pc := .ret (.build c) .broken items }

/-- A step of the idle thread (process.py:426-461; the heartbeat and the sleeping are left out).  What a function does when it is called, and
whether an exception comes when a command is finished (`Cooker.finishcommand`), is given by the outcome. -/
def idle (o : Outcome) (s : State) : State :=
  match s.pc with
  | .top => if s.quit then { s with pc := .dead } else { s with pc := .at s.funs }
  | .at [] => { s with pc := .top }
  | .at (f :: items) => call f o items s
  | .body items => if o = .raise then { s with pc := .ret .run .finish items } else { s with cur := none, pc := .ret .run .false items }
  | .ret f .false items => remove f s (.at items)
  | .ret f .finish items => remove f s (.fire items)
  | .ret f .broken items => { remove f s (.at items) with quit := true }
  | .fire items => { s with pc := .clear items, log := s.log ++ [.finished s.cur] }
  | .clear items => if o = .raise then { s with pc := .dead, quit := true } else { s with cur := none, pc := .at items }
  | .dead => s

/-- The choices of the scheduler and of what is outside. -/
inductive Act where
  /-- the main thread is given a command; if the server is not idle it waits (process.py:169-175), which is no step here -/
  | ask (c : Nat)
  /-- the waiting is over and the client is told that the server is busy (command.py:104-105) -/
  | busy
  /-- the main thread goes on (command.py:106) -/
  | register
  /-- a step of the idle thread -/
  | idle (o : Outcome)
deriving DecidableEq

/-- A step of one of the threads, if it can be done. -/
def step (a : Act) (s : State) : Option State :=
  match a with
  | .ask c =>
    if s.setting = false ∧ s.quit = false ∧ idleCheck s = true then
      some { s with cur := some c, setting := true, log := s.log ++ [.accepted c] }
    else none
  | .busy => if s.setting = false ∧ idleCheck s = false then some s else none
  | .register => if s.setting = true then some { s with setting := false, funs := register .run s.funs } else none
  | .idle o => some (idle o s)

/-- A run of the two threads. -/
def run : List Act → State → Option State
  | [], s => some s
  | a :: as, s => (step a s).bind (run as)

end Bb.Server
