/-!
# The pool of connections to the hash equivalence server

Model of bitbake/lib/bb/asyncrpc/client.py:241-312, `ClientPool`, with bitbake/lib/hashserv/client.py:295-346, `_run_key_tasks`, and the use of
its answers in bitbake/lib/bb/siggen.py:704-766, `get_unihashes`.  The tasks of all calls run in one event loop; what one task does between two
points at which it waits is one step here, and the steps of the tasks come in any order.  The lock of `client_condition` is held over a wait
only while a connection is made (line 278).  Tasks that one call leaves unfinished go on when the next call runs the same loop (line 300),
so that the steps below are those of all calls together.
-/

namespace Bb.ClientPool

/-- The fields of `ClientPool` and where each task is.  A task and a connection are numbers. -/
structure St where
  /-- `process_task` has been made, line 299, and has not the lock yet -/
  pending : List Nat
  /-- in `_new_client`, line 278, with the lock -/
  creating : Option Nat
  /-- in `client_condition.wait()`, line 281, in the order in which they came -/
  waiting : List Nat
  /-- told to go on by `notify`, line 289, and not on yet -/
  notified : List Nat
  /-- at `yield`, line 285, with the connection -/
  using' : List (Nat × Nat)
  /-- `avail_clients` -/
  idle : List Nat
  /-- `num_clients` -/
  num : Nat
  /-- how many connections have been made, which is the name of the next one -/
  made : Nat
  /-- how many connections could not be made -/
  lost : Nat
  /-- tasks that have run to their end -/
  done : List Nat
  /-- tasks that ended with an exception -/
  failed : List Nat

/-- asyncrpc/client.py:242-247 -/
def init : St :=
  { pending := [], creating := none, waiting := [], notified := [], using' := [], idle := [], num := 0, made := 0, lost := 0,
    done := [], failed := [] }

/-- asyncrpc/client.py:299: a call makes its tasks. -/
def submit (ts : List Nat) (s : St) : St := { s with pending := s.pending ++ ts }

/-- asyncio's `Condition.notify`: the first that waits is told. -/
def notify (s : St) : St :=
  match s.waiting with
  | [] => s
  | w :: ws => { s with waiting := ws, notified := s.notified ++ [w] }

/-- asyncrpc/client.py:286-289, the `finally` -/
def release (c : Nat) (s : St) : St := notify { s with idle := s.idle ++ [c] }

/-- One step of a task that is there; `max` is `max_clients`. -/
inductive Work (max : Nat) : St → St → Prop
  /-- lines 274-275: `pop` takes the last -/
  | take (s : St) (t c : Nat) (l r i : List Nat) (hl : s.creating = none) (hp : s.pending = l ++ t :: r) (hi : s.idle = i ++ [c]) :
      Work max s { s with pending := l ++ r, idle := i, using' := (t, c) :: s.using' }
  /-- lines 276-278, up to the wait for the connection -/
  | create (s : St) (t : Nat) (l r : List Nat) (hl : s.creating = none) (hp : s.pending = l ++ t :: r) (hi : s.idle = [])
      (hn : s.num < max) : Work max s { s with pending := l ++ r, num := s.num + 1, creating := some t }
  /-- line 278: the connection is there -/
  | created (s : St) (t : Nat) (hl : s.creating = some t) :
      Work max s { s with creating := none, using' := (t, s.made) :: s.using', made := s.made + 1 }
  /-- line 278: `_new_client` raises; nothing takes back line 277 -/
  | createFailed (s : St) (t : Nat) (hl : s.creating = some t) :
      Work max s { s with creating := none, lost := s.lost + 1, failed := t :: s.failed }
  /-- lines 279-281 -/
  | wait (s : St) (t : Nat) (l r : List Nat) (hl : s.creating = none) (hp : s.pending = l ++ t :: r) (hi : s.idle = [])
      (hn : ¬ s.num < max) : Work max s { s with pending := l ++ r, waiting := s.waiting ++ [t] }
  /-- lines 280-282, after `notify` -/
  | wake (s : St) (t c : Nat) (l r i : List Nat) (hl : s.creating = none) (hp : s.notified = l ++ t :: r) (hi : s.idle = i ++ [c]) :
      Work max s { s with notified := l ++ r, idle := i, using' := (t, c) :: s.using' }
  /-- lines 280-281: another task was faster -/
  | again (s : St) (t : Nat) (l r : List Nat) (hl : s.creating = none) (hp : s.notified = l ++ t :: r) (hi : s.idle = []) :
      Work max s { s with notified := l ++ r, waiting := s.waiting ++ [t] }
  /-- line 294: the task has ended -/
  | finish (s : St) (t c : Nat) (l r : List (Nat × Nat)) (hl : s.creating = none) (hp : s.using' = l ++ (t, c) :: r) :
      Work max s (release c { s with using' := l ++ r, done := t :: s.done })
  /-- line 294: the task has raised -/
  | finishFailed (s : St) (t c : Nat) (l r : List (Nat × Nat)) (hl : s.creating = none) (hp : s.using' = l ++ (t, c) :: r) :
      Work max s (release c { s with using' := l ++ r, failed := t :: s.failed })

/-- The states that any calls and any order of steps lead to; `sub` are the tasks of all calls. -/
inductive Reach (max : Nat) : List Nat → St → Prop
  | init : Reach max [] init
  | submit (sub ts : List Nat) (s : St) (h : Reach max sub s) : Reach max (sub ++ ts) (submit ts s)
  | work (sub : List Nat) (s s' : St) (h : Reach max sub s) (w : Work max s s') : Reach max sub s'

/-- A number of steps of the tasks that are there. -/
inductive Runs (max : Nat) : St → Nat → St → Prop
  | nil (s : St) : Runs max s 0 s
  | cons (s s' s'' : St) (n : Nat) (w : Work max s s') (h : Runs max s' n s'') : Runs max s (n + 1) s''

/-- Later states, with more calls. -/
inductive Later (max : Nat) : St → St → Prop
  | refl (s : St) : Later max s s
  | submit (s s' : St) (ts : List Nat) (h : Later max s s') : Later max s (submit ts s')
  | work (s s' s'' : St) (h : Later max s s') (w : Work max s' s'') : Later max s s''

/-- asyncrpc/client.py:300: `gather` ends with all tasks, or with the first exception, which the thread prints; the call returns either way
(lines 267-269). -/
def callEnds (s : St) : Prop :=
  s.failed ≠ [] ∨ (s.pending = [] ∧ s.creating = none ∧ s.waiting = [] ∧ s.notified = [] ∧ s.using' = [])

/-- hashserv/client.py:295-311, `_run_key_tasks`: the results when the call returns in the state `s`.  The key of a task is its number and
`answer` is what the server says. -/
def results (answer : Nat → Option Nat) (s : St) (k : Nat) : Option Nat := if k ∈ s.done then answer k else none

/-- bb/siggen.py:737-764: what `get_unihashes` returns and stores for a task.  Simplified: a hash is a number. -/
def unihash (taskhash : Nat → Nat) (answer : Nat → Option Nat) (s : St) (k : Nat) : Nat :=
  match results answer s k with
  | some u => u
  | none => taskhash k

end Bb.ClientPool
