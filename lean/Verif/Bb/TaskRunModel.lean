import Verif.Py.Str
import Verif.Py.Dict

/-
The process of a task: its functions, events and environment, and messages of its script (bitbake/lib/bb/build.py, exec_task and
exec_func_shell; bitbake/bin/bitbake-worker, fork_off_task).
-/

namespace Bb.TaskRun
open Py

/-! ### Functions and events -/

/-- Kinds of exceptions: `BBHandledException`, other exceptions, and `SystemExit`, which is no `Exception`. -/
inductive Exc where
  | handled
  | other
  | exit
deriving DecidableEq, Repr

/-- What can be seen of a task from outside. -/
inductive Ev where
  | invalid
  | started
  | call (f : Str)
  | succeeded
  | failed (printed : Bool)
  | silent
  | stamp
deriving DecidableEq, Repr

/-- A task, and what happens: `call` says how a function ends after others, `handler` whether handlers of an event in the metadata raise (the event
is not sent then, event.py:224-226), `stamp1` and `stamp2` how the file is made and signatures are written, `fakeroot` whether fakeroot is used and can be
stopped. -/
structure Job where
  isTask : Bool := true
  hasT : Bool := true
  quiet : Bool := false
  nostamp : Bool := false
  selfstamp : Bool := false
  dryRun : Bool := false
  verbose : Bool := false
  task : Str
  pre : Str := []
  post : Str := []
  call : List Str → Str → Option Exc
  logged : Bool := false
  handler : Ev → Option Exc := fun _ => none
  stamp1 : Option Exc := none
  stamp2 : Option Exc := none
  fakeroot : Option Bool := none

/-- build.py:709-713: functions one after the other. -/
def calls (j : Job) : List Str → List Str → List Ev × Option Exc
  | _, [] => ([], none)
  | done, f :: fs => match j.call done f with
    | some e => ([.call f], some e)
    | none => (.call f :: (calls j (done ++ [f]) fs).1, (calls j (done ++ [f]) fs).2)

/-- build.py:709-713: the functions before a task, the task, the functions after it. -/
def functions (j : Job) : List Str := words j.pre ++ j.task :: words j.post

/-- build.py:705-713, 714-736.  Logs are left out. -/
def body (j : Job) : List Ev × Option Exc := match j.handler .started with
  | some e => ([], some e)
  | none => (.started :: (calls j [] (functions j)).1, (calls j [] (functions j)).2)

/-- build.py:737-755: the event of a failure; `logged` says whether there was an error in the log. -/
def failure (j : Job) (e : Exc) : Ev := if j.quiet then .silent else .failed (j.logged || j.verbose || e == .handled)

/-- build.py:757-762, 840-852: what comes after the functions. -/
def after (j : Job) : List Ev × Except Exc Nat := match j.handler .succeeded with
  | some e => ([], .error e)
  | none =>
    if j.nostamp || j.selfstamp then ([.succeeded], .ok 0)
    else match j.stamp1 with
      | some e => ([.succeeded], .error e)
      | none => match j.stamp2 with
        | some e => ([.succeeded, .stamp], .error e)
        | none => ([.succeeded, .stamp], .ok 0)

/-- `event.fire` and `return 1`. -/
def fireAndFail (j : Job) (ev : Ev) : List Ev × Except Exc Nat := match j.handler ev with
  | some e => ([], .error e)
  | none => ([ev], .ok 1)

/-- build.py:597-762. -/
def execTask1 (j : Job) : List Ev × Except Exc Nat :=
  if !j.isTask then fireAndFail j .invalid
  else if !j.hasT then ([], .error .handled)
  else match (body j).2 with
    | some e => ((body j).1 ++ (fireAndFail j (failure j e)).1, (fireAndFail j (failure j e)).2)
    | none => ((body j).1 ++ (after j).1, (after j).2)

/-- build.py:764-792: `TaskFailed` is made there with arguments that do not fit and raises itself (line 790: `True.getVar`). -/
def execTask (j : Job) : List Ev × Except Exc Nat := match (execTask1 j).2 with
  | .ok n => ((execTask1 j).1, .ok n)
  | .error .exit => ((execTask1 j).1, .error .exit)
  | .error _ => if j.quiet then ((execTask1 j).1, .ok 1) else ((execTask1 j).1, .error .other)

/-- bitbake-worker:314-325: what the process of a task sends, and its exit code. -/
def child (j : Job) : List Ev × Nat :=
  if j.dryRun then ([], 0)
  else match j.fakeroot with
    | some false => ((execTask j).1, 1)
    | _ => match (execTask j).2 with
      | .ok n => ((execTask j).1, n)
      | .error _ => ((execTask j).1, 1)

/-! ### Environment -/

abbrev Env := Dict Str

/-- utils.py:681-687. -/
def emptied (env : Env) : Env := (env.map (·.1)).foldl Dict.del env

/-- bitbake-worker:186-189, 198-201: one of the settings of fakeroot; none without a `=`. -/
def setting (w : Str) : Option (Str × Str) := match splitOn '=' w with
  | k :: v :: vs => some (k, join ['='] (v :: vs))
  | _ => none

/-- bitbake-worker:185-201: all of them; none if the worker dies of one. -/
def settings (s : Str) : Option (List (Str × Str)) := (words s).mapM setting

/-- bitbake-worker:297-301: a variable of the flag `exports`. -/
def exportOne (value : Str → Option Str) (e : Env) (x : Str) : Env := match value x with
  | some v => e.set x v
  | none => e

/-- bitbake-worker:284-301: the environment of a task.  `vars` are the exported variables of the recipe with their values, `value` are values of all
variables, `exports` is the flag of the task. -/
def childEnv (host : Env) (vars : List (Str × Str)) (fake : List (Str × Str)) (value : Str → Option Str) (exports : Str) : Env :=
  let env := vars.foldl (fun e x => e.set x.1 x.2) (emptied host)
  let fakeenv : Env := fake.foldl (fun e x => e.set x.1 x.2) []
  let env := fakeenv.foldl (fun e x => e.set x.1 x.2) env
  (words exports).foldl (exportOne fun x => (fakeenv.lookup x).or (value x)) env

/-- bitbake-worker:186-189, 197-201: the environment of the worker before the fork, and what it was. -/
def prepared (env : Env) (fake : List (Str × Str)) : Env × Dict (Option Str) :=
  fake.foldl (fun s x => (s.1.set x.1 x.2, s.2.set x.1 (s.1.lookup x.1))) (env, [])

/-- bitbake-worker:339-342: one of its variables. -/
def restoreOne (e : Env) (x : Str × Option Str) : Env := match x.2 with
  | none => e.del x.1
  | some v => e.set x.1 v

/-- bitbake-worker:337-342: and after it. -/
def restored (s : Env × Dict (Option Str)) : Env := s.2.foldl restoreOne s.1

/-! ### Messages of a script -/

/-- Kinds of messages. -/
inductive Msg where
  | plain (s : Str)
  | note (s : Str)
  | verbnote (s : Str)
  | warn (s : Str)
  | error (s : Str) (forcelog : Bool)
  | debug (level : Nat) (s : Str)
deriving DecidableEq, Repr

/-- `split(' ', 1)`. -/
def cut1 (s : Str) : Str × Option Str := match s.dropWhile (· ≠ ' ') with
  | [] => (s.takeWhile (· ≠ ' '), none)
  | _ :: r => (s.takeWhile (· ≠ ' '), some r)

/-- Digits alone, as `int` takes them here. -/
def digits (s : Str) : Option Nat := if s ≠ [] ∧ s.all Char.isDigit then some (decVal s) else none

/-- build.py:484-513: a message; none if it makes an exception.  Bytes that are no UTF-8 are not modelled, nor signs and blanks before
the digits of a level. -/
def message (m : Str) : Option Msg :=
  let value := ((cut1 m).2).getD []
  let cmd := (cut1 m).1
  if cmd = "bbplain".toList then some (.plain value)
  else if cmd = "bbnote".toList then some (.note value)
  else if cmd = "bbverbnote".toList then some (.verbnote value)
  else if cmd = "bbwarn".toList then some (.warn value)
  else if cmd = "bberror".toList then some (.error value false)
  else if cmd = "bbfatal".toList then some (.error value false)
  else if cmd = "bbfatal_log".toList then some (.error value true)
  else if cmd = "bbdebug".toList then match digits (cut1 value).1, (cut1 value).2 with
    | some n, some s => some (.debug n s)
    | _, _ => none
  else some (.warn ("Unrecognised command '".toList ++ cmd ++ "' on FIFO".toList))

/-- build.py:482-516: the loop; `fuel` is at least the length of the buffer.  What is said, and what is left in the buffer, none after an exception. -/
def loop : Nat → Str → List Msg × Option Str
  | 0, buf => ([], some buf)
  | n + 1, buf => match buf.dropWhile (· ≠ '\x00') with
    | [] => ([], some buf)
    | _ :: rest => match message (buf.takeWhile (· ≠ '\x00')) with
      | none => ([], none)
      | some m => (m :: (loop n rest).1, (loop n rest).2)

/-- build.py:478-516: data as they come. -/
def readFifo (buf data : Str) : List Msg × Option Str := loop (buf ++ data).length (buf ++ data)

/-- A sequence of pieces. -/
def feed : Str → List Str → List Msg × Option Str
  | buf, [] => ([], some buf)
  | buf, d :: ds => match (readFifo buf d).2 with
    | none => ((readFifo buf d).1, none)
    | some b => ((readFifo buf d).1 ++ (feed b ds).1, (feed b ds).2)

end Bb.TaskRun
