/-
Messages between the cooker, the worker and the tasks (bitbake/bin/bitbake-worker, bitbake/lib/bb/runqueue.py).
A task writes its events to a pipe which the worker reads.  The worker passes them on, with the exit codes of the tasks, to
the cooker.  The cooker sends configuration and tasks to the worker.  Pipes may be read in pieces of any size.
-/

namespace Bb.Pipe

abbrev Bytes := List Nat

def ascii (s : String) : Bytes := s.toList.map Char.toNat

/-- `b"<" + item + b">"`. -/
def opening (name : Bytes) : Bytes := 60 :: (name ++ [62])

/-- `b"</" + item + b">"`. -/
def closing (name : Bytes) : Bytes := 60 :: 47 :: (name ++ [62])

def evName : Bytes := ascii "event"
def exName : Bytes := ascii "exitcode"

/-- All places at which the bytes begin.  The first one is what `bytearray.find` returns. -/
def positions (pat : Bytes) : Bytes → List Nat
  | [] => if pat = [] then [0] else []
  | x :: q => if pat.isPrefixOf (x :: q) then 0 :: (positions pat q).map (· + 1) else (positions pat q).map (· + 1)

/-- What is at the front of a queue: nothing complete yet, a message and the rest, or something on which the reader fails. -/
inductive Step (M : Type) where
  | wait
  | msg (m : M) (rest : Bytes)
  | dead
deriving DecidableEq

/-- bitbake-worker:366-372, the loop of `runQueueWorkerPipe.read` for one message: the assertion counts the opening tags.
`bytes.count` counts places that do not overlap; places of this tag never do. -/
def childNext (q : Bytes) : Step Bytes := match (positions (closing evName) q).head? with
  | none => .wait
  | some i =>
    let msg := q.take (i + 8)
    if (opening evName).isPrefixOf msg ∧ (positions (opening evName) msg).length = 1 then .msg msg (q.drop (i + 8)) else .dead

/-- What `pickle.loads` does. -/
inductive Load (V : Type) where
  | ok (v : V)
  | truncated
  | bad
deriving DecidableEq

/-- runqueue.py:3272-3288: an event that ends at this place; when its data is truncated, the next place is tried. -/
def tryEvent {V : Type} (loads : Bytes → Load V) (q : Bytes) (i : Nat) : Option (Step (Bool × V)) := match loads ((q.take i).drop 7) with
  | .truncated => none
  | .ok v => some (.msg (true, v) (q.drop (i + 8)))
  | .bad => some .dead

/-- runqueue.py:3270-3302, the loops of `runQueuePipe.read` for one message; they go on until neither kind is at the front.
The message says if it is an event or an exit code. -/
def cookerNext {V : Type} (loads : Bytes → Load V) (q : Bytes) : Step (Bool × V) :=
  if (opening evName).isPrefixOf q then
    ((positions (closing evName) q).findSome? (tryEvent loads q)).getD .wait
  else if (opening exName).isPrefixOf q then
    match (positions (closing exName) q).head? with
    | none => .wait
    | some i => match loads ((q.take i).drop 10) with
      | .ok v => .msg (false, v) (q.drop (i + 11))
      | _ => .dead
  else .wait

/-- The loop around `next`; the number is more than there can be messages. -/
def drain {M : Type} (next : Bytes → Step M) : Nat → Bytes → List M × Option Bytes
  | 0, q => ([], some q)
  | n + 1, q => match next q with
    | .wait => ([], some q)
    | .dead => ([], none)
    | .msg m r => let d := drain next n r; (m :: d.1, d.2)

/-- bitbake-worker:357-373 and runqueue.py:3262-3303, `read`: all that was found so far and the queue. -/
def feed {M : Type} (next : Bytes → Step M) (st : List M × Option Bytes) (chunk : Bytes) : List M × Option Bytes := match st.2 with
  | none => st
  | some q => let d := drain next ((q ++ chunk).length + 1) (q ++ chunk); (st.1 ++ d.1, d.2)

/-! ### The worker -/

/-- What the worker does next.  Tasks have numbers which, unlike process ids, are not used again. -/
inductive Act (V : Type) where
  /-- `read` of the pipe of a task gives these bytes. -/
  | read (task : Nat) (chunk : Bytes)
  /-- `process_waitpid`: the task has ended, these bytes were still in its pipe, this is sent as its exit code. -/
  | reap (task : Nat) (chunk : Bytes) (status : V)
  /-- `fork_off_task`. -/
  | start
  /-- `os.write` in `worker_flush` takes so many bytes. -/
  | write (n : Nat)

structure Worker where
  /-- The queue of each task. -/
  pipes : Nat → Bytes := fun _ => []
  /-- `worker_queue` and `worker_queue_int`. -/
  pending : Bytes := []
  /-- What was printed; it is in the buffer of `sys.stdout`. -/
  printed : Bytes := []
  /-- What was written to the pipe of the cooker, which is the file of `sys.stdout`. -/
  chan : Bytes := []
  dead : Bool := false

/-- bitbake-worker:375-380: what is printed when a task leaves a part of a message; `repr` is the form of a bytearray. -/
def warning (repr : Bytes → Bytes) (q : Bytes) : Bytes := ascii "Warning, worker child left partial message: " ++ repr q ++ [10]

/-- bitbake-worker:77-84, 93-113, 357-373: a read; messages go to `worker_queue`. -/
def readPipe (w : Worker) (task : Nat) (chunk : Bytes) : Worker :=
  let d := drain childNext ((w.pipes task ++ chunk).length + 1) (w.pipes task ++ chunk)
  match d.2 with
  | some q => { w with pipes := fun t => if t = task then q else w.pipes t, pending := w.pending ++ d.1.flatten }
  | none => { w with pending := w.pending ++ d.1.flatten, dead := true }

/-- `b"<name>" + data + b"</name>"`: bitbake-worker:78, 122, 542. -/
def frame (name data : Bytes) : Bytes := opening name ++ data ++ closing name

/-- The loop of `serve` with the thread of `worker_flush`.  After a failure only the thread goes on.
The buffer of `sys.stdout` is written when a task is started (bitbake-worker:203); that it is written earlier when it is full
is not modelled. -/
def act {V : Type} (repr : Bytes → Bytes) (dumps : V → Bytes) (w : Worker) : Act V → Worker
  | .read t c => if w.dead then w else readPipe w t c
  | .reap t c v =>
    if w.dead then w
    else
      let r := readPipe w t c
      if r.dead then r
      else { r with
        printed := if r.pipes t = [] then r.printed else r.printed ++ warning repr (r.pipes t)
        pending := r.pending ++ frame exName (dumps v) }
  | .start => if w.dead then w else { w with chan := w.chan ++ w.printed, printed := [] }
  | .write n => { w with chan := w.chan ++ w.pending.take n, pending := w.pending.drop n }

def runWorker {V : Type} (repr : Bytes → Bytes) (dumps : V → Bytes) (acts : List (Act V)) : Worker := acts.foldl (act repr dumps) {}

/-! ### From the cooker to the worker -/

/-- `int.from_bytes(header, 'big')`. -/
def bigEndian (b : Bytes) : Nat := b.foldl (fun n x => n * 256 + x) 0

/-- `n.to_bytes(4, 'big')`, which fails for more. -/
def header (n : Nat) : Option Bytes :=
  if n < 4294967296 then some [n / 16777216, n / 65536 % 256, n / 256 % 256, n % 256] else none

/-- runqueue.py:1339-1346, `send_pickled_data`. -/
def send (name data : Bytes) : Option Bytes := (header data.length).map fun h => opening name ++ h ++ data ++ closing name

/-- bitbake-worker:442-465, `handle_item`: the data given to the function, and the rest. -/
def handleItem (name q : Bytes) : Option (Bytes × Bytes) :=
  let tagLen := (opening name).length
  if (opening name).isPrefixOf q then
    if q.length < tagLen + 4 then none
    else if q.length < tagLen * 2 + 1 + bigEndian ((q.drop tagLen).take 4) then none
    else match (positions (closing name) q).head? with
      | none => none
      | some i => some ((q.take i).drop (tagLen + 4), q.drop (i + 2 + name.length + 1))
  else none

/-- bitbake-worker:425-433: the kinds of items, in the order in which they are tried. -/
def kinds : List Bytes := [ascii "cookerconfig", ascii "extraconfigdata", ascii "workerdata", ascii "newtaskhashes", ascii "runtask",
  ascii "finishnow", ascii "ping", ascii "quit"]

/-- One item of the given kind. -/
def tryItem (st : List (Bytes × Bytes) × Bytes) (name : Bytes) : List (Bytes × Bytes) × Bytes := match handleItem name st.2 with
  | none => st
  | some (data, rest) => (st.1 ++ [(name, data)], rest)

/-- bitbake-worker:413-433: one round of `serve` in which so many bytes have come.  That the handlers may fail, and that `quit`
ends the worker, is not modelled. -/
def round (st : List (Bytes × Bytes) × Bytes) (chunk : Bytes) : List (Bytes × Bytes) × Bytes :=
  kinds.foldl tryItem (st.1, st.2 ++ chunk)

end Bb.Pipe
