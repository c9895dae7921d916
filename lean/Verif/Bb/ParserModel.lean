import Verif.Py.Str
/-!
# Parsing in parallel

Model of `CookerParser` and `Parser` in bitbake/lib/bb/cooker.py: recipes from the cache, processes that parse, the queue of their
results and the process that collects them, as a transition system.

A job is a recipe of a multiconfig.  `results.put` never meets a full queue, as the queue has no limit; a result is first in a
buffer of the process and then in the pipe, and a process that ends by itself empties its buffer before.  A process can be killed
at any time, which loses its jobs and its buffer; that a process is killed while it writes to the pipe or holds the lock of
the pipe is not modelled.  `is_alive` is asked for one process after the other: one that ends meanwhile may be missed.
-/

namespace Bb.Parser

open Py

/-- cooker.py:2136-2140: a recipe to parse; its name for the tuple with multiconfig, cache, file, appends and layer. -/
abbrev Job := Str

/-- A process that parses: its jobs, the results in its buffer, if it runs, and if the collector still has it in its list. -/
structure Proc where
  jobs : List Job
  buf : List Job
  alive : Bool
  listed : Bool
deriving DecidableEq

/-- Where the collector is: with the cached recipes, at the head of its loop, or before it takes a result. -/
inductive Phase where
  | cached
  | top
  | get
deriving DecidableEq

/-- How parsing has ended: complete, with the failure of a recipe, or with "Not all recipes parsed". -/
inductive End where
  | clean
  | failed (j : Job)
  | died
deriving DecidableEq

/-- The state of all. -/
structure S where
  procs : List Proc
  pipe : List Job
  left : List Job
  loaded : List Job
  parsed : List Job
  phase : Phase
  empty : Bool
  fin : Option End
  /-- What was lost with processes that were killed; not in the code. -/
  lost : List Job
deriving DecidableEq

/-- cooker.py:2164: `lst[i::n]`. -/
def slice (n i : Nat) (l : List Job) : List Job := (l.zipIdx.filter fun x => x.2 % n == i).map Prod.fst

/-- cooker.py:2163-2165, `chunkify`. -/
def chunks (n : Nat) (l : List Job) : List (List Job) := (List.range n).map fun i => slice n i l

/-- cooker.py:2142-2147, 2154-2173: at the beginning, with `threads` for `BB_NUMBER_PARSE_THREADS`. -/
def start (threads : Nat) (willparse fromcache : List Job) : S where
  procs := (chunks (min threads willparse.length) willparse).map fun l => ⟨l, [], true, true⟩
  pipe := []
  left := fromcache
  loaded := []
  parsed := []
  phase := .cached
  empty := false
  fin := none
  lost := []

/-- What happens. -/
inductive Ev where
  /-- A process parses its next recipe and puts the result. -/
  | work (i : Nat)
  /-- A result goes from the buffer of a process into the pipe. -/
  | feed (i : Nat)
  /-- A process without jobs ends. -/
  | exit (i : Nat)
  /-- A process is killed. -/
  | kill (i : Nat)
  /-- The collector goes on; of the processes that have ended it misses some. -/
  | main (missed : List Nat)
deriving DecidableEq

/-- cooker.py:2062-2078: `jobs.pop()`, `parse` and `results.put`. -/
def work (p : Proc) : Proc :=
  if p.alive then
    match p.jobs.getLast? with
    | some j => { p with jobs := p.jobs.dropLast, buf := p.buf ++ [j] }
    | none => p
  else p

/-- cooker.py:2058, 2065-2066, 2079-2081: the loop ends without jobs; `join_thread` waits for the buffer. -/
def exit (p : Proc) : Proc := if p.jobs = [] ∧ p.buf = [] then { p with alive := false } else p

/-- cooker.py:2258-2261: processes that have ended are taken from the list. -/
def reapAt (missed : List Nat) (x : Proc × Nat) : Proc :=
  if x.1.alive = false ∧ x.2 ∉ missed then { x.1 with listed := false } else x.1

/-- cooker.py:2258-2261, for all processes of the list. -/
def reap (missed : List Nat) (l : List Proc) : List Proc := l.zipIdx.map (reapAt missed)

/-- cooker.py:2250-2276 with 2279-2291, 2352-2365: the next step of the collector.  `total` is the number of recipes to parse. -/
def main (ok : Job → Bool) (total : Nat) (missed : List Nat) (s : S) : S :=
  match s.phase with
  | .cached =>
    match s.left with
    | j :: l => { s with left := l, loaded := s.loaded ++ [j] }
    | [] => if total = 0 then { s with fin := some .clean } else { s with phase := .top }
  | .top =>
    if s.procs.any Proc.listed || !s.empty then { s with procs := reap missed s.procs, phase := .get }
    else if total ≤ s.parsed.length then { s with fin := some .clean }
    else { s with fin := some .died }
  | .get =>
    if total ≤ s.parsed.length then { s with fin := some .clean }
    else match s.pipe with
      | [] => { s with empty := true, phase := .top }
      | j :: l =>
        if ok j then { s with pipe := l, parsed := s.parsed ++ [j], empty := false, phase := .top }
        else { s with pipe := l, fin := some (.failed j) }

/-- One event; after the end nothing is looked at any more. -/
def step (ok : Job → Bool) (total : Nat) (s : S) (e : Ev) : S :=
  if s.fin.isSome then s
  else match e with
    | .work i => { s with procs := s.procs.modify i work }
    | .feed i =>
      match s.procs[i]? with
      | none => s
      | some p =>
        match p.buf with
        | [] => s
        | j :: l => if p.alive then { s with procs := s.procs.set i { p with buf := l }, pipe := s.pipe ++ [j] } else s
    | .exit i => { s with procs := s.procs.modify i exit }
    | .kill i =>
      match s.procs[i]? with
      | none => s
      | some p => { s with procs := s.procs.set i { p with jobs := [], buf := [], alive := false }, lost := s.lost ++ p.jobs ++ p.buf }
    | .main missed => main ok total missed s

/-- A history of events. -/
def run (ok : Job → Bool) (total : Nat) (s : S) (evs : List Ev) : S := evs.foldl (step ok total) s

end Bb.Parser
