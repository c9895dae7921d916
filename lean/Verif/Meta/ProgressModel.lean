import Verif.Py.Str
/-!
# Model of `meta/lib/rootfs_progress.py` and of `bitbake/lib/bb/progress.py`

Floating point numbers are exact rationals here.  Texts are sequences of characters; the methods
`write` are called with any pieces of the output of a command.
-/

namespace Isar.Progress
open Py

/-! ## Lines -/

/-- `breakpos = s.find(c) + 1`, `s[:breakpos]` and `s[breakpos:]`, or nothing if the character is
not found; rootfs_progress.py:24-28, progress.py:95-102. -/
def cutAt (c : Char) : Str → Option (Str × Str)
  | [] => none
  | x :: s => if x = c then some ([x], s) else (cutAt c s).map fun p => (x :: p.1, p.2)

/-! ## `rootfs_progress.py` -/

/-- The handlers. -/
inductive Kind
  | base | download | install | initrd
deriving DecidableEq, Repr

/-- A handler.  `out` is what was written to the log, `ups` the values given to
`self._progress.update`; rootfs_progress.py:10-18. -/
structure Handler where
  out : Str := []
  ups : List Rat := [0]
  buf : Str := []
  num : Nat := 0
  pkg : Nat := 0
  setUp : Nat := 0
  prepare : Bool := true
deriving DecidableEq, Repr

/-- The longest run of digits at the start, not empty, and the rest: `[0-9]+`. -/
def digits (s : Str) : Option (Nat × Str) :=
  if s.takeWhile Char.isDigit = [] then none
  else some (decVal (s.takeWhile Char.isDigit), s.dropWhile Char.isDigit)

/-- The text after a prefix. -/
def after (p s : Str) : Option Str := if startsWith s p then some (s.drop p.length) else none

/-- `re.search(r'^([0-9]+) upgraded, ([0-9]+) newly installed', line)` and the sum of the groups;
rootfs_progress.py:36-38. -/
def pkgsTotal (line : Str) : Option Nat := do
  let (a, r) ← digits line
  let r ← after " upgraded, ".toList r
  let (b, r) ← digits r
  let _ ← after " newly installed".toList r
  pure (a + b)

/-- `re.search(r'^Total number of modules: ([0-9]+)', line)` and `max(1, n // 2)`;
rootfs_progress.py:77-80. -/
def modulesTotal (line : Str) : Option Nat := do
  let r ← after "Total number of modules: ".toList line
  let (a, _) ← digits r
  pure (max 1 (a / 2))

/-- `process_total`: rootfs_progress.py:35-39 and 76-81. -/
def total (k : Kind) (line : Str) : Option Nat :=
  match k with
  | .initrd => modulesTotal line
  | _ => pkgsTotal line

/-- `self._progress.update(99 * a / b)`; the error is ZeroDivisionError. -/
def report (h : Handler) (a b : Nat) : Except Unit Handler :=
  if b = 0 then .error () else .ok { h with ups := h.ups ++ [(99 * a : Rat) / b] }

/-- `process_line`: rootfs_progress.py:41-42, 49-52, 60-69 and 83-94. -/
def processLine (k : Kind) (h : Handler) (line : Str) : Except Unit Handler :=
  match k with
  | .base => .ok h
  | .download =>
    if startsWith line "Get:".toList then
      report { h with pkg := h.pkg + 1 } (h.pkg + 1) h.num
    else .ok h
  | .install =>
    if startsWith line "Preparing to unpack".toList then
      report { h with pkg := h.pkg + 1 } (h.pkg + 1 + h.setUp) (h.num * 2)
    else if startsWith line "Setting up".toList then
      report { h with setUp := h.setUp + 1 } (h.pkg + (h.setUp + 1)) (h.num * 2)
    else .ok h
  | .initrd =>
    if startsWith line "Adding module".toList || startsWith line "dracut-install: cp".toList ||
        startsWith line "dracut-install: Failed to find module".toList then
      report { h with pkg := h.pkg + 1 } (h.pkg + 1) h.num
    else if startsWith line "(excluding".toList then
      report { h with pkg := h.pkg + ((splitOn ' ' line).length - 1) }
        (h.pkg + ((splitOn ' ' line).length - 1)) h.num
    else .ok h

/-- What is done with one complete line; rootfs_progress.py:30-33 and 35-39. -/
def handleLine (k : Kind) (h : Handler) (line : Str) : Except Unit Handler :=
  if h.prepare then
    match total k line with
    | some n => .ok { h with num := n, prepare := false }
    | none => .ok h
  else processLine k h line

/-- The loop of `write`, rootfs_progress.py:23-33, for at most `n` rounds (`write_rounds` shows that
they are enough). -/
def drain (k : Kind) : Nat → Handler → Except Unit Handler
  | 0, h => .ok h
  | n + 1, h =>
    match cutAt '\n' h.buf with
    | none => .ok h
    | some (line, rest) =>
      match handleLine k { h with buf := rest } line with
      | .error e => .error e
      | .ok h' => drain k n h'

/-- `write`, rootfs_progress.py:20-33. -/
def write (k : Kind) (h : Handler) (s : Str) : Except Unit Handler :=
  drain k (h.buf.length + s.length + 1) { h with out := h.out ++ s, buf := h.buf ++ s }

/-- A sequence of calls of `write`; the first exception ends it. -/
def writes (k : Kind) (h : Handler) : List Str → Except Unit Handler
  | [] => .ok h
  | c :: cs =>
    match write k h c with
    | .error e => .error e
    | .ok h' => writes k h' cs

/-! ## `MultiStageProgressReporter` -/

/-- A reporter without the debug mode; progress.py:144-191.  `stage` is `self._stage + 1`,
`fired` the progress events. -/
structure Reporter where
  weights : List Rat
  stage : Nat := 0
  base : Rat := 0
  stageTotal : Rat := 0
  fired : List Rat := [0]
deriving Repr, DecidableEq

/-- The constructor, progress.py:169-175; an exception if the sum of the weights is 0 although there
are some. -/
def Reporter.new (ws : List Rat) : Except Unit Reporter :=
  if ws.sum = 0 ∧ ws ≠ [] then .error ()
  else .ok { weights := ws.map (· / ws.sum) }

/-- `next_stage`, progress.py:193-218; the total 0 stands for None. -/
def Reporter.next (r : Reporter) (stageTotal : Rat := 0) : Reporter :=
  let r := { r with stage := r.stage + 1, stageTotal := stageTotal }
  if r.stage = 1 then r
  else
    let b := if r.stage - 1 < r.weights.length then (r.weights.take (r.stage - 1)).sum * 100 else 100
    { r with base := b, fired := r.fired ++ [b] }

/-- `update`, progress.py:220-241. -/
def Reporter.update (r : Reporter) (p : Rat) : Reporter :=
  let p := if r.stageTotal = 0 then p else p / r.stageTotal * 100
  if r.stage = 0 then r
  else
    let v := if h : r.stage - 1 < r.weights.length then r.base + p * r.weights[r.stage - 1]
      else r.base
    if v = 0 then r
    else { r with fired := r.fired ++ [if v > 100 then 100 else v] }

/-! ## `LineFilterProgressHandler` -/

/-- What a subclass does in `writeline`: `filter_color` and the decision whether the line is kept
are parameters; progress.py:107-111. -/
abbrev Filter := Str → Bool

/-- A handler: `out` is the log. -/
structure Lines where
  out : Str := []
  buf : Str := []
deriving DecidableEq, Repr

/-- `breakpos` of the loop: at the first line feed, or, if there is none, at the first carriage
return; progress.py:95-102. -/
def cutLine (s : Str) : Option (Str × Str) :=
  match cutAt '\n' s with
  | some p => some p
  | none => cutAt '\r' s

/-- "Drop any line feeds and anything that precedes them": the text after the last carriage return,
if there is one that is not the last character; progress.py:103-106. -/
def dropCr (line : Str) : Str :=
  let tail := (line.reverse.takeWhile (· ≠ '\r')).reverse
  if line.contains '\r' && tail ≠ [] then tail else line

/-- The loop of `LineFilterProgressHandler.write`, progress.py:94-108. -/
def drainL (keep : Filter) : Nat → Lines → Lines
  | 0, h => h
  | n + 1, h =>
    match cutLine h.buf with
    | none => h
    | some (line, rest) =>
      drainL keep n { out := if keep (dropCr line) then h.out ++ dropCr line else h.out, buf := rest }

/-- `LineFilterProgressHandler.write`, progress.py:92-108. -/
def writeL (keep : Filter) (h : Lines) (s : Str) : Lines :=
  drainL keep (h.buf.length + s.length + 1) { h with buf := h.buf ++ s }

end Isar.Progress
