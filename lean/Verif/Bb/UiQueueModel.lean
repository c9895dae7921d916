/-!
# The queue of events of the user interface

Model of bitbake/lib/bb/server/process.py, `BBUIEventQueue`: a thread that puts in what comes from the server and the user interface that takes
it out, each step on its own.  `eventQueueNotify` is a flag; `wait` returns when it is set or when the time is over.  The lock is assumed to be
granted in the end (bb/utils.py, `lock_timeout`, ends the process otherwise).
-/

namespace Bb.UiQueue

/-- Who has the lock, and where it is. -/
inductive Lock where
  | free
  /-- process.py:811-813: before the event is appended, before the flag is set, before the lock is given back -/
  | put0 (e : Nat)
  | put1
  | put2
  /-- process.py:796-802: before the test, before the event is taken, before the second test, before the flag is cleared, at the end -/
  | get0
  | get1
  | get2
  | get3
  | get4
deriving DecidableEq

structure S where
  queue : List Nat := []
  /-- `eventQueueNotify` -/
  flag : Bool := false
  lock : Lock := .free
  /-- the user interface is in `waitEvent` after `wait` has returned, and whether that was because of the flag -/
  woken : Option Bool := none
  /-- what came from the server -/
  sent : List Nat := []
  /-- what the calls of the user interface gave, the last one at the end -/
  got : List (Option Nat) := []
  /-- for each of them, whether it had been woken by the flag -/
  flags : List Bool := []
deriving DecidableEq

/-- The steps of the two threads. -/
inductive Step : S → S → Prop where
  /-- process.py:811 -/
  | putLock (s : S) (e : Nat) : s.lock = .free → Step s { s with lock := .put0 e, sent := s.sent ++ [e] }
  /-- process.py:812 -/
  | append (s : S) (e : Nat) : s.lock = .put0 e → Step s { s with lock := .put1, queue := s.queue ++ [e] }
  /-- process.py:813 -/
  | set (s : S) : s.lock = .put1 → Step s { s with lock := .put2, flag := true }
  | putUnlock (s : S) : s.lock = .put2 → Step s { s with lock := .free }
  /-- process.py:807: the flag is set, whoever has the lock -/
  | wake (s : S) : s.woken = none → s.flag = true → Step s { s with woken := some true }
  /-- process.py:807: the time is over -/
  | timeOver (s : S) : s.woken = none → Step s { s with woken := some false }
  /-- process.py:796 -/
  | getLock (s : S) : s.lock = .free → s.woken.isSome → Step s { s with lock := .get0 }
  /-- process.py:797-798 -/
  | empty (s : S) (w : Bool) : s.lock = .get0 → s.queue = [] → s.woken = some w →
      Step s { s with lock := .get4, got := s.got ++ [none], flags := s.flags ++ [w] }
  | notEmpty (s : S) : s.lock = .get0 → s.queue ≠ [] → Step s { s with lock := .get1 }
  /-- process.py:800 -/
  | pop (s : S) (e : Nat) (q : List Nat) (w : Bool) : s.lock = .get1 → s.queue = e :: q → s.woken = some w →
      Step s { s with lock := .get2, queue := q, got := s.got ++ [some e], flags := s.flags ++ [w] }
  /-- process.py:801 -/
  | last (s : S) : s.lock = .get2 → s.queue = [] → Step s { s with lock := .get3 }
  | more (s : S) : s.lock = .get2 → s.queue ≠ [] → Step s { s with lock := .get4 }
  /-- process.py:802 -/
  | clear (s : S) : s.lock = .get3 → Step s { s with lock := .get4, flag := false }
  | getUnlock (s : S) : s.lock = .get4 → Step s { s with lock := .free, woken := none }

inductive Reach : S → Prop where
  | init : Reach {}
  | step (s s' : S) : Reach s → Step s s' → Reach s'

end Bb.UiQueue
