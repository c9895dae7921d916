/-!
# Commands under a lock

Model of scripts/lockrun.py with `fileslocked` of bitbake/lib/bb/utils.py.  Commands are of any type, with the code with which each ends as a parameter: 0 to 255, or the negative number of the signal that killed it.  The script is a
list of commands that the shell runs one after another, without `set -e` and without words like `exit`.  Taking the lock succeeds.
-/

namespace Isar.Scripts.LockRun

/-- lockrun.py:36-44: what happens, in order -/
inductive Event (α : Type)
  | acquire (shared : Bool)
  | command (c : α)
  | release
deriving DecidableEq

/-- lockrun.py:42, `sh -c` for the script: the events, and the code of the last command; an empty script succeeds -/
def shell {α : Type} (code : α → Int) : List α → List (Event α) × Int
  | [] => ([], 0)
  | [c] => ([.command c], code c)
  | c :: d :: cs =>
    let (events, r) := shell code (d :: cs)
    (.command c :: events, r)

/-- lockrun.py:41-44: `subprocess.run` with `check`, and the code for `exit`, of which the system keeps the last eight bits -/
def body {α : Type} (code : α → Int) (script : List α) : List (Event α) × Int :=
  let (events, r) := shell code script
  if r ≠ 0 then (events, r % 256) else (events, 0)

/-- lockrun.py:36-44: the body between taking and leaving the lock, also when it ends with `exit` (`finally` of `fileslocked`) -/
def lockrun {α : Type} (code : α → Int) (read : Bool) (script : List α) : List (Event α) × Int :=
  let (events, r) := body code script
  (.acquire read :: events ++ [.release], r)

end Isar.Scripts.LockRun
