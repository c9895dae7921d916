import Verif.Scripts.LockRunModel

/-!
C300: commands under a lock run while it is held, it is always released, and a command that fails is reported.
-/

namespace Isar.Scripts.LockRun

variable {α : Type}

theorem shell_events (code : α → Int) : ∀ script : List α, (shell code script).1 = script.map .command
  | [] => rfl
  | [_] => rfl
  | c :: d :: cs => by
    rw [shell]
    dsimp only
    rw [shell_events code (d :: cs)]
    rfl

theorem shell_code (code : α → Int) : ∀ script : List α, (shell code script).2 = (script.getLast?.map code).getD 0
  | [] => rfl
  | [_] => rfl
  | c :: d :: cs => by
    rw [shell]
    dsimp only
    rw [shell_code code (d :: cs), List.getLast?_cons_cons]

theorem body_events (code : α → Int) (script : List α) : (body code script).1 = script.map .command := by
  unfold body
  dsimp only
  split <;> exact shell_events code script

/-- **C300**: the lock is taken first, in the wanted way, then all commands run in their order, and the lock is released last, however the commands end. -/
theorem held (code : α → Int) (read : Bool) (script : List α) : (lockrun code read script).1 = [.acquire read] ++ script.map .command ++ [.release] := by
  unfold lockrun
  dsimp only
  rw [body_events]
  rfl

theorem code_of (code : α → Int) (read : Bool) (script : List α) : (lockrun code read script).2 = ((script.getLast?.map code).getD 0) % 256 := by
  show (body code script).2 = _
  unfold body
  dsimp only
  rw [shell_code]
  split
  · rfl
  · rename_i h
    rw [Decidable.not_not.mp h]
    rfl

/-- **C300**: a script whose last command fails, by a code or a signal, fails, with the same code if it is one; it succeeds if the last command does.  Missing: earlier commands (`earlier_failure`). -/
theorem last_partial (code : α → Int) (read : Bool) (script : List α) (c : α) (hc : -256 < code c ∧ code c < 256) :
    ((lockrun code read (script ++ [c])).2 = 0 ↔ code c = 0) ∧ (0 ≤ code c → (lockrun code read (script ++ [c])).2 = code c) ∧
    0 ≤ (lockrun code read (script ++ [c])).2 ∧ (lockrun code read (script ++ [c])).2 < 256 := by
  rw [code_of, List.getLast?_concat]
  show (code c % 256 = 0 ↔ code c = 0) ∧ (0 ≤ code c → code c % 256 = code c) ∧ 0 ≤ code c % 256 ∧ code c % 256 < 256
  omega

example : lockrun (fun n : Int => n) true [0, 100] = ([.acquire true, .command 0, .command 100, .release], 100) ∧ (lockrun (fun n : Int => n) false [-9]).2 = 247 := by decide

/-- **C300 is false of the code**: when the last command succeeds, failures of all earlier ones are not reported. -/
theorem earlier_failure (code : α → Int) (read : Bool) (script : List α) (c : α) (hc : code c = 0) : (lockrun code read (script ++ [c])).2 = 0 := by
  rw [code_of, List.getLast?_concat]
  show code c % 256 = 0
  rw [hc]
  rfl

example : lockrun (fun n : Int => n) true [100, 0] = ([.acquire true, .command 100, .command 0, .release], 0) := by decide

end Isar.Scripts.LockRun
