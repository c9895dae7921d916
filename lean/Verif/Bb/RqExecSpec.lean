import Verif.Bb.RqExecModel
/-!
# Specification of the execution of tasks
-/

namespace Bb.Rq.Spec

variable {T : Type}

/-- The result of task `d` is there: the task ran, or had nothing to execute, or its stamp was
current, or the result was restored (or had been restored by an earlier build). -/
def Produced (log : List (Ev T)) (d : T) : Prop :=
  .done d ∈ log ∨ .noexec d ∈ log ∨ .existing d ∈ log ∨
    .sdone d ∈ log ∨ .spresent d ∈ log ∨ .snoexec d ∈ log

/-- An event that begins, or ends, the run of a task. -/
def isBegin : Ev T → Bool
  | .start _ | .sstart _ => true
  | _ => false

def isEnd : Ev T → Bool
  | .done _ | .fail _ | .sdone _ | .sfail _ => true
  | _ => false

/-- The normal run of a task begins, or ends, and the task is one of those of `p`. -/
def begins (p : T → Bool) : Ev T → Bool
  | .start t => p t
  | _ => false

def ends (p : T → Bool) : Ev T → Bool
  | .done t | .fail t => p t
  | _ => false

/-- The normal run of task `t` has begun and not ended.  The log has the latest event first. -/
def InFlight (log : List (Ev T)) (t : T) : Prop :=
  ∃ post pre, log = post ++ .start t :: pre ∧ .done t ∉ post ∧ .fail t ∉ post

/-- Task `t` is dealt with: it was run, or there was no need to. -/
def Finished (log : List (Ev T)) (t : T) : Prop :=
  .done t ∈ log ∨ .noexec t ∈ log ∨ .existing t ∈ log ∨ .covered t ∈ log

end Bb.Rq.Spec
