import Verif.Bb.RqGraphModel
/-!
# Specification of the task graph
-/

namespace Bb.Rq.Spec

variable {T : Type} [DecidableEq T]

/-- `Path g a b`: task `a` depends on `b` through one or more dependencies. -/
inductive Path (g : Graph T) : T → T → Prop where
  | one {a b : T} (h : b ∈ g.deps a) : Path g a b
  | more {a b c : T} (h : b ∈ g.deps a) (r : Path g b c) : Path g a c

/-- `a` needs `b`: `b` is `a`, or `a` depends on it. -/
def Needs (g : Graph T) (a b : T) : Prop := a = b ∨ Path g a b

/-- No task depends on itself. -/
def Acyclic (g : Graph T) : Prop := ∀ t ∈ g.tasks, ¬ Path g t t

/-- What the user asked for: a task and all that it needs, or only what it depends on. -/
def Wanted (g : Graph T) : Target T → T → Prop
  | .run a, b => Needs g a b
  | .parents a, b => Path g a b

end Bb.Rq.Spec
