import Verif.Bb.RqSceneModel
import Verif.Bb.RqGraphSpec
/-!
# Specification of the graph of setscene tasks
-/

namespace Bb.Rq.Spec

variable {T : Type}

/-- `Via g S a b`: `a` depends on `b`, directly or through tasks that are not in `S`. -/
inductive Via (g : Graph T) (S : List T) : T → T → Prop where
  | one {a b : T} (h : b ∈ g.deps a) : Via g S a b
  | more {a b c : T} (r : Via g S a b) (hb : b ∉ S) (h : c ∈ g.deps b) : Via g S a c

/-- A task that the build needs for its own sake: nothing depends on it, or it is a target that
cannot be restored. -/
def Root (g : Graph T) (S targets : List T) (t : T) : Prop :=
  t ∈ g.tasks ∧ ((∀ x ∈ g.tasks, t ∉ g.deps x) ∨ (t ∈ targets ∧ t ∉ S))

end Bb.Rq.Spec
