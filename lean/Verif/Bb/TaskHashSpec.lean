import Verif.Bb.TaskHashModel
/-!
# Specification for the hashes of tasks
-/

namespace Bb.TaskHash
open Py

/-- The dependencies that count. -/
def Counts (b : Build) (t d : Str) : Prop := d ∈ (b.task t).deps ∧ b.keep t d = true

/-- `x` is the hash of `t`: the hash it is locked to, or the hash of its data with the hashes of the
dependencies that count. -/
inductive HashOf (hash : Str → Str) (b : Build) : Str → Str → Prop where
  | locked {t l : Str} : b.locked t = some l → HashOf hash b t l
  | computed {t : Str} (h : Str → Str) : b.locked t = none →
      (∀ d, Counts b t d → HashOf hash b d (h d)) → HashOf hash b t (hash (hashData b t h))

/-- `u` is `t`, or counts for the hash of `t`, directly or not.  What is below a locked task does not
count. -/
inductive Reaches (b : Build) (t : Str) : Str → Prop where
  | refl : Reaches b t t
  | step {u d : Str} : Reaches b t u → b.locked u = none → Counts b u d → Reaches b t d

/-- The data hashed for a task and all that counts for it. -/
def Hashed (hash : Str → Str) (b : Build) (t data : Str) : Prop :=
  ∃ u h, Reaches b t u ∧ b.locked u = none ∧ (∀ d, Counts b u d → HashOf hash b d (h d)) ∧
    data = hashData b u h

/-- Different data hashed for `t` in the two builds have different hashes. -/
def NoCollision (hash : Str → Str) (b b' : Build) (t : Str) : Prop :=
  ∀ x y, Hashed hash b t x → Hashed hash b' t y → hash x = hash y → x = y

/-- All dependencies are tasks of the build, and there is no cycle. -/
def WellFormed (b : Build) : Prop :=
  (∀ t, t ∈ b.tids → ∀ d, d ∈ (b.task t).deps → d ∈ b.tids) ∧
    ∃ rank : Str → Nat, ∀ t d, d ∈ (b.task t).deps → rank d < rank t

/-- The text that the files and the taint of a task add. -/
def ownText (t : Task) : Str :=
  ((sortBy fileLe t.files).map fileText).flatten ++ taintText (taint t)

/-- The two tasks are the same, but their dependencies may be in another order. -/
def SameTask (t t' : Task) : Prop :=
  t.deps.Perm t'.deps ∧ t' = { t with deps := t'.deps }

/-- `r` is what the list says for a task: the hash of its last entry for the task, or nothing. -/
def LockIs (sigs : List (Str × Str × Str)) (pn name : Str) (r : Option Str) : Prop :=
  match r with
  | none => ∀ h, (pn, name, h) ∉ sigs
  | some h => ∃ before after, sigs = before ++ (pn, name, h) :: after ∧ ∀ h', (pn, name, h') ∉ after

end Bb.TaskHash
