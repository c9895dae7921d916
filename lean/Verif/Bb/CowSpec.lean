import Verif.Bb.CowModel
/-!
# What a user expects of copy-on-write dictionaries

The specification has no classes, attributes or places: a dictionary has changes of its own, and
where it has none it shows what its parent shows.
-/

namespace Bb.Cow.Spec
open Py Bb.Cow

/-- What a user can see of a value. -/
inductive Seen (I M : Type) where
  | imm (i : I)
  | obj (m : M)
  | method
deriving DecidableEq, Repr

variable {I M : Type}

/-- What is seen of a value: the content for a mutable object. -/
def see (h : Heap I M) : Val I → Option (Seen I M)
  | .imm i => some (.imm i)
  | .marker => none
  | .ref l => (h.objs[l]?).map .obj
  | .method => some .method

/-- What dictionary `n` shows for a key. -/
def view (h : Heap I M) (n : Nat) (key : Str) : Option (Seen I M) :=
  (h.getitem n key true).2.bind (see h)

/-- The operations of a user. -/
inductive Op (I M : Type) where
  | copy (n : Nat)
  | set (n : Nat) (key : Str) (v : New I M)
  | del (n : Nat) (key : Str)
  /-- `d[key]`, with the right to change the result. -/
  | read (n : Nat) (key : Str)
  | update (n : Nat) (key : Str) (f : M → M)
  | revert (n : Nat) (key : Str)

/-- The program. -/
def Op.run (h : Heap I M) : Op I M → Heap I M
  | .copy n => h.copy n
  | .set n k v => h.setitem n k v
  | .del n k => h.delitem n k
  | .read n k => (h.getitem n k false).1
  | .update n k f => h.update n k f
  | .revert n k => (h.revertitem n k).getD h

/-- A history. -/
def runAll (h : Heap I M) (ops : List (Op I M)) : Heap I M := ops.foldl Op.run h

/-- The dictionary an operation is made on; making a copy is made on none. -/
def Op.target : Op I M → Option Nat
  | .copy _ => none
  | .set n _ _ | .del n _ | .read n _ | .update n _ _ | .revert n _ => some n

/-- The key an operation is about. -/
def Op.key : Op I M → Option Str
  | .copy _ => none
  | .set _ k _ | .del _ k | .read _ k | .update _ k _ | .revert _ k => some k

/-- A key that is not the name of an attribute of a class, and that does not look like the name
made for a mutable value. -/
def Good (k : Str) : Prop := ¬ endsWith k MUTABLE ∧ k ∉ reserved ∧ ¬ startsWith k ['_', '_']

instance (k : Str) : Decidable (Good k) := by unfold Good; infer_instance

/-- `COWDictBase`, COW.py:192-193: one dictionary with nothing in it. -/
def base : Heap I M := { nodes := [{ mro := [0], own := [] }], objs := [] }

/-! ### Dictionaries without classes -/

/-- The dictionaries: for each its parents (itself first), and what it changes of what the next one
shows: nothing, a new value, or a deletion. -/
structure Tree (I M : Type) where
  size : Nat
  line : Nat → List Nat
  change : Nat → Str → Option (Option (Seen I M))

/-- What a dictionary shows: the nearest change. -/
def Tree.view (t : Tree I M) (n : Nat) (k : Str) : Option (Seen I M) :=
  ((t.line n).findSome? fun m => t.change m k).join

/-- A change. -/
def Tree.put (t : Tree I M) (n : Nat) (k : Str) (c : Option (Option (Seen I M))) : Tree I M :=
  { t with change := fun n' k' => if n' = n ∧ k' = k ∧ n < t.size then c else t.change n' k' }

/-- A new value as a user sees it. -/
def seenNew : New I M → Option (Seen I M)
  | .imm i => some (.imm i)
  | .empty => none
  | .obj m => some (.obj m)

/-- The value after a change in place. -/
def Seen.upd (f : M → M) : Seen I M → Seen I M
  | .obj m => .obj (f m)
  | s => s

/-- The values of the keys for which `plain` is true are immutable, those of the others are
mutable.  Reading a mutable value for a change makes it the dictionary's own. -/
def Op.spec (plain : Str → Bool) (t : Tree I M) : Op I M → Tree I M
  | .copy n =>
    { size := t.size + 1
      line := fun m => if m = t.size then t.size :: t.line n else t.line m
      change := fun m k => if m = t.size then none else t.change m k }
  | .set n k v => t.put n k (some (seenNew v))
  | .del n k => t.put n k (some none)
  | .read n k =>
    if plain k = false ∧ (t.view n k).isSome then t.put n k (some (t.view n k)) else t
  | .update n k f =>
    if plain k = false ∧ (t.view n k).isSome then t.put n k (some ((t.view n k).map (Seen.upd f)))
    else t
  | .revert n k => t.put n k none

/-- A history. -/
def specAll (plain : Str → Bool) (t : Tree I M) (ops : List (Op I M)) : Tree I M :=
  ops.foldl (Op.spec plain) t

/-- The tree with only the base. -/
def Tree.base : Tree I M := { size := 1, line := fun m => if m = 0 then [0] else [], change := fun _ _ => none }

/-- The operation uses a good key, and its value is of the kind of the key; only keys for immutable
values are deleted. -/
def Op.Ok (plain : Str → Bool) : Op I M → Prop
  | .copy _ => True
  | .set _ k (.obj _) => Good k ∧ plain k = false
  | .set _ k _ => Good k ∧ plain k = true
  | .del _ k => Good k ∧ plain k = true
  | .read _ k | .update _ k _ | .revert _ k => Good k

end Bb.Cow.Spec
