import Verif.Bb.DataModel
/-!
# What a user expects of the datastore
-/

namespace Bb.Data.Spec
open Py Bb.Data

/-- One empty datastore. -/
def init : World := { stores := [{ dict := [], line := [0], overridedata := [] }], objs := [] }

/-- The operations on datastores.  `ov` is the list of active overrides at the time. -/
inductive Op where
  | copy (i : Nat)
  | set (ov : List Str) (i : Nat) (var value : Str) (parsing : Bool)
  | del (i : Nat) (var : Str)
  | setFlag (i : Nat) (var flag value : Str)
  | setWeakest (i : Nat) (var value : Str)
  | delFlag (i : Nat) (var flag : Str)
  | delFlags (i : Nat) (var : Str)
deriving DecidableEq, Repr

/-- The program.  A fatal error ends it; then nothing is changed. -/
def Op.act (w : World) : Op → World
  | .copy i => createCopy w i
  | .set ov i var value parsing => (setVar w ov i var value parsing).getD w
  | .del i var => delVar w i var
  | .setFlag i var flag value => setVarFlag w i var flag value
  | .setWeakest i var value => setDefault w i var value
  | .delFlag i var flag => delVarFlag w i var flag
  | .delFlags i var => delVarFlags w i var

/-- The datastore that is written. -/
def Op.target : Op → Option Nat
  | .copy _ => none
  | .set _ i _ _ _ | .del i _ | .setFlag i _ _ _ | .setWeakest i _ _ | .delFlag i _ _
  | .delFlags i _ => some i

/-- An operation on a datastore that does not exist does nothing. -/
def Op.run (w : World) (op : Op) : World :=
  if op.target.all fun i => decide (i < w.stores.length) then op.act w else w

/-- A history. -/
def runAll (w : World) (ops : List Op) : World := ops.foldl Op.run w

/-- The operation sets the flag `export` or `unexport`. -/
def Op.exports : Op → Prop
  | .setFlag _ _ flag _ => flag = "export".toList ∨ flag = "unexport".toList
  | _ => False

/-! ### The value of one variable -/

/-- Is this an assignment, and not a default or an operator? -/
def _root_.Bb.Data.Line.isAssign : Line → Bool
  | .weakest _ | .op _ _ _ => false
  | _ => true

/-- The value after an assignment. -/
def assignTo (v : Option Str) : Line → Option Str
  | .assign x => some x
  | .weak x => some (v.getD x)
  | .plusAfter x => some (v.getD [] ++ ' ' :: x)
  | .plusBefore x => some (x ++ ' ' :: v.getD [])
  | .dotAfter x => some (v.getD [] ++ x)
  | .dotBefore x => some (x ++ v.getD [])
  | _ => v

/-- The base value: what the assignments give, in their order. -/
def baseValue (ls : List Line) : Option Str := (ls.filter Line.isAssign).foldl assignTo none

/-- The value of a default. -/
def _root_.Bb.Data.Line.weakest? : Line → Option Str
  | .weakest x => some x
  | _ => none

/-- An operator is active: it has no override, or all parts of its override are active. -/
def Active (ov : List Str) (o : Option Str) : Prop :=
  o = none ∨ o = some [] ∨ ∃ x, o = some x ∧ ∀ p ∈ splitOn ':' x, p ∈ ov

instance (ov : List Str) (o : Option Str) : Decidable (Active ov o) :=
  match o with
  | none => .isTrue (.inl rfl)
  | some x => decidable_of_iff (x = [] ∨ ∀ p ∈ splitOn ':' x, p ∈ ov)
      ⟨fun h => h.elim (fun e => .inr (.inl (e ▸ rfl))) fun h => .inr (.inr ⟨x, rfl, h⟩),
       fun h => h.elim (fun e => nomatch e) fun h => h.elim
        (fun e => .inl (Option.some.inj e)) fun ⟨_, e, h⟩ => .inr (Option.some.inj e ▸ h)⟩

/-- The value of an active operator of this kind. -/
def _root_.Bb.Data.Line.op? (ov : List Str) (k : Kw) : Line → Option Str
  | .op k' o x => if k' = k ∧ Active ov o then some x else none
  | _ => none

/-- The last default. -/
def defaultValue (ls : List Line) : Option Str :=
  (ls.filterMap Line.weakest?).getLast?

/-- The operators of one kind that are active, in their order. -/
def operators (ov : List Str) (k : Kw) (ls : List Line) : List Str :=
  ls.filterMap (Line.op? ov k)

/-- The value before expansion: the appends after the base value, the last prepend in front. -/
def finalValue (ov : List Str) (ls : List Line) : Option Str :=
  let b := (baseValue ls).or (defaultValue ls)
  let apps := operators ov .app ls
  let pres := operators ov .pre ls
  if b = none ∧ apps = [] ∧ pres = [] then none
  else some (pres.reverse.flatten ++ b.getD [] ++ apps.flatten)

/-! ### The value of a variable with overrides -/

/-- `V` or `V:o`. -/
def ovName (var : Str) : Option Str → Str
  | none => var
  | some o => var ++ ':' :: o

/-- The lines `V = "x"` and `V:o = "x"` of a configuration file, in their order. -/
def assignAll (w : World) (i : Nat) (var : Str) : List (Option Str × Str) → Option World
  | [] => some w
  | a :: as => (setVar w [] i (ovName var a.1) a.2 true).bind fun w => assignAll w i var as

/-- The last value that was given for `V` or `V:o`. -/
def lastOf (o : Option Str) (as : List (Option Str × Str)) : Option Str :=
  ((as.filter fun a => decide (a.1 = o)).map (·.2)).getLast?

/-- The active override that wins: the last one in the list of active overrides for which there is
a value.  An override that is repeated in the list counts at its first place. -/
def winner (ov : List Str) (as : List (Option Str × Str)) : Option Str :=
  ov.eraseDups.reverse.find? fun o => (lastOf (some o) as).isSome

/-- The value by the winner, or without an override. -/
def overrideValue (ov : List Str) (as : List (Option Str × Str)) : Option Str :=
  lastOf (winner ov as) as

/-- An override of one part: it begins with a small letter or a digit, and is not an operator. -/
def Simple (o : Str) : Prop :=
  ':' ∉ o ∧ (∃ c t, o = c :: t ∧ ('a' ≤ c ∧ c ≤ 'z' ∨ '0' ≤ c ∧ c ≤ '9')) ∧ o ≠ "append".toList ∧ o ≠ "prepend".toList ∧ o ≠ "remove".toList

instance : DecidablePred Simple := fun o =>
  match o with
  | [] => .isFalse fun h => (nomatch h.2.1)
  | c :: t => decidable_of_iff (':' ∉ c :: t ∧ ('a' ≤ c ∧ c ≤ 'z' ∨ '0' ≤ c ∧ c ≤ '9') ∧
      c :: t ≠ "append".toList ∧ c :: t ≠ "prepend".toList ∧ c :: t ≠ "remove".toList)
      ⟨fun h => ⟨h.1, ⟨c, t, rfl, h.2.1⟩, h.2.2⟩,
       fun ⟨h1, ⟨_, _, e, h⟩, h3⟩ => ⟨h1, (List.cons.inj e).1 ▸ h, h3⟩⟩

end Bb.Data.Spec
