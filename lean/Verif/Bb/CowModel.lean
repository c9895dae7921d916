import Verif.Py.Str
/-!
# Model of the copy-on-write dictionary of `bitbake/lib/bb/COW.py`

The dictionaries are classes; the entries are class attributes.  A copy is a subclass.  The model
has the classes in a list, and each has its method resolution order (its own index first) and the
attributes of its own `__dict__` without those whose name starts with two underscores and which the
interpreter makes.  Mutable values (lists, dictionaries) are objects in a second list; what is in
such an object is of a type `M` that is left open.
-/

namespace Bb.Cow
open Py

/-- `MUTABLE`, COW.py:26. -/
def MUTABLE : Str := ['_', '_', 'm', 'u', 't', 'a', 'b', 'l', 'e', '_', '_']

/-- A value of an attribute. -/
inductive Val (I : Type) where
  /-- `None` or a value of one of `ImmutableTypes`, COW.py:16-24, but not the empty tuple. -/
  | imm (i : I)
  /-- `__marker__`, COW.py:36: the empty tuple. -/
  | marker
  /-- A mutable object, by its place.  Values that are copy-on-write dictionaries themselves are
  not modelled. -/
  | ref (l : Nat)
  /-- A method of the metaclass. -/
  | method
deriving DecidableEq, Repr

/-- A dictionary. -/
structure Node (I : Type) where
  /-- `__mro__`, without `object`. -/
  mro : List Nat
  /-- `__dict__`. -/
  own : List (Str × Val I)
deriving DecidableEq, Repr

/-- All dictionaries and all mutable objects. -/
structure Heap (I M : Type) where
  nodes : List (Node I)
  objs : List M
deriving DecidableEq, Repr

variable {I M : Type}

/-- The names, not starting with two underscores, that the metaclass `COWDictMeta` (COW.py:33-159)
and its base `type` have as attributes. -/
def reserved : List Str :=
  ["cow", "copy", "has_key", "iter", "iterkeys", "itervalues", "iteritems", "mro"].map (·.toList)

/-- The attributes in `cls.__dict__`. -/
def Heap.own (h : Heap I M) (n : Nat) : List (Str × Val I) := ((h.nodes[n]?).map (·.own)).getD []

/-- `cls.__mro__`. -/
def Heap.mro (h : Heap I M) (n : Nat) : List Nat := ((h.nodes[n]?).map (·.mro)).getD []

/-- An attribute of the class or a class before it. -/
def Heap.find (h : Heap I M) (ns : List Nat) (a : Str) : Option (Val I) :=
  ns.findSome? fun n => (h.own n).lookup a

/-- `getattr(cls, a)`; `none` raises `AttributeError`.  Names that start with two underscores and
are not set by the dictionary are not modelled. -/
def Heap.getattr (h : Heap I M) (n : Nat) (a : Str) : Option (Val I) :=
  (h.find (h.mro n) a).or (if a ∈ reserved then some .method else none)

/-- The entries with one more. -/
def put (own : List (Str × Val I)) (a : Str) (v : Val I) : List (Str × Val I) :=
  (a, v) :: own.filter (fun e => e.1 ≠ a)

/-- `setattr(cls, a, v)`. -/
def Heap.setattr (h : Heap I M) (n : Nat) (a : Str) (v : Val I) : Heap I M :=
  { h with nodes := h.nodes.modify n fun c => { c with own := put c.own a v } }

/-- `cow`, `copy`, COW.py:44-50: the heap with a subclass at its end. -/
def Heap.copy (h : Heap I M) (n : Nat) : Heap I M :=
  { h with nodes := h.nodes ++ [{ mro := h.nodes.length :: h.mro n, own := [] }] }

/-- A value in an assignment. -/
inductive New (I M : Type) where
  /-- `None` or an immutable value. -/
  | imm (i : I)
  /-- The empty tuple. -/
  | empty
  /-- A new mutable object with this content. -/
  | obj (m : M)
deriving DecidableEq, Repr

/-- `__setitem__`, COW.py:53-58, without `__hasmutable__`, which is only for warnings. -/
def Heap.setitem (h : Heap I M) (n : Nat) (key : Str) : New I M → Heap I M
  | .imm i => h.setattr n key (.imm i)
  | .empty => h.setattr n key .marker
  | .obj m => ({ h with objs := h.objs ++ [m] }).setattr n (key ++ MUTABLE) (.ref h.objs.length)

/-- `value.copy()` or `copy.copy(value)` and the assignment, COW.py:73-77. -/
def Heap.copyIn (h : Heap I M) (n : Nat) (nkey : Str) : Val I → Heap I M × Val I
  | .ref l =>
    match h.objs[l]? with
    | some m => (({ h with objs := h.objs ++ [m] }).setattr n nkey (.ref h.objs.length),
        .ref h.objs.length)
    | none => (h, .ref l)
  | v => (h.setattr n nkey v, v)

/-- `__getmutable__`, COW.py:60-78; no result is an `AttributeError`. -/
def Heap.getmutable (h : Heap I M) (n : Nat) (key : Str) (readonly : Bool) :
    Heap I M × Option (Val I) :=
  match (h.own n).lookup (key ++ MUTABLE) with
  | some v => (h, some v)
  | none =>
    match h.getattr n (key ++ MUTABLE) with
    | none => (h, none)
    | some v =>
      if readonly then (h, some v)
      else let r := h.copyIn n (key ++ MUTABLE) v; (r.1, some r.2)

/-- `value is cls.__marker__`, COW.py:96. -/
def unmark : Option (Val I) → Option (Val I)
  | some .marker => none
  | v => v

/-- `__getitem__`, COW.py:88-104; no result is a `KeyError` or the default. -/
def Heap.getitem (h : Heap I M) (n : Nat) (key : Str) (readonly : Bool) :
    Heap I M × Option (Val I) :=
  match h.getattr n key with
  | some v => (h, unmark (some v))
  | none => let r := h.getmutable n key readonly; (r.1, unmark r.2)

/-- `__delitem__`, COW.py:106-107. -/
def Heap.delitem (h : Heap I M) (n : Nat) (key : Str) : Heap I M := h.setitem n key .empty

/-- `delattr(cls, a)`; `none` raises `AttributeError`. -/
def Heap.delattr (h : Heap I M) (n : Nat) (a : Str) : Option (Heap I M) :=
  if ((h.own n).lookup a).isSome then
    some { h with nodes := h.nodes.modify n fun c =>
      { c with own := c.own.filter (fun e => e.1 ≠ a) } }
  else none

/-- `__revertitem__`, COW.py:109-112. -/
def Heap.revertitem (h : Heap I M) (n : Nat) (key : Str) : Option (Heap I M) :=
  h.delattr n (if ((h.own n).lookup key).isNone then key ++ MUTABLE else key)

/-- `has_key`, COW.py:117-121, and `__contains__`. -/
def Heap.hasKey (h : Heap I M) (n : Nat) (key : Str) : Bool := (h.getitem n key true).2.isSome

/-- What a user does with a mutable value: `d[key]` and a change of the object in place. -/
def Heap.update (h : Heap I M) (n : Nat) (key : Str) (f : M → M) : Heap I M :=
  let r := h.getitem n key false
  match r.2 with
  | some (.ref l) => { r.1 with objs := r.1.objs.modify l f }
  | _ => r.1

/-- The names of the attributes of a class and the classes before it, in any order and each once:
`dir(cls)` without the names that start with two underscores, which `iter` (COW.py:124-126) leaves
out.  `dir` sorts them. -/
def Heap.dir (h : Heap I M) (n : Nat) : List Str :=
  (((h.mro n).flatMap fun m => (h.own m).map (·.1)).filter
    fun a => !startsWith a ['_', '_']).eraseDups

/-- COW.py:128-129. -/
def stripMutable (a : Str) : Str :=
  if endsWith a MUTABLE then a.take (a.length - MUTABLE.length) else a

/-- `iterkeys`, COW.py:123-132 and 148-149. -/
def Heap.iterkeys (h : Heap I M) (n : Nat) : List Str := (h.dir n).map stripMutable

/-- `iteritems(True)`, COW.py:123-146 and 156-159. -/
def Heap.iteritems (h : Heap I M) (n : Nat) : List (Str × Val I) :=
  (h.iterkeys n).filterMap fun k => (h.getitem n k true).2.map fun v => (k, v)

end Bb.Cow
