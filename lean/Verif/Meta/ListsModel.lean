import Verif.Py.Str
/-!
# Model of `meta/classes-global/lists.bbclass`

A list variable is represented by the list of its words (`str.split()`), since everything in
this class works on words.  Expansion of other variables is not modelled: the words are those
of the expanded text.
-/

namespace Isar.Lists
open Py

/-- `collections.Counter`: a dictionary in insertion order.  Used by
meta/classes-global/lists.bbclass:63. -/
abbrev Counter := List (Str × Int)

/-- `counter[k] += d` (missing keys count 0), meta/classes-global/lists.bbclass:66-69. -/
def bump (k : Str) (d : Int) : Counter → Counter
  | [] => [(k, d)]
  | (k', n) :: rest => if k' = k then (k', n + d) :: rest else (k', n) :: bump k d rest

/-- `v.startswith('-') or v.startswith('~')`, meta/classes-global/lists.bbclass:65. -/
def isMarker : Str → Bool
  | '-' :: _ => true
  | '~' :: _ => true
  | _ => false

/-- The body of the counting loop, meta/classes-global/lists.bbclass:64-69. -/
def countWord (c : Counter) (v : Str) : Counter :=
  if isMarker v then bump v (-1) (bump v.tail (-1) c) else bump v 1 c

/-- The words returned by `remove_prefixed_items` for the words `value`, without the recursion
flag, meta/classes-global/lists.bbclass:63-70. -/
def removalList (value : List Str) : List Str :=
  ((value.foldl countWord []).filter fun e => e.2 < 1).map (·.1)

/-- A mapping of implied items: the flags of `IMPLIED_<var>`, with the words of each flag.
meta/classes-global/lists.bbclass:99; a missing variable (`None`, lines 100-101) is the empty
mapping, for which the result is empty as well. -/
abbrev Mapping := List (Str × List Str)

/-- `implied_mapping.get(item, '').split()`, meta/classes-global/lists.bbclass:93. -/
def lookup (m : Mapping) (item : Str) : List Str := (m.lookup item).getD []

/-- The list comprehension of line 94: one call per implied item, the set `seen` is shared. -/
def impliedEach (f : Str → List Str → Option (List Str × List Str)) :
    List Str → List Str → Option (List Str × List Str)
  | [], seen => some ([], seen)
  | i :: is, seen =>
    match f i seen with
    | none => none
    | some (o, seen) =>
      match impliedEach f is seen with
      | none => none
      | some (os, seen) => some (o ++ os, seen)

/-- `implied_items`, meta/classes-global/lists.bbclass:86-94.  The first argument bounds the
depth of the recursion (`none`: not finished); the result is the list of words and the set
`seen` after the call. -/
def impliedItems (m : Mapping) : Nat → Str → List Str → Option (List Str × List Str)
  | 0, _, _ => none
  | n + 1, item, seen =>
    if item ∈ seen then some ([], seen)
    else
      match impliedEach (impliedItems m n) (lookup m item) (item :: seen) with
      | none => none
      | some (os, seen) => some (lookup m item ++ os, seen)

/-- The generator of meta/classes-global/lists.bbclass:103: a fresh `seen` for every item of
the value. -/
def impliedAll (m : Mapping) (n : Nat) : List Str → Option (List Str)
  | [] => some []
  | f :: fs =>
    match impliedItems m n f [] with
    | none => none
    | some (o, _) =>
      match impliedAll m n fs with
      | none => none
      | some os => some (o ++ os)

/-- `d.getVar(var)` of a variable with the `:prepend` and `:remove` of
`enable_list_variables` (meta/classes-global/lists.bbclass:41-42).  `rem` and `add` are the
flags `remove_prefixed_items_internal` (55-60, 72) and `add_implied_items_internal` (83, 96,
105), which cut the recursion of the evaluation; `raw` is the value without the two
operations.  The order (first the prepend is expanded, then the words to be removed are
computed and dropped) is that of `DataSmart.getVarFlag`, bitbake/lib/bb/data_smart.py.  The
first argument bounds the nesting of evaluations, `depth` that of `implied_items`. -/
def getVar (m : Mapping) (depth : Nat) (raw : List Str) : Nat → Bool → Bool → Option (List Str)
  | 0, _, _ => none
  | n + 1, rem, add => do
    let pre ← if add then some [] else do
      let value ← getVar m depth raw n rem true
      impliedAll m depth value
    let removes ← if rem then some [] else do
      let value ← getVar m depth raw n true add
      some (removalList value)
    some ((pre ++ raw).filter fun v => v ∉ removes)

end Isar.Lists
