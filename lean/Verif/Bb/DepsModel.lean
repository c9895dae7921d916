import Verif.Bb.VersionModel
/-!
# Model of the dependency string functions of `bitbake/lib/bb/utils.py`
-/

namespace Bb.Deps
open Py

/-- The loop of `explode_deps`, utils.py:175-187; the first argument is `flag`. -/
def explodeGo : Bool → List Str → List Str
  | _, [] => []
  | flag, i :: l =>
    let flag := flag || startsWith i ['(']
    if flag then explodeGo (!endsWith i [')']) l
    else i :: explodeGo false l

/-- `explode_deps`, utils.py:166-188. -/
def explodeDeps (s : Str) : List Str := explodeGo false (words s)

/-- A dictionary: the keys in the order of insertion, with their values. -/
abbrev Dict := List (Option Str × List Str)

/-- `r[k] = []`, for a key that may be present. -/
def Dict.clear (r : Dict) (k : Option Str) : Dict :=
  if r.any (fun x => x.1 = k) then r.map fun x => if x.1 = k then (k, []) else x
  else r ++ [(k, [])]

/-- `if k not in r: r[k] = []` and `r[k].append(v)`, utils.py:241-243. -/
def Dict.append (r : Dict) (k : Option Str) (v : Str) : Dict :=
  if r.any (fun x => x.1 = k) then r.map fun x => if x.1 = k then (k, x.2 ++ [v]) else x
  else r ++ [(k, [v])]

/-- The variables of the loop of `explode_dep_versions2`, utils.py:196-202. -/
structure St where
  r : Dict
  lastdep : Option Str
  lastcmp : Str
  lastver : Str
  incmp : Bool
  inversion : Bool
deriving DecidableEq, Repr

/-- utils.py:218-226: the operator at the start of the text, and the rest; `none` raises an
exception. -/
def takeOp (i : Str) : Option (Str × Str) :=
  if ["<=", "=<", "<<", "==", "!=", ">=", "=>", ">>"].any (fun o => startsWith i o.toList) then
    some (i.take 2, i.drop 2)
  else if ["<", ">", "="].any (fun o => startsWith i o.toList) then some (i.take 1, i.drop 1)
  else none

/-- The part of a turn for text in parentheses, utils.py:233-244. -/
def inVersion (st : St) (i : Str) : St :=
  let close := endsWith i [')']
  let i := if close then i.dropLast else i
  let lastver := if close ∧ st.lastver ≠ [] ∧ i ≠ [] then st.lastver ++ [' '] else st.lastver
  let st := { st with inversion := st.inversion && !close, lastver := lastver }
  if i = [] then st
  else
    { st with
      lastver := st.lastver ++ i
      r := st.r.append st.lastdep (st.lastcmp ++ [' '] ++ (st.lastver ++ i)) }

/-- The part of a turn for a name, utils.py:247-251. -/
def inName (st : St) (i : Str) : St :=
  { st with
    lastdep := some i, lastver := [], lastcmp := []
    r := if st.r.any (fun x => x.1 = some i ∧ x.2 ≠ []) then st.r else st.r.clear (some i) }

/-- One turn of the loop, utils.py:203-251; `none` raises an exception. -/
def turn (st : St) (i : Str) : Option St :=
  let paren := startsWith i ['(']
  let st := { st with incmp := st.incmp || paren }
  let i := if paren then i.drop 1 else i
  if paren ∧ i = [] then some st
  else if st.incmp then
    match takeOp i with
    | none => none
    | some (op, rest) =>
      let st := { st with incmp := false, inversion := true, lastcmp := op }
      if rest = [] then some st else some (inVersion st rest)
  else if st.inversion then some (inVersion st i)
  else some (inName st i)

/-- The loop, utils.py:203-251. -/
def turns : List Str → St → Option St
  | [], st => some st
  | i :: l, st =>
    match turn st i with
    | none => none
    | some st => turns l st

/-- `explode_dep_versions2` with `sort=False`, utils.py:190-255. -/
def explode2 (s : Str) : Option Dict :=
  (turns (words (s.filter (· ≠ ','))) ⟨[], none, [], [], false, false⟩).map (·.r)

/-- The order of the keys, utils.py:253-254. -/
def keyLe (a b : Option Str × List Str) : Bool :=
  match a.1, b.1 with
  | some x, some y => !Version.strLt y x
  | some _, none => false
  | none, _ => true

/-- `explode_dep_versions2` with `sort=True`, utils.py:190-255: comparing None with a string raises
an exception. -/
def explode2Sorted (s : Str) : Option Dict :=
  match explode2 s with
  | none => none
  | some r =>
    if r.any (fun x => x.1 = none) ∧ r.length > 1 then none else some (r.mergeSort keyLe)

/-- The texts for one key in `join_deps`, utils.py:279-287, for lists of versions. -/
def joinOne (d : Str × List Str) : List Str :=
  if d.2 = [] then [d.1] else d.2.map fun v => d.1 ++ " (".toList ++ v ++ ")".toList

/-- `join_deps`, utils.py:274-291, for lists of versions. -/
def joinDeps (deps : List (Str × List Str)) (commasep : Bool) : Str :=
  join (if commasep then ", ".toList else " ".toList) (deps.flatMap joinOne)

end Bb.Deps
