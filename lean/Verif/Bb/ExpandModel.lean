import Verif.Py.Dict
/-!
# Expansion of variables, and its cache

Model of `DataSmart.expandWithRefs`, `VariableParse.var_sub` and the part of `DataSmart.getVarFlag` that
expands and caches (`bitbake/lib/bb/data_smart.py:97-118`, `453-488` and `775-905`).

Left out: Python expressions `${@...}`, values that are not texts, operators and overrides of variables
(`Bb.Data` has these, with expansion as a parameter), and flags.
-/

namespace Bb.Expand
open Py

/-- data_smart.py:34: a character of a name, `[a-zA-Z0-9\-_+./~:]`. -/
def nameChar (c : Char) : Bool :=
  c.isAlphanum || c == '-' || c == '_' || c == '+' || c == '.' || c == '/' || c == '~' || c == ':'

/-- A piece of a text, as the regular expression `__expand_var_regexp__` finds it. -/
inductive Seg where
  | lit (c : Char)
  | ref (name : Str)
deriving DecidableEq, Repr

/-- data_smart.py:34: the name, if `"$" + s` begins with a reference.  The characters of names do not
include the brace at the end, so that the shortest match is the only one. -/
def refAt : Str → Option Str
  | '{' :: s =>
    if s.takeWhile nameChar ≠ [] ∧ (s.dropWhile nameChar).head? = some '}' then some (s.takeWhile nameChar) else none
  | _ => none

/-- `re.sub`: the pieces of a text from left to right; `skip` characters belong to the last reference. -/
def scan : Nat → Str → List Seg
  | _, [] => []
  | n + 1, _ :: s => scan n s
  | 0, c :: s =>
    if c = '$' then
      match refAt s with
      | some k => .ref k :: scan (k.length + 2) s
      | none => .lit c :: scan 0 s
    else .lit c :: scan 0 s

inductive Err where
  /-- data_smart.py:110-112, the variable references itself. -/
  | self (k : Str)
  /-- The interpreter's limit for nested calls. -/
  | depth
  /-- The loop has not ended yet: not an error, but no result either. -/
  | running
deriving DecidableEq, Repr

/-- The text of a reference. -/
def refText (k : Str) : Str := '$' :: '{' :: (k ++ ['}'])

/-- `self.expand_cache`: the values of variables that have been expanded. -/
abbrev Cache := Dict (Option Str)

/-- data_smart.py:108-118 and 463: one pass over the pieces. -/
def subst (get : Str → Cache → Except Err (Option Str) × Cache) (self : Option Str) :
    List Seg → Cache → Except Err Str × Cache
  | [], c => (.ok [], c)
  | .lit a :: ss, c =>
    match subst get self ss c with
    | (.ok r, c') => (.ok (a :: r), c')
    | (.error e, c') => (.error e, c')
  | .ref k :: ss, c =>
    if self = some k then (.error (.self k), c)
    else
      match get k c with
      | (.error e, c') => (.error e, c')
      | (.ok v, c') =>
        match subst get self ss c' with
        | (.ok r, c'') => (.ok (v.getD (refText k) ++ r), c'')
        | (.error e, c'') => (.error e, c'')

/-- data_smart.py:460-485: the loop of `expandWithRefs`, at most `n` times. -/
def loop (get : Str → Cache → Except Err (Option Str) × Cache) (self : Option Str) :
    Nat → Str → Cache → Except Err Str × Cache
  | 0, _, c => (.error .running, c)
  | n + 1, s, c =>
    if isSub ['$', '{'] s then
      match subst get self (scan 0 s) c with
      | (.error e, c') => (.error e, c')
      | (.ok s', c') => if s' = s then (.ok s, c') else loop get self n s' c'
    else (.ok s, c)

/-- A variable: `_content` and `_defaultval`. -/
structure Var where
  content : Option Str
  default : Option Str
deriving DecidableEq, Repr

/-- data_smart.py:827-831 -/
def raw (vars : Dict Var) (noweak : Bool) (k : Str) : Option Str :=
  match vars.lookup k with
  | none => none
  | some v =>
    match v.content with
    | some t => some t
    | none => if noweak then none else v.default

/-- data_smart.py:775-905, `getVarFlag(k, "_content", noweakdefault=noweak)` with expansion: first from the
cache, whose keys do not tell `noweak`. -/
def getVar (vars : Dict Var) (fuel : Nat) : Nat → Bool → Str → Cache → Except Err (Option Str) × Cache
  | 0, _, _, c => (.error .depth, c)
  | d + 1, noweak, k, c =>
    match c.lookup k with
    | some v => (.ok v, c)
    | none =>
      match raw vars noweak k with
      | none => (.ok none, c.set k none)
      | some t =>
        match loop (getVar vars fuel d false) (some k) fuel t c with
        | (.error e, c') => (.error e, c')
        | (.ok v, c') => (.ok (some v), c'.set k (some v))

/-- data_smart.py:487: `d.expand(s)`. -/
def expand (vars : Dict Var) (fuel depth : Nat) (s : Str) (c : Cache) : Except Err Str × Cache :=
  loop (getVar vars fuel depth false) none fuel s c

/-! ## Histories -/

structure Store where
  vars : Dict Var
  cache : Cache
deriving DecidableEq, Repr

inductive Op where
  /-- `d.setVar(k, t)` -/
  | set (k t : Str)
  /-- `k ??= t` -/
  | weak (k t : Str)
  /-- `d.delVar(k)` -/
  | del (k : Str)
  /-- `d.getVar(k, noweakdefault=noweak)` -/
  | get (noweak : Bool) (k : Str)
  /-- `d.expand(s)` -/
  | expand (s : Str)
deriving DecidableEq, Repr

/-- The flags of a variable, none if it is not there. -/
def varOf (vars : Dict Var) (k : Str) : Var := (vars.lookup k).getD ⟨none, none⟩

/-- data_smart.py:544-628 (`setVar`), 717-742 (`delVar`), 744-773 (`setVarFlag`), and reading: the store
after an operation and what it returns. -/
def step (fuel depth : Nat) (st : Store) : Op → Store × Option (Except Err (Option Str))
  | .set k t => (⟨st.vars.set k { varOf st.vars k with content := some t }, []⟩, none)
  | .weak k t => (⟨st.vars.set k { varOf st.vars k with default := some t }, []⟩, none)
  | .del k => (⟨st.vars.set k ⟨none, none⟩, []⟩, none)
  | .get noweak k =>
    let r := getVar st.vars fuel depth noweak k st.cache
    (⟨st.vars, r.2⟩, some r.1)
  | .expand s =>
    let r := expand st.vars fuel depth s st.cache
    (⟨st.vars, r.2⟩, some (r.1.map some))

def run (fuel depth : Nat) (ops : List Op) : Store := ops.foldl (fun st o => (step fuel depth st o).1) ⟨[], []⟩

end Bb.Expand
