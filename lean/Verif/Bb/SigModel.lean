import Verif.Py.Str
import Verif.Py.Dict
import Verif.Py.Sort
/-!
# Base hashes of tasks

Model of `bitbake/lib/bb/data.py`: `build_dependencies`, `generate_dependencies` and
`generate_dependency_hash`, which make the base hash of every task of a recipe.

What the parsers of the data store and of shell and Python code find in a text (references, called
functions, tests with `bb.utils.contains`) is an input of the model.  Sets are lists in which only
membership counts; they are sorted where the code sorts them.  SHA256 is a parameter.
-/

namespace Bb.Sig
open Py

/-- What a parser finds in a text (`VariableParse`, `PythonParser`, `ShellParser`): the variables it
refers to, the functions it calls, and for every variable the items it tests for with
`bb.utils.contains`. -/
structure Parsed where
  refs : List Str := []
  execs : List Str := []
  contains : List (Str × List Str) := []

/-- A `:remove` of a variable: its text, and what `expandWithRefs` finds in it (data.py:284). -/
structure Removal where
  text : Str
  parsed : Parsed

/-- A variable, a function or a flag, as `build_dependencies` sees it. -/
inductive Entry where
  /-- A function of a Python module (data.py:293-297). -/
  | module (p : Parsed)
  /-- A flag `var[flag]` (data.py:299-307). -/
  | flag (name : Str) (value : Option Str) (p : Parsed)
  /-- A Python function (data.py:315-321). -/
  | python (value : Str) (p : Parsed)
  /-- A shell function: `calls` is what `ShellParser` finds, `p` what the expansion finds
  (data.py:323-331). -/
  | shell (value : Str) (calls : List Str) (p : Parsed) (removes : List Removal)
  /-- A variable (data.py:341-346). -/
  | plain (value : Option Str) (p : Parsed) (removes : List Removal)

/-- The flags of a variable (data.py:308): those with a meaning here, and the names of all. -/
structure Flags where
  vardeps : Option Str := none
  vardepvalue : Option Str := none
  vardepsexclude : Str := []
  prefuncs : Option Str := none
  postfuncs : Option Str := none
  exports : Option Str := none
  vardepvalueexclude : Option Str := none
  names : List Str := []

/-- The data store, and the arguments that `generate_dependencies` makes from it (data.py:377-390). -/
structure Store where
  entry : Str → Entry
  flags : Str → Flags
  /-- The expanded value, for `bb.utils.contains`. -/
  value : Str → Option Str
  keys : List Str
  shelldeps : List Str
  /-- `BB_SIGNATURE_EXCLUDE_FLAGS`. -/
  varflagsexcl : Option Str
  /-- `BB_BASEHASH_IGNORE_VARS`. -/
  ignored : List Str
  tasks : List Str

/-- data.py:273-279: the text for one item. -/
def itemText (words' : List Str) (k item : Str) : Str :=
  "\n".toList ++ k ++ "{".toList ++ item ++ "} = ".toList ++
    (if (words item).all (fun w => decide (w ∈ words')) then "Set".toList else "Unset".toList)

/-- data.py:265-280, `handle_contains`. -/
def handleContains (s : Store) (value : Str) (contains : List (Str × List Str)) (exclusions : List Str) :
    Str :=
  value ++ ((sortSet (contains.map (·.1))).map fun k =>
    if k ∈ exclusions ∨ k ∈ s.ignored then []
    else ((sortSet ((contains.lookup k).getD [])).map
      (itemText (words ((s.value k).getD [])) k)).flatten).flatten

/-- data.py:282-289, `handle_remove`: the value. -/
def removeText (s : Store) (exclusions : List Str) : List Removal → Str → Str
  | [], value => value
  | r :: l, value => removeText s exclusions l
      (handleContains s (value ++ "\n_remove of ".toList ++ r.text) r.parsed.contains exclusions)

/-- The order of removals (data.py:283: `sorted(removes)`). -/
def sortRemoves (l : List Removal) : List Removal := sortBy (fun a b => strLe a.text b.text) l

/-- data.py:286-287: what `handle_remove` adds to the dependencies.  `deps |= r2.references` changes
the set of the caller, but then `deps = deps | ...` makes a new set that only `handle_remove` sees, so
that the first round is the only one with an effect. -/
def removeRefs : List Removal → List Str
  | [] => []
  | r :: _ => r.parsed.refs

/-- The functions called that are known: `keys & execs`. -/
def known (s : Store) (execs : List Str) : List Str := execs.filter fun e => decide (e ∈ s.keys)

/-- The words of a flag, if it is set. -/
def flagWords (f : Option Str) : List Str := words (f.getD [])

/-- `value.replace(excl, '')`. -/
def dropAll (excl : Str) : Nat → Str → Str
  | 0, s => s
  | _ + 1, [] => []
  | n + 1, c :: s =>
    if startsWith (c :: s) excl then dropAll excl n ((c :: s).drop excl.length) else c :: dropAll excl n s

/-- data.py:348-352. -/
def dropExcluded (f : Flags) (value : Str) : Str :=
  match f.vardepvalueexclude with
  | none => value
  | some x => (splitOn '|' x).foldl (fun v e => if e = [] then v else dropAll e (v.length + 1) v) value

/-- data.py:312-346: the dependencies and the value, before the flags. -/
def bodyDeps (s : Store) (f : Flags) : Entry → List Str × Str
  | .python v p =>
    match f.vardepvalue with
    | some x => ([], x)
    | none => (p.refs ++ known s p.execs ++ flagWords f.prefuncs ++ flagWords f.postfuncs ++
        flagWords f.exports, handleContains s v p.contains (words f.vardepsexclude))
  | .shell v calls p removes =>
    match f.vardepvalue with
    | some x => ([], x)
    | none => (s.shelldeps ++ p.refs ++ known s calls ++ known s p.execs ++
        removeRefs (sortRemoves removes) ++ flagWords f.prefuncs ++ flagWords f.postfuncs ++
        flagWords f.exports,
        removeText s (words f.vardepsexclude) (sortRemoves removes)
          (handleContains s v p.contains (words f.vardepsexclude)))
  | .plain v p removes =>
    match f.vardepvalue with
    | some x => ([], x)
    | none => (p.refs ++ known s p.execs ++ removeRefs (sortRemoves removes),
        removeText s (words f.vardepsexclude) (sortRemoves removes)
          (handleContains s (v.getD []) p.contains (words f.vardepsexclude)))
  | .module _ => ([], [])
  | .flag _ _ _ => ([], [])

/-- data.py:354-361: the flags that count.  `f not in varflagsexcl` looks for the name in the text of
`BB_SIGNATURE_EXCLUDE_FLAGS`, not in its words. -/
def flagDeps (s : Store) (key : Str) (f : Flags) : List Str :=
  match s.varflagsexcl with
  | none => []
  | some x =>
    if x = [] then []
    else (f.names.filter fun n => !isSub n x).map fun n => key ++ "[".toList ++ n ++ "]".toList

/-- Take away a set. -/
def minus (l m : List Str) : List Str := l.filter fun x => decide (x ∉ m)

/-- data.py:264-371, `build_dependencies`. -/
def buildDeps (s : Store) (key : Str) : List Str × Option Str :=
  match s.entry key with
  | .module p => (minus (p.refs ++ known s p.execs) s.ignored, some (handleContains s [] p.contains []))
  | .flag n v p =>
    if n = "vardepvalueexclude".toList then ([], some [])
    else (minus (p.refs ++ known s p.execs) s.ignored, v)
  | e =>
    let f := s.flags key
    let dv := bodyDeps s f e
    (minus (minus (dv.1 ++ flagDeps s key f ++ flagWords f.vardeps) (words f.vardepsexclude)) s.ignored,
      some (dropExcluded f dv.2))

/-- The two dictionaries of `generate_dependencies`. -/
structure Cache where
  deps : Dict (List Str) := []
  values : Dict (Option Str) := []

/-- data.py:400-401: look at a name that has not been looked at. -/
def visit (s : Store) (c : Cache) (k : Str) : Cache :=
  if (c.deps.lookup k).isSome then c
  else ⟨Dict.set c.deps k (buildDeps s k).1, Dict.set c.values k (buildDeps s k).2⟩

/-- data.py:395-403: the loop for one task. -/
def fill (s : Store) : Nat → List Str → List Str → Cache → Cache
  | 0, _, _, c => c
  | n + 1, new, seen, c =>
    if new = [] then c
    else
      let c' := new.foldl (visit s) c
      fill s n (minus ((new.map fun k => (c'.deps.lookup k).getD []).flatten) (seen ++ new)) (seen ++ new) c'

/-- data.py:391-404. -/
def fillTask (s : Store) (fuel : Nat) (c : Cache) (task : Str) : Cache :=
  let c' : Cache := ⟨Dict.set c.deps task (buildDeps s task).1, Dict.set c.values task (buildDeps s task).2⟩
  fill s fuel (buildDeps s task).1 [] c'

/-- data.py:375-405, `generate_dependencies`. -/
def generateDependencies (s : Store) (fuel : Nat) : Cache := s.tasks.foldl (fillTask s fuel) {}

/-- `gendeps[dep]` for all of a list; nothing if a key is missing (`KeyError`). -/
def lookAll (d : Dict (List Str)) : List Str → Option (List Str)
  | [] => some []
  | k :: l =>
    match d.lookup k, lookAll d l with
    | some x, some y => some (x ++ y)
    | _, _ => none

/-- data.py:420-428: the names that a task depends on. -/
def closure (d : Dict (List Str)) : Nat → List Str → List Str → Option (List Str)
  | 0, _, seen => some seen
  | n + 1, new, seen =>
    if new = [] then some seen
    else
      match lookAll d new with
      | none => none
      | some next => closure d n (minus next (seen ++ new)) (seen ++ new)

/-- data.py:431-435: names and values. -/
def depData (values : Dict (Option Str)) : List Str → Option Str
  | [] => some []
  | k :: l =>
    match values.lookup k, depData values l with
    | some v, some r => some (k ++ v.getD [] ++ r)
    | _, _ => none

/-- data.py:411-438: what is hashed for a task, and the names it depends on. -/
def taskData (c : Cache) (fuel : Nat) (task : Str) : Option (Str × List Str) :=
  match c.values.lookup task, c.deps.lookup task with
  | some v, some d =>
    match closure c.deps fuel d [] with
    | none => none
    | some seen =>
      match depData c.values (sortSet seen) with
      | none => none
      | some r => some (v.getD [] ++ r, sortSet seen)
  | _, _ => none

/-- data.py:407-440, `generate_dependency_hash`, for one task: the base hash. -/
def baseHash (hash : Str → Str) (s : Store) (fuel : Nat) (task : Str) : Option Str :=
  (taskData (generateDependencies s fuel) fuel task).map fun r => hash r.1

/-- The record of a task in a signature file (siggen.py:440-454), for the base hash. -/
structure SigData where
  task : Str
  taskdeps : List Str
  basehash : Str
  varvals : Dict (Option Str)

/-- siggen.py:447-454: the values of the names that are not ignored. -/
def recordVals (c : Cache) (ignored : List Str) : List Str → Dict (Option Str) → Option (Dict (Option Str))
  | [], d => some d
  | k :: l, d =>
    if k ∈ ignored then recordVals c ignored l d
    else
      match c.values.lookup k with
      | none => none
      | some v => recordVals c ignored l (Dict.set d k v)

/-- siggen.py:440-454, `dump_sigtask`: the record. -/
def dumpSig (hash : Str → Str) (s : Store) (fuel : Nat) (task : Str) : Option SigData :=
  let c := generateDependencies s fuel
  match taskData c fuel task, c.values.lookup task with
  | some (data, deps), some v =>
    match recordVals c s.ignored deps [(task, v)] with
    | none => none
    | some vals => some ⟨task, deps, hash data, vals⟩
  | _, _ => none

/-- siggen.py:1203-1217, `calc_basehash`. -/
def calcBasehash (hash : Str → Str) (d : SigData) : Option Str :=
  match d.varvals.lookup d.task, depData d.varvals (sortSet d.taskdeps) with
  | some v, some r => some (hash (v.getD [] ++ r))
  | _, _ => none

end Bb.Sig
