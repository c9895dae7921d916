import Verif.Py.Dict
/-!
# Resolving dependencies between recipes

Model of `bitbake/lib/bb/taskdata.py`: `add_tasks`, `add_provider`, `add_rprovider`, `fail_fn`,
`remove_buildtarget`, `remove_runtarget` and `add_unresolved`.

Parameters: which recipe files are eligible for a name (this is `filterProviders`, see `Bb/Prov*`, and
`getRuntimeProviders` with `filterProvidersRunTime`), and what recipes depend on.  A name that no recipe provides
has no eligible files.  Left out: messages, `allowincomplete`, multiconfig dependencies, the dependencies between
tasks of one recipe, and errors in the format of dependencies.
-/

namespace Bb.Resolve
open Py

/-- What is known about names and recipe files. -/
structure Data where
  /-- the files that are eligible for a name, the preferred one first -/
  choose : Str → List Str
  /-- the same at run time; `none` if several are preferred -/
  rchoose : Str → Option (List Str)
  /-- DEPENDS of a recipe file -/
  deps : Str → List Str
  /-- RDEPENDS and RRECOMMENDS of its packages -/
  rdeps : Str → List Str
  /-- the names in `do_x[depends]` of its tasks -/
  ideps : Str → List Str
  /-- the names in `do_x[rdepends]` of its tasks -/
  irdeps : Str → List Str
  /-- ASSUME_PROVIDED -/
  ignored : Str → Bool

/-- taskdata.py:42-65, `TaskData.__init__`; `seen` is `seenfns`, and with it `depids`, `rdepids` and
`taskentries`; `added` is the variable of `add_unresolved`. -/
structure TD where
  build : Dict (List Str)
  run : Dict (List Str)
  seen : List Str
  failedFns : List Str
  failedDeps : List Str
  failedRdeps : List Str
  external : List Str
  added : Nat
deriving DecidableEq, Repr

/-- How a function ends: it returns; it raises NoProvider (`false`), or NoRProvider or MultipleRProvider (`true`),
which leaves the data as it is at this moment; or it ends with a fatal error, or too deep a recursion. -/
inductive Out where
  | ok (st : TD)
  | raised (rt : Bool) (st : TD)
  | stop
deriving DecidableEq, Repr

def Out.bind : Out → (TD → Out) → Out
  | .ok st, f => f st
  | .raised rt st, _ => .raised rt st
  | .stop, _ => .stop

/-- A `for` loop. -/
def each (f : TD → Str → Out) : List Str → TD → Out
  | [], st => .ok st
  | a :: l, st => (f st a).bind (each f l)

/-- The providers of a name. -/
def provs (d : Dict (List Str)) (t : Str) : List Str := (d.lookup t).getD []

/-- taskdata.py:462-484, `remove_buildtarget`, with `fail_fn` as a parameter. -/
def removeBuild (D : Data) (halt : Bool) (fail : TD → Str → Out) (st : TD) (t : Str) : Out :=
  (each fail (st.seen.filter fun fn => t ∈ D.deps fn) { st with failedDeps := st.failedDeps ++ [t] }).bind fun st1 =>
    (each fail (st1.seen.filter fun fn => t ∈ D.ideps fn) st1).bind fun st2 =>
      if halt = true ∧ t ∈ st2.external then .raised false st2 else .ok st2

/-- taskdata.py:486-505, `remove_runtarget` -/
def removeRun (D : Data) (fail : TD → Str → Out) (st : TD) (t : Str) : Out :=
  (each fail (st.seen.filter fun fn => t ∈ D.rdeps fn) { st with failedRdeps := st.failedRdeps ++ [t] }).bind fun st1 =>
    each fail (st1.seen.filter fun fn => t ∈ D.irdeps fn) st1

/-- taskdata.py:451-455: one turn of the loop over the build targets. -/
def cleanBuild (remove : TD → Str → Out) (fn : Str) (st : TD) (t : Str) : Out :=
  if fn ∈ provs st.build t then
    if (provs st.build t).erase fn = [] then remove { st with build := st.build.set t [] } t
    else .ok { st with build := st.build.set t ((provs st.build t).erase fn) }
  else .ok st

/-- taskdata.py:456-460: one turn of the loop over the runtime targets. -/
def cleanRun (remove : TD → Str → Out) (fn : Str) (st : TD) (t : Str) : Out :=
  if fn ∈ provs st.run t then
    if (provs st.run t).erase fn = [] then remove { st with run := st.run.set t [] } t
    else .ok { st with run := st.run.set t ((provs st.run t).erase fn) }
  else .ok st

/-- taskdata.py:438-460, `fail_fn`; the first argument bounds the depth of the recursion. -/
def failFn (D : Data) (halt : Bool) : Nat → TD → Str → Out
  | 0, _, _ => .stop
  | n + 1, st, fn =>
    if fn ∈ st.failedFns then .ok st
    else
      (each (cleanBuild (removeBuild D halt (failFn D halt n)) fn) (st.build.map (·.1))
          { st with failedFns := st.failedFns ++ [fn] }).bind fun st1 =>
        each (cleanRun (removeRun D (failFn D halt n)) fn) (st1.run.map (·.1)) st1

/-- taskdata.py:199-204, `seen_build_target` -/
def seenBuild (st : TD) (t : Str) : TD :=
  if (st.build.lookup t).isSome then st else { st with build := st.build.set t [] }

/-- taskdata.py:218-223, `seen_run_target` -/
def seenRun (st : TD) (t : Str) : TD :=
  if (st.run.lookup t).isSome then st else { st with run := st.run.set t [] }

/-- taskdata.py:157-161: the dependencies of a new recipe; if one has failed, so does the recipe. -/
def depLoop (fail : TD → Str → Out) (fn : Str) (next : TD → Out) : List Str → TD → Out
  | [], st => next st
  | d :: ds, st => if d ∈ st.failedDeps then fail (seenBuild st d) fn else depLoop fail fn next ds (seenBuild st d)

/-- taskdata.py:162-166 -/
def rdepLoop (fail : TD → Str → Out) (fn : Str) : List Str → TD → Out
  | [], st => .ok st
  | d :: ds, st => if d ∈ st.failedRdeps then fail (seenRun st d) fn else rdepLoop fail fn ds (seenRun st d)

/-- taskdata.py:67-166, `add_tasks` -/
def addTasks (D : Data) (fail : TD → Str → Out) (st : TD) (fn : Str) : Out :=
  if fn ∈ st.failedFns then .stop
  else if fn ∈ st.seen then .ok st
  else
    depLoop fail fn (rdepLoop fail fn (D.rdeps fn)) (D.deps fn)
      ((D.irdeps fn).foldl seenRun ((D.ideps fn).foldl seenBuild { st with seen := st.seen ++ [fn] }))

/-- taskdata.py:206-216, `add_build_target` -/
def addBuildTarget (st : TD) (fn t : Str) : TD :=
  if fn ∈ provs st.build t then st else { st with build := st.build.set t (provs st.build t ++ [fn]) }

/-- taskdata.py:225-235, `add_runtime_target` -/
def addRunTarget (st : TD) (fn t : Str) : TD :=
  if fn ∈ provs st.run t then st else { st with run := st.run.set t (provs st.run t ++ [fn]) }

/-- taskdata.py:378-383: one eligible file. -/
def useBuild (D : Data) (fail : TD → Str → Out) (t : Str) (st : TD) (fn : Str) : Out :=
  if fn ∈ st.failedFns then .ok st else addTasks D fail (addBuildTarget st fn t) fn

/-- taskdata.py:431-436 -/
def useRun (D : Data) (fail : TD → Str → Out) (t : Str) (st : TD) (fn : Str) : Out :=
  if fn ∈ st.failedFns then .ok st else addTasks D fail (addRunTarget st fn t) fn

/-- taskdata.py:337-386, `add_provider_internal` -/
def addProvider (D : Data) (fail : TD → Str → Out) (st : TD) (t : Str) : Out :=
  if D.ignored t = true then .ok st
  else if provs st.build t ≠ [] then .ok st
  else if ((D.choose t).filter fun fn => fn ∉ st.failedFns) = [] then .raised false st
  else each (useBuild D fail t) ((D.choose t).filter fun fn => fn ∉ st.failedFns) st

/-- taskdata.py:388-436, `add_rprovider` -/
def addRprovider (D : Data) (fail : TD → Str → Out) (st : TD) (t : Str) : Out :=
  if D.ignored t = true then .ok st
  else if provs st.run t ≠ [] then .ok st
  else
    match D.rchoose t with
    | none => .raised true st
    | some l =>
      if (l.filter fun fn => fn ∉ st.failedFns) = [] then .raised true st
      else each (useRun D fail t) (l.filter fun fn => fn ∉ st.failedFns) st

/-- taskdata.py:328-333: without a provider the target has failed, or the build ends. -/
def addRequested (D : Data) (halt : Bool) (n : Nat) (st : TD) (t : Str) : Out :=
  match addProvider D (failFn D halt n) st t with
  | .ok st1 => .ok st1
  | .raised _ st1 => if halt = true then .raised false st1 else removeBuild D halt (failFn D halt n) st1 t
  | .stop => .stop

/-- taskdata.py:237-242, `mark_external_target` -/
def markExternal (st : TD) (t : Str) : TD :=
  if t ∈ st.external then st else { st with external := st.external ++ [t] }

/-- taskdata.py:327-335, `add_provider`: for what the user asks for. -/
def addExternal (D : Data) (halt : Bool) (n : Nat) (st : TD) (t : Str) : Out :=
  (addRequested D halt n st t).bind fun st1 => .ok (markExternal st1 t)

/-- taskdata.py:244-257, `get_unresolved_build_targets` -/
def unresolvedBuild (D : Data) (st : TD) : List Str :=
  (st.build.map (·.1)).filter fun t => !D.ignored t && t ∉ st.failedDeps && provs st.build t == []

/-- taskdata.py:259-272, `get_unresolved_run_targets` -/
def unresolvedRun (D : Data) (st : TD) : List Str :=
  (st.run.map (·.1)).filter fun t => !D.ignored t && t ∉ st.failedRdeps && provs st.run t == []

/-- taskdata.py:514-522: one build target. -/
def resolveBuild (D : Data) (halt : Bool) (n : Nat) (st : TD) (t : Str) : Out :=
  match addProvider D (failFn D halt n) st t with
  | .ok st1 => .ok { st1 with added := st1.added + 1 }
  | .raised _ st1 =>
    if halt = true ∧ t ∈ st1.external then .raised false st1 else removeBuild D halt (failFn D halt n) st1 t
  | .stop => .stop

/-- taskdata.py:523-528: one runtime target.  NoProvider is not caught here. -/
def resolveRun (D : Data) (halt : Bool) (n : Nat) (st : TD) (t : Str) : Out :=
  match addRprovider D (failFn D halt n) st t with
  | .ok st1 => .ok { st1 with added := st1.added + 1 }
  | .raised true st1 => removeRun D (failFn D halt n) st1 t
  | .raised false st1 => .raised false st1
  | .stop => .stop

/-- taskdata.py:513-531: one turn of the loop. -/
def pass (D : Data) (halt : Bool) (n : Nat) (st : TD) : Out :=
  (each (resolveBuild D halt n) (unresolvedBuild D st) { st with added := 0 }).bind fun st1 =>
    each (resolveRun D halt n) (unresolvedRun D st1) st1

/-- taskdata.py:507-532, `add_unresolved`; the third number bounds the turns of the loop. -/
def addUnresolved (D : Data) (halt : Bool) (n : Nat) : Nat → TD → Out
  | 0, _ => .stop
  | k + 1, st => (pass D halt n st).bind fun st1 => if st1.added = 0 then .ok st1 else addUnresolved D halt n k st1

def start : TD := ⟨[], [], [], [], [], [], [], 0⟩

/-- cooker.py:621-679, `buildTaskData`: targets are added, also those that other configurations need, and what they
need is resolved, in any order. -/
inductive Op where
  | target (t : Str)
  | unresolved

def step (D : Data) (halt : Bool) (n k : Nat) (st : TD) : Op → Out
  | .target t => addExternal D halt n st t
  | .unresolved => addUnresolved D halt n k st

def history (D : Data) (halt : Bool) (n k : Nat) : List Op → TD → Out
  | [], st => .ok st
  | o :: ops, st => (step D halt n k st o).bind (history D halt n k ops)

/-- cooker.py:621-645 and 678-679 without multiconfig: the targets, and then what they need. -/
def resolve (D : Data) (halt : Bool) (n k : Nat) (targets : List Str) : Out :=
  history D halt n k (targets.map .target ++ [.unresolved]) start

end Bb.Resolve
