import Verif.Py.Path
import Verif.Py.Dict
import Verif.Py.Sort
/-!
# Hashes of tasks

Model of `bitbake/lib/bb/siggen.py` (`SignatureGeneratorBasic.prep_taskhash`, `get_taskhash`,
`dump_sigtask`, `calc_taskhash`), of the loop over all tasks in `bitbake/lib/bb/runqueue.py`, and of
`meta/lib/oe/sstatesig.py` (`sstate_rundepfilter`, locked signatures), which make `OEBasicHash`, the
handler that Isar uses.

The base hashes, the checksums of files, the taints and the dependencies are inputs.  SHA256 is a
parameter.
-/

namespace Bb.TaskHash
open Py

/-- A task, as the signature generator sees it. -/
structure Task where
  /-- Multiconfig, or nothing. -/
  mc : Str := []
  /-- The recipe. -/
  pn : Str
  /-- The name of the task. -/
  name : Str
  /-- The base hash. -/
  base : Str
  /-- The tasks it depends on. -/
  deps : List Str := []
  /-- Files and checksums, as `get_checksums` returns them. -/
  files : List (Str × Str) := []
  /-- The random number of a `nostamp` task (siggen.py:369-377). -/
  nostamp : Option Str := none
  /-- The contents of the taint file (siggen.py:379). -/
  taintFile : Option Str := none

/-- All tasks of a build, and what the signature generator is told about them. -/
structure Build where
  tids : List Str
  task : Str → Task
  /-- `rundep_check`: is the second a dependency that counts for the first? -/
  keep : Str → Str → Bool
  /-- The hash that a task is locked to (sstatesig.py:`lockedhashes`). -/
  locked : Str → Option Str := fun _ => none

/-- siggen.py:213-216, `build_pnid`. -/
def pnid (t : Task) : Str :=
  if t.mc ≠ [] then "mc:".toList ++ t.mc ++ ":".toList ++ t.pn ++ ":".toList ++ t.name
  else t.pn ++ ":".toList ++ t.name

/-- The order of pairs of texts. -/
def pairLe (a b : Str × Str) : Bool := if a.1 = b.1 then strLe a.2 b.2 else strLe a.1 b.1

/-- siggen.py:347-358: `runtaskdeps`. -/
def runtaskdeps (b : Build) (t : Str) : List (Str × Str) :=
  ((b.task t).deps.filter (b.keep t)).map fun d => (pnid (b.task d), d)

/-- The text after the first `/./`. -/
def afterDot : Str → Option Str
  | [] => none
  | c :: s => if startsWith (c :: s) "/./".toList then some (s.drop 2) else afterDot s

/-- The text before the first `/./`. -/
def beforeDot : Str → Str
  | [] => []
  | c :: s => if startsWith (c :: s) "/./".toList then [] else c :: beforeDot s

/-- siggen.py:900-904, `clean_checksum_file_path`. -/
def cleanPath (f : Str) : Str :=
  match afterDot f with
  | none => f
  | some r => "./".toList ++ beforeDot r

/-- siggen.py:392: the order of files. -/
def fileLe (a b : Str × Str) : Bool := strLe (cleanPath a.1) (cleanPath b.1)

/-- siggen.py:393-396: the text for a file. -/
def fileText (f : Str × Str) : Str :=
  if f.2 = [] then []
  else
    match afterDot f.1 with
    | none => f.2
    | some r => "./".toList ++ beforeDot r ++ f.2

/-- siggen.py:368-382: the taint of a task.  A taint file that is not empty comes first. -/
def taint (t : Task) : Option Str :=
  if t.taintFile.any (· ≠ []) then t.taintFile
  else t.nostamp.map fun u => "nostamp:".toList ++ u

/-- siggen.py:398-402. -/
def taintText (t : Option Str) : Str :=
  match t with
  | none => []
  | some x => if startsWith x "nostamp:".toList then x.drop 8 else x

/-- siggen.py:386-402: what is hashed, for the hashes of the dependencies. -/
def hashData (b : Build) (t : Str) (h : Str → Str) : Str :=
  (b.task t).base ++ ((sortBy pairLe (runtaskdeps b t)).map fun p => h p.2).flatten ++
    ((sortBy fileLe (b.task t).files).map fileText).flatten ++ taintText (taint (b.task t))

/-- siggen.py:354-355 and 390: the hashes of the dependencies that are known; nothing if one is
missing, which is a fatal error. -/
def haveAll (h : Dict Str) : List (Str × Str) → Bool
  | [] => true
  | p :: l => (h.lookup p.2).isSome && haveAll h l

/-- runqueue.py:1292-1295, `prepare_task_hash`: `prep_taskhash`, `get_taskhash`, `get_unihash`
(siggen.py:336-407, sstatesig.py:153-202 for a task that is locked or not).  A lock to an empty
hash, which counts as no lock in the code, is not modelled. -/
def prepareTaskHash (hash : Str → Str) (b : Build) (h : Dict Str) (t : Str) : Option (Dict Str) :=
  if haveAll h (runtaskdeps b t) then
    match b.locked t with
    | some l => some (Dict.set h t l)
    | none => some (Dict.set h t (hash (hashData b t fun d => (h.lookup d).getD [])))
  else none

/-- runqueue.py:1280-1284: one pass over the tasks that are left. -/
def pass (hash : Str → Str) (b : Build) : List Str → List Str × Dict Str → Option (List Str × Dict Str)
  | [], st => some st
  | t :: l, (done, h) =>
    if (b.task t).deps.all (fun d => decide (d ∈ done)) then
      match prepareTaskHash hash b h t with
      | none => none
      | some h' => pass hash b l (t :: done, h')
    else pass hash b l (done, h)

/-- runqueue.py:1277-1284: the loop.  `order` is the order in which a set is visited. -/
def loop (hash : Str → Str) (b : Build) (order : List Str → List Str) :
    Nat → List Str → List Str × Dict Str → Option (Dict Str)
  | 0, _, _ => none
  | n + 1, todeal, st =>
    if todeal = [] then some st.2
    else
      match pass hash b (order todeal) st with
      | none => none
      | some st' => loop hash b order n (todeal.filter fun t => decide (t ∉ st'.1)) st'

/-- runqueue.py:1276-1287: the hashes of all tasks. -/
def allHashes (hash : Str → Str) (b : Build) (order : List Str → List Str) : Option (Dict Str) :=
  loop hash b order (b.tids.length + 1) b.tids ([], [])

/-! ## Signature files -/

/-- The part of a signature file about the task hash (siggen.py:454-474). -/
structure SigData where
  basehash : Str
  runtaskdeps : List Str
  files : List (Str × Str)
  runtaskhashes : Dict Str
  taint : Option Str

/-- siggen.py:458-461: the name of a file in the record. -/
def recordedName (f : Str) : Str :=
  match afterDot f with
  | none => basename f
  | some r => "./".toList ++ beforeDot r

/-- siggen.py:454-474, `dump_sigtask`: `h` is `get_unihash`; `now` is what the taint file has when the
record is made. -/
def dumpSig (b : Build) (h : Str → Str) (now : Option Str) (t : Str) : SigData where
  basehash := (b.task t).base
  runtaskdeps := (sortBy pairLe (runtaskdeps b t)).map (·.1)
  files := (sortBy fileLe (b.task t).files).map fun f => (recordedName f.1, f.2)
  runtaskhashes := (runtaskdeps b t).foldl (fun d p => Dict.set d p.1 (h p.2)) []
  taint :=
    if (taint (b.task t)).any (isSub "nostamp:".toList) then taint (b.task t)
    else if now.any (· ≠ []) then now else none

/-- siggen.py:1225-1229: the text of files in the record. -/
def recordedText (f : Str × Str) : Str :=
  if f.2 = [] then [] else (if isSub "./".toList f.1 then f.1 else []) ++ f.2

/-- siggen.py:1231-1235. -/
def recordedTaint : Option Str → Str
  | none => []
  | some x => if isSub "nostamp:".toList x then x.drop 8 else x

/-- siggen.py:1219-1237, `calc_taskhash`. -/
def calcTaskhash (hash : Str → Str) (d : SigData) : Str :=
  hash (d.basehash ++ (d.runtaskdeps.map fun p => (d.runtaskhashes.lookup p).getD []).flatten ++
    (d.files.map recordedText).flatten ++ recordedTaint d.taint)

/-! ## The filter for dependencies -/

/-- What `sstate_rundepfilter` is told about the two recipes (sstatesig.py:11-32). -/
structure DepInfo where
  task : Str
  recipe : Str
  mc : Str
  depTask : Str
  depName : Str
  depMc : Str
  packageGroup : Bool := false
  allArch : Bool := false
  image : Bool := false
  depKernel : Bool := false
  kernel : Bool := false
  recommendsModules : Bool := false

/-- sstatesig.py:37-81, `sstate_rundepfilter`. -/
def depKept (abisafe safe : List Str) (i : DepInfo) : Bool :=
  if i.task = "do_rm_work".toList then false
  else if i.recipe = i.depName ∧ i.depMc = i.mc then
    !(decide (i.task = "do_kernel_configme".toList) && decide (i.depTask = "do_unpack_and_patch".toList))
  else if i.recipe ++ "->".toList ++ i.depName ∈ safe then false
  else if "*->".toList ++ i.depName ∈ safe ∧ i.recipe ≠ i.depName then false
  else if endsWith i.recipe "-native".toList || isSub "-cross-".toList i.recipe ||
      startsWith i.recipe "nativesdk-".toList then true
  else if i.packageGroup && i.allArch && !endsWith i.depName "-native".toList then false
  else if i.depName ∈ abisafe ∧ i.image = false then false
  else if i.depKernel && !i.kernel && i.recommendsModules then false
  else true

/-! ## Locked signatures -/

/-- The options for locked signatures (sstatesig.py:83-94, 110-112). -/
structure Locks where
  /-- `SIGGEN_LOCKEDSIGS`: recipe, task and hash. -/
  sigs : List (Str × Str × Str)
  /-- `SIGGEN_UNLOCKED_RECIPES`. -/
  unlocked : List Str

/-- sstatesig.py:89-93, 183-185: the hash that is given for a task.  A later entry replaces an earlier
one. -/
def lockFor (sigs : List (Str × Str × Str)) (pn name : Str) : Option Str :=
  (sigs.reverse.find? fun e => decide (e.1 = pn ∧ e.2.1 = name)).map (·.2.2)

/-- sstatesig.py:168-181: is the recipe of a task unlocked?  `any(x in y ...)` looks for the name of an
unlocked recipe in the names of dependencies. -/
def isUnlocked (b : Build) (unlocked : List Str) (t : Str) : Bool :=
  decide ((b.task t).pn ∈ unlocked) ||
    ((b.task t).deps.filter fun d => decide ((b.task d).mc = (b.task t).mc)).any fun d =>
      unlocked.any fun x => isSub x (b.task d).pn

/-- sstatesig.py:168-200: the tasks in the order in which they are handled: the hash that each is locked
to, or none, and the recipes that are unlocked. -/
def lockPass (b : Build) (sigs : List (Str × Str × Str)) :
    List Str → List Str → Dict (Option Str) → List Str × Dict (Option Str)
  | [], un, d => (un, d)
  | t :: l, un, d =>
    let u := isUnlocked b un t
    lockPass b sigs l (if u then (b.task t).pn :: un else un)
      (Dict.set d t (if u then none else lockFor sigs (b.task t).pn (b.task t).name))

end Bb.TaskHash
