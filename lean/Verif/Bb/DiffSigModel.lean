import Verif.Bb.SigModel
import Verif.Bb.TaskHashModel
/-!
# Why two signatures differ

Model of `compare_sigfiles` in bitbake/lib/bb/siggen.py, which `bitbake-diffsigs` prints.  Lines of the output are data here: colours, diffs of
words and the text of a line are not modelled.  Records are complete ("runtime" records); that a field is missing is not modelled.
-/

namespace Bb.DiffSig

open Py

abbrev File := Str × Str

/-- siggen.py:439-474: a record.  Sets are lists whose order and repetitions do not count. -/
structure Rec where
  task : Str
  ignoreVars : List Str
  ignoreTasks : List Str
  taskdeps : List Str
  basehash : Str
  gendeps : Dict (List Str)
  varvals : Dict (Option Str)
  files : List File
  runtaskdeps : List Str
  runtaskhashes : Dict Str
  taint : Option Str
deriving DecidableEq

/-- The lines of the output. -/
inductive Line where
  | ignoreVars
  | ignoreTasks
  | taskdeps
  | basehash (a b : Str)
  | gendepChanged (v : Str)
  | gendepAdded (v : Str)
  | gendepRemoved (v : Str)
  | varChanged (v : Str) (a b : Option Str)
  | fileChanged (f a b : Str)
  | fileAdded (f : Str)
  | fileRemoved (f : Str)
  | depsNumber
  | depsChanged (l : List (Str × Str))
  | taskAdded (t h : Str)
  | taskRemoved (t h : Str)
  | hashChanged (t a b : Str)
  | taint (a b : Option Str)
deriving DecidableEq

/-- Equality of sets. -/
def sameSet (a b : List Str) : Bool := decide (sortSet a = sortSet b)

/-- siggen.py:1010-1020, `dict_diff`: what both have, with other values; `eq` compares values. -/
def dictChanged {α : Type} (eq : α → α → Bool) (a b : Dict α) (ignored : List Str) : List Str :=
  (a.map Prod.fst).filter fun k =>
    match a.lookup k, b.lookup k with
    | some x, some y => !eq x y && decide (k ∉ ignored)
    | _, _ => false

/-- siggen.py:1018-1019: `sb - sa`. -/
def dictAdded {α : Type} (a b : Dict α) : List Str := (b.map Prod.fst).filter fun k => (a.lookup k).isNone

/-- siggen.py:1072-1082, 1088: `sorted` of a set. -/
def sorted (l : List Str) : List Str := sortSet l

/-- siggen.py:1034-1038, 1041-1043: files of the list while their counter is above zero. -/
def take (c : File → Int) : List File → List File
  | [] => []
  | x :: l => if c x > 0 then x :: take (fun y => if y = x then c y - 1 else c y) l else take c l

/-- siggen.py:1030-1033: `Counter(a)` with `b` subtracted. -/
def counter (a b : List File) (x : File) : Int := (a.count x : Int) - b.count x

/-- siggen.py:1029-1052: changed, added and removed files, the last two still with their checksums. -/
structure Diff where
  changed : List (Str × Str × Str)
  added : List File
  removed : List File
deriving DecidableEq

/-- siggen.py:1044-1050: a removed file is paired with the first added file of its name. -/
def pair (d : Diff) (x : File) : Diff :=
  match d.added.find? (fun y => y.1 == x.1) with
  | some y => { d with changed := d.changed ++ [(x.1, x.2, y.2)], added := d.added.erase y }
  | none => { d with removed := d.removed ++ [x] }

/-- siggen.py:1022-1053, `file_checksums_diff`. -/
def filesDiff (a b : List File) : Diff := (take (counter a b) a).foldl pair ⟨[], take (counter b a) b, []⟩

/-- siggen.py:1057-1069. -/
def headLines (collapsed : Bool) (a b : Rec) : List Line :=
  (if sameSet a.ignoreVars b.ignoreVars then [] else [.ignoreVars]) ++
  (if sameSet a.ignoreTasks b.ignoreTasks then [] else [.ignoreTasks]) ++
  (if a.taskdeps = b.taskdeps then [] else [.taskdeps]) ++
  (if a.basehash = b.basehash ∨ collapsed = true then [] else [.basehash a.basehash b.basehash])

/-- siggen.py:1071-1082. -/
def gendepLines (a b : Rec) : List Line :=
  (sorted (dictChanged sameSet a.gendeps b.gendeps (a.ignoreVars.filter fun v => decide (v ∈ b.ignoreVars)))).map .gendepChanged ++
  (sorted (dictAdded a.gendeps b.gendeps)).map .gendepAdded ++
  (sorted (dictAdded b.gendeps a.gendeps)).map .gendepRemoved

/-- The value of a name in the record. -/
def val (d : Dict (Option Str)) (v : Str) : Option Str := (d.lookup v).getD none

/-- siggen.py:1086-1108. -/
def varLines (a b : Rec) : List Line :=
  (sorted (dictChanged (fun x y => decide (x = y)) a.varvals b.varvals [])).map fun v => .varChanged v (val a.varvals v) (val b.varvals v)

/-- siggen.py:1115-1124. -/
def fileLines (a b : Rec) : List Line :=
  let d := filesDiff a.files b.files
  d.changed.map (fun x => .fileChanged x.1 x.2.1 x.2.2) ++ d.added.map (fun x => .fileAdded x.1) ++ d.removed.map (fun x => .fileRemoved x.1)

/-- The hash of a dependency in the record. -/
def hashIn (r : Rec) (t : Str) : Str := (r.runtaskhashes.lookup t).getD []

/-- siggen.py:1135-1140: pairs of dependencies at the same place with different hashes. -/
def depPairs (a b : Rec) : List (Str × Str) :=
  (a.runtaskdeps.zip b.runtaskdeps).filter fun p => decide (hashIn a p.1 ≠ hashIn b p.2)

/-- siggen.py:1131-1149. -/
def depLines (collapsed : Bool) (a b : Rec) : List Line :=
  if collapsed then []
  else if a.runtaskdeps.length ≠ b.runtaskdeps.length then [.depsNumber]
  else if depPairs a b = [] then [] else [.depsChanged (depPairs a b)]

/-- siggen.py:1155-1167: added tasks, without those that take the place of a removed one with the same hash. -/
def taskAddedLines (a b : Rec) : List Line :=
  ((sorted (dictAdded a.runtaskhashes b.runtaskhashes)).filter fun t =>
    !(dictAdded b.runtaskhashes a.runtaskhashes).any fun u => decide (hashIn b t = hashIn a u)).map fun t => .taskAdded t (hashIn b t)

/-- siggen.py:1168-1177. -/
def taskRemovedLines (a b : Rec) : List Line :=
  ((sorted (dictAdded b.runtaskhashes a.runtaskhashes)).filter fun t =>
    !(dictAdded a.runtaskhashes b.runtaskhashes).any fun u => decide (hashIn b u = hashIn a t)).map fun t => .taskRemoved t (hashIn a t)

/-- siggen.py:1178-1191: the changed hashes; `recurse` is the callback for a changed dependency.  With lines from the callback all but the last line is
dropped, unless the output is collapsed. -/
def hashLines (collapsed : Bool) (recurse : Str → Str → Str → List Line) (a b : Rec) : List Str → List Line → List Line
  | [], out => out
  | t :: l, out =>
    if recurse t (hashIn a t) (hashIn b t) = [] then
      hashLines collapsed recurse a b l (if collapsed then out else out ++ [.hashChanged t (hashIn a t) (hashIn b t)])
    else if collapsed then hashLines collapsed recurse a b l (out ++ recurse t (hashIn a t) (hashIn b t))
    else .hashChanged t (hashIn a t) (hashIn b t) :: recurse t (hashIn a t) (hashIn b t)

/-- siggen.py:1193-1200; the new name of "nostamp:" in the line is not modelled. -/
def taintLines (a b : Rec) : List Line := if a.taint = b.taint then [] else [.taint a.taint b.taint]

/-- siggen.py:974-1200, `compare_sigfiles`.  No callback is one without lines. -/
def compare (collapsed : Bool) (recurse : Str → Str → Str → List Line) (a b : Rec) : List Line :=
  hashLines collapsed recurse a b (sorted (dictChanged (fun x y => decide (x = y)) a.runtaskhashes b.runtaskhashes []))
    (headLines collapsed a b ++ gendepLines a b ++ varLines a b ++ fileLines a b ++ depLines collapsed a b ++
      taskAddedLines a b ++ taskRemovedLines a b) ++ taintLines a b

/-- The record for the task hash. -/
def Rec.forTask (r : Rec) : Bb.TaskHash.SigData := ⟨r.basehash, r.runtaskdeps, r.files, r.runtaskhashes, r.taint⟩

/-- The record for the base hash. -/
def Rec.forBase (r : Rec) : Bb.Sig.SigData := ⟨r.task, r.taskdeps, r.basehash, r.varvals⟩

end Bb.DiffSig
