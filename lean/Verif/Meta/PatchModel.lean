import Verif.Py.Path
import Verif.Py.Dict
import Verif.Bb.VersionModel
/-!
# Patches

Model of `patch_path`, `src_patches`, `should_apply` and of `PatchTree` and `QuiltTree` in `meta/lib/oe/patch.py`, and of
`patch_do_patch` in `meta/classes-recipe/patch.bbclass`.
-/

namespace Meta.Patch
open Py

/-! ## Which patches there are -/

/-- An item of `SRC_URI`: where it is after fetching, whether it is a directory, and its parameters. -/
structure Url where
  path : Str
  isDir : Bool
  parm : Dict Str

/-- The variables that count: the date (`SRCDATE`, with `now` replaced), the revision (empty if there is none) and the
version. -/
structure Env where
  date : Option Str
  rev : Str
  pv : Str

/-- lib/oe/types.py:108-128, `boolean`, for strings. -/
def boolean (s : Str) : Option Bool :=
  let s := s.map Char.toLower
  if s ∈ ["yes".toList, "y".toList, "true".toList, "t".toList, "1".toList] then some true
  else if s ∈ ["no".toList, "n".toList, "false".toList, "f".toList, "0".toList] then some false
  else none

/-- `os.path.splitext(s)[1]` -/
def ext (s : Str) : Str := s.drop (splitextRoot s).length

/-- lib/oe/patch.py:893-897: the name without the ending of a compressed file. -/
def compressed (b : Str) : Bool := decide (ext b ∈ [".gz".toList, ".bz2".toList, ".xz".toList, ".Z".toList])

/-- lib/oe/patch.py:887-907, `patch_path`, with `expand`.  The first `none` is an exception. -/
def patchPath (workdir : Str) (u : Url) : Option (Option Str) :=
  if u.isDir then some none
  else
    let b := basename u.path
    let path := if compressed b then pathJoin workdir (splitextRoot b) else u.path
    let e := if compressed b then ext (splitextRoot b) else ext b
    match u.parm.lookup "apply".toList with
    | some a => match boolean a with
      | none => none
      | some true => some (some path)
      | some false => some none
    | none => if e = ".diff".toList ∨ e = ".patch".toList then some (some path) else some none

/-- Is it there and does it have this property? -/
def has (parm : Dict Str) (k : Str) (p : Str → Bool) : Bool := match parm.lookup k with
  | some v => p v
  | none => false

/-- lib/oe/patch.py:957-970: the limits on the date. -/
def datesOk (env : Env) (mx mn : Option Str) : Option Bool :=
  if mx = none ∧ mn = none then some true
  else match env.date with
    | none => none
    | some d =>
      if mx.any (fun v => Bb.Version.strLt v d) then some false
      else some (!mn.any (fun v => Bb.Version.strLt d v))

/-- lib/oe/patch.py:955-1003, `should_apply`.  `cmp a b op` is `vercmp_string_op`. -/
def shouldApply (cmp : Str → Str → Str → Option Bool) (env : Env) (parm : Dict Str) : Option Bool :=
  match datesOk env (parm.lookup "maxdate".toList) (parm.lookup "mindate".toList) with
  | none => none
  | some false => some false
  | some true =>
    if env.rev ≠ [] ∧ has parm "minrev".toList (fun v => Bb.Version.strLt env.rev v) then some false
    else if env.rev ≠ [] ∧ has parm "maxrev".toList (fun v => Bb.Version.strLt v env.rev) then some false
    else if env.rev ≠ [] ∧ has parm "rev".toList (fun v => !isSub v env.rev) then some false
    else if env.rev ≠ [] ∧ has parm "notrev".toList (fun v => isSub v env.rev) then some false
    else
      let above : Option Bool := match parm.lookup "maxver".toList with
        | none => some false
        | some v => cmp env.pv v ">".toList
      match above with
      | none => none
      | some true => some false
      | some false => match parm.lookup "minver".toList with
        | none => some true
        | some v => (cmp env.pv v "<".toList).map (!·)

/-- A patch: the file, its name, the level and the directory. -/
structure Patch where
  path : Str
  name : Str
  level : Str
  dir : Option Str
deriving DecidableEq

/-- lib/oe/patch.py:909-952, `src_patches`, for one item. -/
def patchOf (cmp : Str → Str → Str → Option Bool) (env : Env) (workdir : Str) (u : Url) : Option (Option Patch) :=
  match patchPath workdir u with
  | none => none
  | some none => some none
  | some (some path) => match shouldApply cmp env u.parm with
    | none => none
    | some false => some none
    | some true => some (some
      { path := path
        name := match u.parm.lookup "pname".toList with
          | some (c :: n) => c :: n
          | _ => basename path
        level := match u.parm.lookup "striplevel".toList with
          | some l => l
          | none => match u.parm.lookup "pnum".toList with
            | some l => l
            | none => "1".toList
        dir := match u.parm.lookup "patchdir".toList with
          | some (c :: n) => some (c :: n)
          | _ => none })

/-- lib/oe/patch.py:909-952, `src_patches`. -/
def srcPatches (cmp : Str → Str → Str → Option Bool) (env : Env) (workdir : Str) : List Url → Option (List Patch)
  | [] => some []
  | u :: us => match patchOf cmp env workdir u with
    | none => none
    | some o => match srcPatches cmp env workdir us with
      | none => none
      | some ps => some (o.toList ++ ps)

/-! ## How they are applied -/

/-- A directory with `quilt`: the file `patches/series`, what is applied, each with the tree before it (`.pc`), and the
tree.  Trees are of some type; patches are those of `series`, with their names and files. -/
structure Dir (P T : Type) where
  series : List P
  applied : List (P × T)
  tree : T
deriving DecidableEq

section
variable {P T : Type}

/-- `quilt pop -a -f`: there is no result if nothing is applied (the exit status is 2). -/
def popAll (d : Dir P T) : Option (Dir P T) := match d.applied with
  | [] => none
  | b :: _ => some { d with applied := [], tree := b.2 }

/-- `quilt push`: there is no result if there is nothing left or if the patch does not apply.  Names in `series` are
different: the next patch is found by its place. -/
def push (apply : P → T → Option T) (d : Dir P T) : Option (Dir P T) := match d.series[d.applied.length]? with
  | none => none
  | some p => match apply p d.tree with
    | none => none
    | some t => some { d with applied := d.applied ++ [(p, d.tree)], tree := t }

/-- lib/oe/patch.py:680-688, `QuiltTree.Clean`. -/
def clean (d : Dir P T) : Dir P T := match popAll d with
  | none => d
  | some d' => { d' with series := [] }

/-- lib/oe/patch.py:721-735, `QuiltTree.Import`. -/
def importPatch (p : P) (d : Dir P T) : Dir P T := { d with series := d.series ++ [p] }

/-- patch.bbclass:125-153, the loop, for the patches of one directory, with `QuiltTree.Push`; and whether it is all right.
If a patch does not apply, `UserResolver.Resolve` (lib/oe/patch.py:827-884) opens a terminal: `user` is what is done there,
or nothing if there is no terminal.  The new patch set that is made then has no patches, so nothing is compared. -/
def applyAll (apply : P → T → Option T) (user : Dir P T → Option (Dir P T)) : List P → Dir P T → Dir P T × Bool
  | [], d => (d, true)
  | p :: ps, d => match push apply (importPatch p d) with
    | none => match user (importPatch p d) with
      | none => (importPatch p d, false)
      | some d' => applyAll apply user ps d'
    | some d' => applyAll apply user ps d'

/-- patch.bbclass:125-153: a directory is cleaned when the first patch for it comes. -/
def doPatch (apply : P → T → Option T) (user : Dir P T → Option (Dir P T)) (ps : List P) (d : Dir P T) : Dir P T × Bool :=
  if ps = [] then (d, true) else applyAll apply user ps (clean d)

/-- All states between the steps of `applyAll`, without a terminal. -/
def moments (apply : P → T → Option T) : List P → Dir P T → List (Dir P T)
  | [], d => [d]
  | p :: ps, d => d :: importPatch p d :: match push apply (importPatch p d) with
    | none => []
    | some d' => moments apply ps d'

/-- All states between the steps of `do_patch`: it may be ended at each of them. -/
def doPatchMoments (apply : P → T → Option T) (ps : List P) (d : Dir P T) : List (Dir P T) :=
  if ps = [] then [d] else d :: (popAll d).toList ++ moments apply ps (clean d)

end

/-! ## PatchTree -/

/-- lib/oe/patch.py:74-78, `PatchSet`: the patches and the one that was applied last. -/
structure Set (P : Type) where
  patches : List P
  current : Option Nat

/-- lib/oe/patch.py:221-229, `PatchTree.Import`. -/
def Set.import {P : Type} (s : Set P) (p : P) : Set P :=
  let i := match s.current with
    | some c => c + 1
    | none => 0
  { s with patches := s.patches.take i ++ p :: s.patches.drop i }

/-- lib/oe/patch.py:267-277, `PatchTree.Push`: the patch that is applied. -/
def Set.next {P : Type} (s : Set P) : Option P × Set P :=
  let i := match s.current with
    | some c => c + 1
    | none => 0
  (s.patches[i]?, { s with current := some i })

/-- patch.bbclass:125-153 with `PatchTree`: the patches in the order in which they are applied. -/
def Set.run {P : Type} : List P → Set P → List (Option P)
  | [], _ => []
  | p :: ps, s => ((s.import p).next).1 :: Set.run ps ((s.import p).next).2

end Meta.Patch
