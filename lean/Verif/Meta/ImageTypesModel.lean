import Verif.Py.Str
/-!
# Model of the image type handling in `meta/classes-recipe/image.bbclass`

The commands of a task are represented by what they do to the files named after the image
types: `IMAGE_CMD` creates the file of the base type, a conversion reads one file and creates
the file with one more suffix, `rm` removes a file.  Installation of tools, variable
dependencies, templates and task flags are not modelled.
-/

namespace Isar.ImageTypes
open Py

/-- What the code reads: `IMAGE_CONVERSIONS` (as words), the same names in the order of
`sorted(conversions)`, and `IMAGE_TYPEDEP:<name>` (as words). -/
structure Conf where
  convs : List Str
  sorted : List Str
  typedep : Str → List Str

/-- The loop of `get_base_type`: the type without the first conversion in the list that is a
suffix.  meta/classes-recipe/image.bbclass:148-151. -/
def stripOne : List Str → Str → Option Str
  | [], _ => none
  | c :: cs, t =>
    if endsWith t ('.' :: c) then some (t.take (t.length - (c.length + 1))) else stripOne cs t

/-- `get_base_type` with a bound on the recursion, meta/classes-recipe/image.bbclass:146-152. -/
def baseGo (convs : List Str) : Nat → Str → Str
  | 0, t => t
  | n + 1, t =>
    match stripOne convs t with
    | none => t
    | some bt => baseGo convs n bt

/-- `get_base_type`, meta/classes-recipe/image.bbclass:146-152.  Every step makes the name
shorter, so its length bounds the recursion. -/
def base (convs : List Str) (t : Str) : Str := baseGo convs t.length t

/-- `t.replace('-', '_').replace('.', '_')`, meta/classes-recipe/image.bbclass:163, 203, 232,
318. -/
def clean (t : Str) : Str := t.map fun c => if c = '-' ∨ c = '.' then '_' else c

/-- The dependencies of a type, meta/classes-recipe/image.bbclass:204. -/
def Conf.deps (c : Conf) (t : Str) : List Str := c.typedep (clean t)

/-- `for x in l: st = f(x, st)` with exceptions. -/
def forEach {α σ} (f : α → σ → Option σ) : List α → σ → Option σ
  | [], s => some s
  | a :: as, s =>
    match f a s with
    | none => none
    | some s => forEach f as s

/-- `recurse` in `get_image_basetypes`, meta/classes-recipe/image.bbclass:161-167; the set
`ret` is a list.  The first argument bounds the recursion (`none`: not finished). -/
def recurse (c : Conf) : Nat → Str → Option (List Str)
  | 0, _ => none
  | n + 1, t =>
    let bt := base c.convs t
    forEach (fun dep acc => (recurse c n dep).map (acc ++ ·)) (c.deps bt) [bt]

/-- `get_image_basetypes`, meta/classes-recipe/image.bbclass:160-171. -/
def imageBasetypes (c : Conf) (n : Nat) (fstypes : List Str) : Option (List Str) :=
  forEach (fun t acc => (recurse c n t).map (acc ++ ·)) fstypes []

/-- The dictionaries and the list `image_types` of the anonymous function,
meta/classes-recipe/image.bbclass:189-193. -/
structure St where
  basetypes : List (Str × List Str)
  typedeps : List (Str × List Str)
  types : List Str

/-- `if k not in d: d[k] = []` followed by adding `v` to `d[k]` unless it is there. -/
def addTo (k : Str) (v : Option Str) : List (Str × List Str) → List (Str × List Str)
  | [] => [(k, v.toList)]
  | (k', vs) :: rest =>
    if k' = k then
      (k', match v with
        | none => vs
        | some v => if v ∈ vs then vs else vs ++ [v]) :: rest
    else (k', vs) :: addTo k v rest

/-- `d[k]` -/
def get (d : List (Str × List Str)) (k : Str) : List Str := (d.lookup k).getD []

/-- `collect_image_type`, meta/classes-recipe/image.bbclass:196-214, with a bound on the
recursion (`none`: not finished). -/
def collect (c : Conf) : Nat → Str → St → Option St
  | 0, _, _ => none
  | n + 1, t, st =>
    let bt := base c.convs t
    let st := { st with basetypes := addTo bt (some t) st.basetypes
                        typedeps := addTo bt none st.typedeps }
    let afterDeps := forEach (fun dep (st : St) =>
        let st := { st with types := if dep ∈ st.types then st.types else st.types ++ [dep] }
        (collect c n dep st).map fun st =>
          { st with typedeps := addTo bt (some (base c.convs dep)) st.typedeps })
      (c.deps t) st
    match afterDeps with
    | none => none
    | some st => if bt ≠ t then collect c n bt st else some st

/-- meta/classes-recipe/image.bbclass:189-217 -/
def collectAll (c : Conf) (n : Nat) (fstypes : List Str) : Option St :=
  forEach (collect c n) fstypes ⟨[], [], fstypes⟩

/-- What a command of a task does. -/
inductive Step
  | build (t : Str)
  | convert (t c : Str)
  | rm (t : Str)
deriving DecidableEq, Repr

/-- `cmds` and `rm_images` while the conversions of one base type are added. -/
structure Cmds where
  steps : List Step
  rms : List Str

/-- The loop of `create_conversions` for the conversions `cs` left; `self` is the recursive
call.  The loop goes on with the shortened type.
meta/classes-recipe/image.bbclass:288-303. -/
def createLoop (self : Str → Cmds → Cmds) (types : List Str) : List Str → Str → Cmds → Cmds
  | [], _, st => st
  | c :: cs, t, st =>
    if endsWith t ('.' :: c) then
      let t := t.take (t.length - (c.length + 1))
      let st := self t st
      let st := if .convert t c ∈ st.steps then st
                else { st with steps := st.steps ++ [.convert t c] }
      let st := if t ∈ types ∨ t ∈ st.rms then st else { st with rms := st.rms ++ [t] }
      createLoop self types cs t st
    else createLoop self types cs t st

/-- `create_conversions`, meta/classes-recipe/image.bbclass:287-303.  The bound on the
recursion is the length of the name, see `create`. -/
def createGo (cf : Conf) (types : List Str) : Nat → Str → Cmds → Cmds
  | 0, _, st => st
  | n + 1, t, st => createLoop (createGo cf types n) types cf.sorted t st

@[inherit_doc createGo]
def create (cf : Conf) (types : List Str) (t : Str) (st : Cmds) : Cmds :=
  createGo cf types (t.length + 1) t st

/-- The commands of the task of base type `bt`, meta/classes-recipe/image.bbclass:261-268,
284-313; `ts` is `basetypes[bt]`.  Line 309 uses the loop variable `t` of line 305, which is
the last element of `ts`.  `rm_images` is a set: its order is not fixed. -/
def taskSteps (cf : Conf) (types : List Str) (bt : Str) (ts : List Str) : List Step :=
  let st := ts.foldl (fun st t => create cf types t st) ⟨[.build bt], []⟩
  let rms := if bt ∈ types then st.rms
    else match ts.getLast? with
      | none => st.rms
      | some t => if t ∈ st.rms then st.rms else st.rms ++ [t]
  st.steps ++ rms.map .rm

/-- The tasks after which the task of a base type runs (without `do_image_tools`),
meta/classes-recipe/image.bbclass:315-321, 331. -/
def taskAfter (st : St) (bt : Str) : List Str :=
  (get st.typedeps bt).map fun dep => "do_image_".toList ++ clean dep

/-- Running commands on the files that exist: `none` if a command fails because its input does
not exist (`rm` is called without `-f`, image.bbclass:313). -/
def run : List Step → List Str → Option (List Str)
  | [], fs => some fs
  | .build t :: ss, fs => run ss (t :: fs)
  | .convert t c :: ss, fs => if t ∈ fs then run ss ((t ++ '.' :: c) :: fs) else none
  | .rm t :: ss, fs => if t ∈ fs then run ss (fs.filter (· ≠ t)) else none

end Isar.ImageTypes
