import Verif.Py.Dict
import Verif.Py.Sort
/-!
# The index of manifests, and pruning what is obsolete

Model of the index of manifests that `sstate_install` keeps, of the stamps and manifests that `sstate_clean`
removes, and of the handler `sstate_eventhandler_reachablestamps`, which removes the files of recipes that
are no longer there when the recipes have been parsed (`meta/classes-global/sstate.bbclass:313-337`,
`533-580` and `1213-1295`).

What a manifest does when it is cleaned is in `Meta.SsInst`; here a manifest is the task that wrote it.
Stamps are there or not: hashes in their names are left out.  Working directories that are removed, and
`bb.fatal` for lines of the index that do not have three words, are left out.
-/

namespace Meta.SsPrune
open Py

/-- A line of the index. -/
structure Line where
  stamp : Str
  man : Str
  work : Str
deriving DecidableEq, Repr

/-- A task of a version of a recipe that installs files. -/
structure Inst where
  /-- The directory of `STAMP`.  `STAMPCLEAN` is this directory and `/*-*`. -/
  dir : Str
  /-- The rest of `STAMP`, version and revision. -/
  ver : Str
  /-- `SSTATE_MANIFESTS` -/
  ctl : Str
  /-- `SSTATE_MANMACH` -/
  arch : Str
  pn : Str
  task : Str
  /-- `WORKDIR` -/
  work : Str
deriving DecidableEq, Repr

/-- `STAMP` -/
def stamp (i : Inst) : Str := i.dir ++ "/".toList ++ i.ver

/-- sstate.bbclass:6, `SSTATE_MANFILEPREFIX`. -/
def man (i : Inst) : Str := i.ctl ++ "/manifest-".toList ++ i.arch ++ "-".toList ++ i.pn

/-- meta/lib/oe/sstatesig.py:442-451: the manifest of the task. -/
def manFile (i : Inst) : Str := man i ++ ".".toList ++ i.task

/-- The stamp of the task, without its hash. -/
def stampFile (i : Inst) : Str := stamp i ++ ".do_".toList ++ i.task

/-- sstate.bbclass:326 and 1238: an index. -/
def indexFile (ctl arch : Str) : Str := ctl ++ "/index-".toList ++ arch

/-- sstate.bbclass:328 -/
def lineOf (i : Inst) : Line := ⟨stamp i, man i, i.work⟩

structure World where
  /-- The indices. -/
  index : Dict (List Line)
  /-- The lists of stamps that machines have seen. -/
  machine : Dict (List Str)
  /-- The manifests that are there, and who wrote them. -/
  mans : Dict Inst
  /-- The stamps that are there. -/
  done : List Inst
deriving DecidableEq, Repr

/-- `glob.glob(p + "*")` finds `f`, if there are no other special characters in `p`. -/
def globs (p f : Str) : Bool := startsWith f p && !(f.drop p.length).contains '/'

/-- sstate.bbclass:533-580, `sstate_clean`: the manifest and all versions' stamps of the task. -/
def clean (i : Inst) (w : World) : World :=
  { w with
    mans := w.mans.del (manFile i)
    done := w.done.filter fun j => !(decide (j.dir = i.dir) && decide (j.task = i.task)) }

/-- sstate.bbclass:326-337 -/
def addLine (i : Inst) (ls : List Line) : List Line := if lineOf i ∈ ls then ls else ls ++ [lineOf i]

/-- sstate.bbclass:313-337, after `sstate_clean`.  The manifest and its line are written in one step here;
between the two no file has been copied. -/
def install (i : Inst) (w : World) : World :=
  let w := clean i w
  let k := indexFile i.ctl i.arch
  { w with
    mans := w.mans.set (manFile i) i
    index := w.index.set k (addLine i ((w.index.lookup k).getD [])) }

/-- What a task does. -/
inductive Step where
  /-- It runs. -/
  | run (i : Inst)
  /-- It stops after it has written its manifest. -/
  | half (i : Inst)
  /-- It is cleaned, or stops before it writes its manifest. -/
  | clean (i : Inst)
deriving DecidableEq, Repr

def Step.inst : Step → Inst
  | .run i => i
  | .half i => i
  | .clean i => i

def step (w : World) : Step → World
  | .run i => { install i w with done := (install i w).done ++ [i] }
  | .half i => install i w
  | .clean i => SsPrune.clean i w

/-- The event that the recipes of a configuration have been parsed. -/
structure Event where
  /-- `SSTATE_MANIFESTS` of the configuration, not of a recipe. -/
  ctl : Str
  /-- `SSTATE_ARCHS` -/
  archs : List Str
  machine : Str
  /-- The stamps of all recipes. -/
  reach : List Str
  /-- The lines of `preserve-stamps`, with their line breaks. -/
  preserve : List Str
deriving DecidableEq, Repr

/-- sstate.bbclass:1231 -/
def machineFile (e : Event) : Str := e.ctl ++ "/index-machine-".toList ++ e.machine

/-- sstate.bbclass:1256 -/
def obsolete (e : Event) (seen : List Str) (l : Line) : Bool :=
  !decide (l.stamp ∈ e.reach) && !decide (l.stamp ∈ e.preserve) && decide (l.stamp ∈ seen)

/-- sstate.bbclass:1241-1262: the loop over the lines from the last; the lines to ignore and those to
remove. -/
def scan (e : Event) (seen : List Str) : List Line → List Str → List Line × List Line
  | [], _ => ([], [])
  | l :: ls, mans =>
    if l.man ∈ mans then
      let r := scan e seen ls mans
      (l :: r.1, r.2)
    else
      let r := scan e seen ls (l.man :: mans)
      if obsolete e seen l then (r.1, l :: r.2) else r

/-- Steps of the handler. -/
inductive Micro where
  /-- sstate.bbclass:1271-1274 -/
  | cleanMans (l : Line)
  /-- sstate.bbclass:1275 -/
  | rmStamps (l : Line)
  /-- sstate.bbclass:1284-1288 -/
  | writeIndex (k : Str) (ls : List Line)
  /-- sstate.bbclass:1289-1292 -/
  | writeMachine (k : Str) (ss : List Str)
deriving DecidableEq, Repr

def micro (w : World) : Micro → World
  | .cleanMans l =>
    { w with mans := w.mans.filter fun e => !(globs (l.man ++ ".".toList) e.1 && !endsWith e.1 ".postrm".toList) }
  | .rmStamps l => { w with done := w.done.filter fun j => !globs l.stamp (stampFile j) }
  | .writeIndex k ls => { w with index := w.index.set k ls }
  | .writeMachine k ss => { w with machine := w.machine.set k ss }

/-- sstate.bbclass:1278, 1285-1288: the lines that are left. -/
def leftLines (e : Event) (seen : List Str) (ls : List Line) : List Line :=
  ((scan e seen ls.reverse []).2.foldl List.erase ls).filter fun l => !decide (l ∈ (scan e seen ls.reverse []).1)

/-- sstate.bbclass:1236-1288: one index. -/
def indexSteps (e : Event) (w : World) (seen : List Str) (a : Str) : List Micro :=
  match w.index.lookup (indexFile e.ctl a) with
  | none => []
  | some ls =>
    ((scan e seen ls.reverse []).2.flatMap fun l => [.cleanMans l, .rmStamps l]) ++
      [.writeIndex (indexFile e.ctl a) (leftLines e seen ls)]

/-- sstate.bbclass:1213-1296: the steps of the handler. -/
def eventSteps (e : Event) (w : World) : List Micro :=
  let seen := (w.machine.lookup (machineFile e)).getD []
  ((sortSet e.archs).flatMap (indexSteps e w seen)) ++
    [.writeMachine (machineFile e) (seen ++ e.reach.filter fun s => !decide (s ∈ seen))]

def event (w : World) (e : Event) : World := (eventSteps e w).foldl micro w

/-- bitbake/lib/bb/cooker.py:1646-1649 and what follows: the events of all configurations, then the tasks. -/
structure Build where
  events : List Event
  steps : List Step
deriving Repr

def build (w : World) (b : Build) : World := b.steps.foldl step (b.events.foldl event w)

def start : World := ⟨[], [], [], []⟩

def builds (h : List Build) : World := h.foldl build start

/-! ## Names in Isar -/

inductive Kind where
  | plain | image | initramfs
deriving DecidableEq, Repr

/-- A task of a recipe, in a configuration. -/
structure Cfg where
  kind : Kind
  distro : Str
  distroArch : Str
  machine : Str
  packageArch : Str
  pn : Str
  ver : Str
  task : Str
deriving DecidableEq, Repr

/-- `${DISTRO}-${DISTRO_ARCH}` -/
def distroTag (c : Cfg) : Str := c.distro ++ "-".toList ++ c.distroArch

/-- `${MACHINE}-${DISTRO}-${DISTRO_ARCH}` -/
def machineTag (c : Cfg) : Str := c.machine ++ "-".toList ++ distroTag c

/-- meta/conf/bitbake.conf:47 and 63, meta/classes-recipe/image.bbclass:7 and 11,
meta/classes-recipe/initramfs.bbclass:6. -/
def instOf (tmp : Str) (c : Cfg) : Inst where
  dir := tmp ++ "/stamps/".toList ++ distroTag c ++ "/".toList ++ c.pn ++
    (match c.kind with
      | .plain => []
      | _ => "-".toList ++ c.machine)
  ver := c.ver
  ctl := tmp ++ "/sstate-control/".toList ++
    (match c.kind with
      | .image => machineTag c
      | _ => distroTag c)
  arch := c.packageArch
  pn := c.pn
  task := c.task
  work := tmp ++ "/work/".toList ++ distroTag c ++ "/".toList ++ c.pn ++
    (match c.kind with
      | .plain => []
      | _ => "-".toList ++ c.machine) ++ "/".toList ++ c.ver

end Meta.SsPrune
