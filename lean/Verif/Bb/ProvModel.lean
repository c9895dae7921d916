import Verif.Py.Sort
import Verif.Bb.VersionModel
/-!
# The choice of providers

Model of `bitbake/lib/bb/providers.py`: `sortPriorities`, `versionVariableMatch`, `preferredVersionMatch`,
`findPreferredProvider`, `findLatestProvider`, `findBestProvider`, `_filterProviders`, `filterProviders` and
`filterProvidersRunTime`.

Simplified: epochs are numbers (`epoch` gives `int(e or 0)`, an epoch that is not a number is an error);
versions have no line breaks and only ASCII digits; file names are not empty.  Left out: messages.
-/

namespace Bb.Prov
open Py

/-- What the cache has about the recipe files. -/
structure Cache where
  /-- `pkg_fn`: the name of the recipe -/
  pn : Str → Str
  /-- `pkg_pepvpr`: epoch, version, revision -/
  ver : Str → Str × Str × Str
  /-- `bbfile_priority`: the priority of the layer -/
  prio : Str → Int
  /-- `pkg_dp`: DEFAULT_PREFERENCE -/
  dp : Str → Int
  /-- `pn_provides` -/
  provides : Str → List Str
  /-- `int(e or 0)` for an epoch -/
  epoch : Str → Int

/-- `sorted(d)` for a dictionary with numbers as keys. -/
def sortKeys (l : List Int) : List Int := sortBy (fun a b => decide (a ≤ b)) l.eraseDups

/-- providers.py:82-86: the files of one priority, by preference, lowest first. -/
def byPref (c : Cache) (fs : List Str) : List Str :=
  (sortKeys (fs.map c.dp)).flatMap fun p => fs.filter fun f => c.dp f == p

/-- providers.py:63-88, `sortPriorities`: highest priority first. -/
def sortPriorities (c : Cache) (fs : List Str) : List (List Str) :=
  (sortKeys (fs.map c.prio)).foldl (fun acc p => byPref c (fs.filter fun f => c.prio f == p) :: acc) []

/-- A value that counts as true. -/
def truthy : Option Str → Bool
  | some (_ :: _) => true
  | _ => false

/-- providers.py:90-103, `versionVariableMatch` -/
def versionVar (get : Str → Option Str) (keyword pn : Str) : Option Str :=
  if truthy (get (keyword ++ "_VERSION:pn-".toList ++ pn)) then get (keyword ++ "_VERSION:pn-".toList ++ pn)
  else if truthy (get (keyword ++ "_VERSION_".toList ++ pn)) then get (keyword ++ "_VERSION_".toList ++ pn)
  else get (keyword ++ "_VERSION".toList)

/-- What is preferred: epoch, version and revision. -/
structure Pref where
  e : Option Str
  v : Str
  r : Option Str
deriving DecidableEq, Repr

/-- providers.py:144, `(\d+:)*`: the text of the last group without its colon, and the rest. -/
def epochs : Nat → Option Str → Str → Option Str × Str
  | 0, e, s => (e, s)
  | n + 1, e, s =>
    if s.takeWhile Char.isDigit ≠ [] ∧ (s.dropWhile Char.isDigit).head? = some ':' then
      epochs n (some (s.takeWhile Char.isDigit)) ((s.dropWhile Char.isDigit).drop 1)
    else (e, s)

/-- providers.py:144-154, `re.match(r'(\d+:)*(.*)(_.*)*', preferred_v)`: `.*` takes all the rest, so that
nothing is left for the last group. -/
def parsePref (s : Str) : Pref := ⟨(epochs s.length none s).1, (epochs s.length none s).2, none⟩

/-- providers.py:105-116, `preferredVersionMatch` -/
def versionMatch (ver : Str × Str × Str) (p : Pref) : Bool :=
  (p.r == some ver.2.2 || p.r == none) && (p.e == some ver.1 || p.e == none) &&
    (p.v == ver.2.1 || (endsWith p.v ['%'] && startsWith ver.2.1 (p.v.take (p.v.length - 1))))

/-- providers.py:159-167: the first file that matches. -/
def findMatch (c : Cache) (sets : List (List Str)) (p : Pref) : Option Str :=
  sets.findSome? fun fs => fs.find? fun f => versionMatch (c.ver f) p

/-- providers.py:118-197, `findPreferredProvider`: the file, and whether the version is required. -/
def findPreferred (get : Str → Option Str) (c : Cache) (sets : List (List Str)) (pn : Str) : Option Str × Bool :=
  match versionVar get "REQUIRED".toList pn with
  | some v => (if truthy (some v) then findMatch c sets (parsePref v) else none, true)
  | none =>
    match versionVar get "PREFERRED".toList pn with
    | some v => (if truthy (some v) then findMatch c sets (parsePref v) else none, false)
    | none => (none, false)

/-- The version of a file for `vercmp`. -/
def vers (c : Cache) (f : Str) : Int × Str × Str := (c.epoch (c.ver f).1, (c.ver f).2.1, (c.ver f).2.2)

/-- providers.py:211-214: whether a file is better than the one found so far. -/
def better (c : Cache) (l f : Str) : Bool :=
  (c.dp l == c.dp f && decide (Version.vercmp (vers c l) (vers c f) < 0)) || decide (c.dp f > c.dp l)

/-- providers.py:199-216, `findLatestProvider` -/
def findLatest (c : Cache) (fs : List Str) : Option Str :=
  fs.foldl (fun o f =>
    match o with
    | none => some f
    | some l => if better c l f then some f else some l) none

/-- providers.py:218-235, `findBestProvider`: the file that is preferred. -/
def findBest (get : Str → Option Str) (c : Cache) (fs : List Str) (pn : Str) : Option Str :=
  match findPreferred get c (sortPriorities c fs) pn with
  | (some f, _) => some f
  | (none, true) => none
  | (none, false) => findLatest c ((sortPriorities c fs).headD [])

/-! ## Several recipes -/

/-- providers.py:252-257: the files of one recipe. -/
def filesOf (c : Cache) (ps : List Str) (pn : Str) : List Str := ps.filter fun p => c.pn p == pn

/-- providers.py:252-262: the recipes, sorted. -/
def recipes (c : Cache) (ps : List Str) : List Str := sortSet (ps.map c.pn)

/-- providers.py:262-269: the files with preferred versions; and whether all required ones were found. -/
def prefLoop (get : Str → Option Str) (c : Cache) (ps : List Str) : List Str → List (Str × Option Str) × Bool
  | [] => ([], true)
  | pn :: pns =>
    if (findPreferred get c (sortPriorities c (filesOf c ps pn)) pn).2 &&
        (findPreferred get c (sortPriorities c (filesOf c ps pn)) pn).1 == none then ([], false)
    else ((pn, (findPreferred get c (sortPriorities c (filesOf c ps pn)) pn).1) :: (prefLoop get c ps pns).1,
      (prefLoop get c ps pns).2)

/-- providers.py:272-276: the newest file of a recipe. -/
def latestOf (c : Cache) (ps : List Str) (pn : Str) : Option Str :=
  findLatest c ((sortPriorities c (filesOf c ps pn)).headD [])

/-- providers.py:261-276: the files that can be used. -/
def eligible0 (get : Str → Option Str) (c : Cache) (ps : List Str) : List Str :=
  (prefLoop get c ps (recipes c ps)).1.filterMap (·.2) ++
    if (prefLoop get c ps (recipes c ps)).2 then
      (((prefLoop get c ps (recipes c ps)).1.filter fun e => e.2 == none).filterMap fun e => latestOf c ps e.1)
    else []

/-- Put an element first. -/
def front (f : Str) (l : List Str) : List Str := if f ∈ l then f :: l.erase f else l

/-- The file that was found for a recipe. -/
def fileOf (c : Cache) (l : List Str) (pn : Str) : Option Str := l.find? fun f => c.pn f == pn

/-- providers.py:281-293: the recipe with the name of the item comes first.  If a required version was not
found, providers.py:265-266 has returned before this. -/
def eligible (get : Str → Option Str) (c : Cache) (ps : List Str) (item : Str) : List Str :=
  if (prefLoop get c (sortBy strLe ps) (recipes c (sortBy strLe ps))).2 then
    match fileOf c (eligible0 get c (sortBy strLe ps)) item with
    | some f => front f (eligible0 get c (sortBy strLe ps))
    | none => eligible0 get c (sortBy strLe ps)
  else eligible0 get c (sortBy strLe ps)

/-- providers.py:295-321, `filterProviders`, with the value of PREFERRED_PROVIDER for the item, or the one from
PREFERRED_PROVIDERS: the files, and whether there was one choice. -/
def filterProviders (get : Str → Option Str) (c : Cache) (preferred : Str → Option Str) (ps : List Str) (item : Str) :
    List Str × Bool :=
  match (if truthy (get ("PREFERRED_PROVIDER_".toList ++ item)) then get ("PREFERRED_PROVIDER_".toList ++ item)
    else preferred item) with
  | some want =>
    match fileOf c (eligible get c ps item) want with
    | some f => (front f (eligible get c ps item), true)
    | none => (eligible get c ps item, false)
  | none => (eligible get c ps item, false)

/-! ## Run time -/

/-- The state of the loop in providers.py:356-372: the list, and what was preferred. -/
structure RunState where
  eligible : List Str
  preferred : List Str
deriving DecidableEq, Repr

/-- providers.py:353-355, `pns` -/
def pns (c : Cache) (l : List Str) (pn : Str) : Option Str := (l.filter fun p => c.pn p == pn).getLast?

/-- providers.py:357-370: for one file the first of what it provides that has a preferred provider among the
files, which was not preferred before. -/
def runStep (get : Str → Option Str) (c : Cache) (all : List Str) (st : RunState) (p : Str) : Option Str :=
  (c.provides (c.pn p)).findSome? fun v =>
    match get ("PREFERRED_PROVIDER_".toList ++ v) with
    | some want =>
      match pns c all want with
      | some f => if f ∈ st.preferred then none else some f
      | none => none
    | none => none

/-- providers.py:356-372.  The loop goes over a list from which the first file that is preferred is removed
meanwhile; `i` is the place in it.  Later removals are from other lists. -/
def runLoop (get : Str → Option Str) (c : Cache) (all : List Str) : Nat → List Str → Nat → RunState → RunState
  | 0, _, _, st => st
  | fuel + 1, iter, i, st =>
    match iter[i]? with
    | none => st
    | some p =>
      match runStep get c all st p with
      | some f =>
        runLoop get c all fuel (if st.preferred = [] then iter.erase f else iter) (i + 1)
          ⟨f :: st.eligible.erase f, st.preferred ++ [f]⟩
      | none => runLoop get c all fuel iter (i + 1) st

/-- providers.py:323-379, `filterProvidersRunTime`: the files, and the number that was preferred. -/
def filterRunTime (get : Str → Option Str) (c : Cache) (ps : List Str) (item : Str) : List Str × Nat :=
  match (if truthy (get ("PREFERRED_RPROVIDER_".toList ++ item)) then
      (get ("PREFERRED_RPROVIDER_".toList ++ item)).bind (fileOf c (eligible get c ps item)) else none) with
  | some f => (front f (eligible get c ps item), 1)
  | none =>
    ((runLoop get c (eligible get c ps item) (eligible get c ps item).length (eligible get c ps item) 0
        ⟨eligible get c ps item, []⟩).eligible,
      (runLoop get c (eligible get c ps item) (eligible get c ps item).length (eligible get c ps item) 0
        ⟨eligible get c ps item, []⟩).preferred.length)

end Bb.Prov
