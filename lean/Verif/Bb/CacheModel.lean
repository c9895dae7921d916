import Verif.Bb.VirtModel
import Verif.Py.Dict
/-!
# The cache of recipes

Model of `cacheValid`, `cacheValidUpdate`, `remove`, `parse` and `loadCached` in `bitbake/lib/bb/cache.py`, and of
`mark_dependency` and the times of files in `bitbake/lib/bb/parse/__init__.py`.

Reading a recipe is a program that looks at files, one after another, each depending on what the ones before have in them.
Other processes change files meanwhile: there is a world for every moment.  A time of 0 stands for a file that does not
exist, as in the code.  The cache of times is left out: times are looked up when they are needed.  The configuration
does not change (its hash is in the name of the cache).
-/

namespace Bb.Cache
open Py

/-- Files, with their contents and their times. -/
structure World (C : Type) where
  content : Str → Option C
  time : Str → Nat

/-- Does the file exist? -/
def World.has {C : Type} (w : World C) (f : Str) : Bool := (w.content f).isSome

/-- How a recipe is read: it looks at a file, or it is done, with some information and for each task the files whose
checksums count. -/
inductive Reader (C I : Type) where
  | done (info : I) (files : List (List Str))
  | look (f : Str) (k : Option C → Reader C I)

/-- parse/__init__.py:89-96, `mark_dependency`. -/
def mark (deps : List (Str × Nat)) (f : Str) (t : Nat) : List (Str × Nat) :=
  if (f, t) ∈ deps then deps else deps ++ [(f, t)]

/-- `"%s:%s" % (f, os.path.exists(f))` as in fetch2/__init__.py:1269, `get_checksum_file_list`. -/
def flag (f : Str) (has : Bool) : Str := f ++ if has then ":True".toList else ":False".toList

/-- The flag `file-checksums` of a task. -/
def flags {C : Type} (w : World C) (files : List Str) : Str := join [' '] (files.map fun f => flag f (w.has f))

/-- Reading a recipe: the information, the flags of its tasks and the files it depends on.  The time of a file is looked up
at the first of two moments, its contents at the second one (parse/__init__.py:128-143, `resolve_file` comes before the
file is opened). -/
def read {C I : Type} (H : Nat → World C) : List (Nat × Nat) → List (Str × Nat) → Reader C I → I × List Str × List (Str × Nat)
  | s, deps, .done i files => (i, files.map (flags (H (s.headD (0, 0)).1)), deps)
  | s, deps, .look f k =>
    read H s.tail (mark deps f ((H (s.headD (0, 0)).1).time f)) (k ((H (s.headD (0, 0)).2).content f))

/-- cache.py:85-133, what the checks need of `CoreRecipeInfo`. -/
structure Info (I : Type) where
  timestamp : Nat
  depends : List (Str × Nat)
  checksums : List Str
  appends : List Str
  variants : List Str
  info : I

/-- cache.py:390-410: for each name an entry, with the number of its parts; the names that are clean; those that were
checked. -/
structure St (I : Type) where
  cached : Dict (Info I × Nat)
  clean : List Str
  checked : List Str

/-- cache.py:660-670, `remove`. -/
def remove {I : Type} (st : St I) (fn : Str) : St I :=
  { st with cached := st.cached.del fn, clean := st.clean.filter (· ≠ fn) }

/-- Does it end in `:True` or `:False`? -/
def flagged (s : Str) : Bool := endsWith s ":True".toList || endsWith s ":False".toList

/-- cache.py:407, `filelist_regex.split`.  The second argument is what was read since the last cut, the third tells that
white space is being left out. -/
def splitFiles : Str → Str → Bool → List Str
  | [], cur, _ => [cur]
  | c :: s, cur, skip =>
    if isWs c && skip then splitFiles s [] true
    else if isWs c && flagged cur then cur :: splitFiles s [] true
    else splitFiles s (cur ++ [c]) false

/-- `f.rsplit(":", 1)`; there is no result if there is no colon (`ValueError`). -/
def rsplit (s : Str) : Option (Str × Str) :=
  if ':' ∈ s then some ((s.reverse.dropWhile (· != ':')).tail.reverse, (s.reverse.takeWhile (· != ':')).reverse) else none

/-- cache.py:617-626: has a file of the list come or gone? -/
def filesChanged {C : Type} (w : World C) : List Str → Option Bool
  | [] => some false
  | f :: fs =>
    if f = [] then filesChanged w fs
    else match rsplit f with
      | none => none
      | some (g, e) =>
        if (e = "True".toList ∧ w.has g = false) ∨ (e = "False".toList ∧ w.has g = true) then some true else filesChanged w fs

/-- cache.py:611-626 -/
def checksumsChanged {C : Type} (w : World C) : List Str → Option Bool
  | [] => some false
  | fl :: fls =>
    if strip fl = [] then checksumsChanged w fls
    else match filesChanged w (splitFiles (strip fl) [] false) with
      | some false => checksumsChanged w fls
      | o => o

/-- cache.py:593-609 -/
def dependsChanged {C : Type} (w : World C) (depends : List (Str × Nat)) : Bool :=
  depends.any fun d => (d.2 != 0 && w.time d.1 == 0) || w.time d.1 != d.2

/-- cache.py:566-658, `cacheValidUpdate`.  `n` is the number of caches. -/
def validUpdate {C I : Type} (w : World C) (n : Nat) (fn : Str) (appends : List Str) (st : St I) : Option (St I × Bool) :=
  let st := { st with checked := fn :: st.checked }
  match st.cached.lookup fn with
  | none => some (st, false)
  | some (info, _) =>
    if w.time fn = 0 then some (remove st fn, false)
    else if w.time fn ≠ info.timestamp then some (remove st fn, false)
    else if dependsChanged w info.depends then some (remove st fn, false)
    else match checksumsChanged w info.checksums with
      | none => none
      | some true => some (remove st fn, false)
      | some false =>
        if appends ≠ info.appends then some (remove st fn, false)
        else
          let names := info.variants.map (Virt.ofVariant fn)
          if names.any fun v => (st.cached.lookup v).map (·.2) ≠ some n then
            some ({ st with clean := (st.clean ++ names).filter fun x => x ∉ names ∧ x ≠ fn }, false)
          else some ({ st with clean := st.clean ++ names ++ [fn] }, true)

/-- cache.py:555-564, `cacheValid`. -/
def valid {C I : Type} (w : World C) (n : Nat) (fn : Str) (appends : List Str) (st : St I) : Option (St I × Bool) :=
  if fn ∈ st.checked then some (st, decide (fn ∈ st.clean))
  else match validUpdate w n fn appends st with
    | none => none
    | some (st, _) => some (st, decide (fn ∈ st.clean))

/-- cache.py:515-539, `parse`, and 86-89: what is stored of a recipe.  `vs` are the variants in the order in which they are
processed, with what their reading gave; the recipe itself comes last and depends on all that they depend on. -/
def entry {I : Type} (time : Nat) (appends : List Str) (vs : List (Str × I × List Str × List (Str × Nat)))
    (base : I × List Str × List (Str × Nat)) : Info I :=
  ⟨time, vs.flatMap (·.2.2.2) ++ base.2.2, base.2.1, appends, vs.map (·.1) ++ [[]], base.1⟩

end Bb.Cache
