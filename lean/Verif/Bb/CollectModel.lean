import Verif.Py.Sort
import Verif.Py.Path
import Verif.Meta.SsInstModel
/-!
# The collection of recipes: layers, `BBFILES`, `BBMASK` and `.bbappend` files

Model of bitbake/lib/bb/cooker.py:1760-1988.  A regular expression is its text with the function that says
whether it matches; what is on disk is a tree of names.  Not modelled: `BBFILES_PRIORITIZED`, the list of
searched directories, events and log messages (but for the warning about a layer that matches nothing).
-/

namespace Bb.Collect

open Py

/-- An entry of `BBFILE_COLLECTIONS`: its name, the text of `BBFILE_PATTERN_x`, whether that regular
expression matches at the front of a file name, and `BBFILE_PRIORITY_x`. -/
structure Layer where
  name : Str
  text : Str
  re : Str → Bool
  pri : Int

/-- cooker.py:1764-1767: `sorted(priorities, key=lambda tup: tup[1], reverse=True)`, the sort is stable. -/
def order (ls : List Layer) : List Layer := sortBy (fun a b => strLe b.text a.text) ls

/-- cooker.py:1769-1773, `calc_bbfile_priority`: the layer that is found. -/
def layerOf (ls : List Layer) (f : Str) : Option Layer := (order ls).find? fun l => l.re f

/-- cooker.py:1769-1773: the first element of what is returned. -/
def priOf (ls : List Layer) (f : Str) : Int :=
  match layerOf ls f with
  | some l => l.pri
  | none => 0

/-- cooker.py:1792: `f.endswith(('.bb', '.bbappend'))`. -/
def isRecipe (f : Str) : Bool := endsWith f ".bb".toList || endsWith f ".bbappend".toList

/-- cooker.py:1789. -/
def ignored : List Str := ["SCCS".toList, "CVS".toList, ".svn".toList]

mutual
/-- A directory: the names of its files, and its directories, in the order on disk.  A link to a directory is
not followed by `os.walk`; it is a directory without content here. -/
inductive Tree where
  | node (files : List Str) (dirs : Forest)
/-- The directories in a directory, with their names. -/
inductive Forest where
  | nil
  | cons (name : Str) (t : Tree) (rest : Forest)
end

mutual
/-- cooker.py:1785-1794, `find_bbfiles`: `os.walk` from the top. -/
def walk (dir : Str) : Tree → List Str
  | .node files ds => (files.filter isRecipe).map (pathJoin dir) ++ walkAll dir ds
/-- cooker.py:1788-1791: the directories of a directory, without the ignored ones. -/
def walkAll (dir : Str) : Forest → List Str
  | .nil => []
  | .cons n t rest => (if ignored.contains n then [] else walk (pathJoin dir n) t) ++ walkAll dir rest
end

/-- What is on disk: the directory at a path, what `glob` gives for a pattern, in the order on disk, and
whether a path exists. -/
structure Disk where
  dir : Str → Option Tree
  glob : Str → List Str
  there : Str → Bool

/-- cooker.py:1844-1846. -/
def globbed (k : Disk) (f : Str) : List Str := if (k.glob f).isEmpty && k.there f then [f] else k.glob f

/-- cooker.py:1838-1848: the files for an entry of `BBFILES`. -/
def expand (k : Disk) (f : Str) : List Str :=
  match k.dir f with
  | some t => walk f t
  | none => sortBy strLe (globbed k f)

/-- cooker.py:1841-1842, 1849-1850: `if g not in newfiles: newfiles.append(g)`. -/
def addNew (acc : List Str) (g : Str) : List Str := if g ∈ acc then acc else acc ++ [g]

/-- cooker.py:1805: `files.sort(key=…)`, stable. -/
def byPri (ls : List Layer) (files : List Str) : List Str :=
  sortBy (fun a b => decide (priOf ls a ≤ priOf ls b)) files

/-- cooker.py:1802-1850 for a `BBFILES` with entries: the files that are found, in order. -/
def newfiles (ls : List Layer) (k : Disk) (files : List Str) : List Str :=
  ((byPri ls files).flatMap (expand k)).foldl addNew []

/-- cooker.py:1865-1867: one `|` at the front is removed. -/
def fixMask (m : Str) : Str :=
  match m with
  | '|' :: r => r
  | m => m

/-- cooker.py:1861-1872: the masks that compile. -/
def masks (valid : Str → Bool) (bbmask : Str) : List Str := ((words bbmask).map fixMask).filter valid

/-- cooker.py:1856-1881, 1886: `bbmask and bbmask_compiled.search(f)`. -/
def masked (valid : Str → Bool) (search : Str → Str → Bool) (bbmask : Str) (f : Str) : Bool :=
  if bbmask = [] then false
  else
    let t := join ['|'] (masks valid bbmask)
    if !valid t then false else if t = [] then false else search t f

/-- cooker.py:1883-1895: the recipes. -/
def bbfiles (skip : Str → Bool) (new : List Str) : List Str :=
  new.filter fun f => !skip f && endsWith f ".bb".toList

/-- cooker.py:1883-1895: the `.bbappend` files. -/
def appendFiles (skip : Str → Bool) (new : List Str) : List Str :=
  new.filter fun f => !skip f && !endsWith f ".bb".toList && endsWith f ".bbappend".toList

/-- cooker.py:1899: the name of the recipe that a `.bbappend` file is for. -/
def baseOf (f : Str) : Str := Meta.SsInst.replaceGo ".bbappend".toList ".bb".toList 0 (basename f)

/-- cooker.py:1924: the test whether the text of a `.bbappend` is for a recipe. -/
def applies (b f : Str) : Bool :=
  b == f || (b.contains '%' && startsWith b (f.take (b.takeWhile (· ≠ '%')).length))

/-- cooker.py:1916-1926, `get_file_appends`. -/
def appendsFor (appends : List Str) (fn : Str) : List Str :=
  appends.filter fun a => applies (baseOf a) (basename fn)

/-- cooker.py:1907-1912: one step; the names seen with their files, and the overlayed files with the file
above. -/
def overlayStep (st : List (Str × Str) × List (Str × Str)) (f : Str) : List (Str × Str) × List (Str × Str) :=
  match st.1.lookup (basename f) with
  | none => (st.1 ++ [(basename f, f)], st.2)
  | some top => (st.1, st.2 ++ [(top, f)])

/-- cooker.py:1902-1912: the overlayed files, each after the file that is above it. -/
def overlayed (bbs : List Str) : List (Str × Str) := (bbs.reverse.foldl overlayStep ([], [])).2

/-- cooker.py:1938-1952: the patterns that decide for some recipe. -/
def usedPatterns (ls : List Layer) (pkgs : List Str) : List Str :=
  pkgs.filterMap fun p => (layerOf ls p).map (·.text)

/-- cooker.py:1955-1963: the files that no layer decides for: those of the recipes, the `.bbappend` files and
all collected recipe files. -/
def restFiles (ls : List Layer) (pkgs appends fns : List Str) : List Str :=
  (pkgs ++ appends ++ fns).filter fun f => !(pkgs.contains f && (layerOf ls f).isSome)

/-- cooker.py:1965-1969, `already_matched`. -/
def alreadyMatched (ls : List Layer) (pkgs : List Str) (f : Str) : Bool :=
  ls.any fun l => (usedPatterns ls pkgs).contains l.text && l.re f

/-- cooker.py:1938-1980: whether the pattern of a layer counts as matching nothing. -/
def unmatched (ls : List Layer) (pkgs appends fns : List Str) (l : Layer) : Bool :=
  !(usedPatterns ls pkgs).contains l.text &&
    !(restFiles ls pkgs appends fns).any fun f => l.re f && !alreadyMatched ls pkgs f

/-- cooker.py:1982-1986: the layers that are warned about; `ignore` says for which
`BBFILE_PATTERN_IGNORE_EMPTY_x` is 1. -/
def warned (ls : List Layer) (ignore : Str → Bool) (pkgs appends fns : List Str) : List Str :=
  ((order ls).filter fun l => unmatched ls pkgs appends fns l && !ignore l.name).map (·.name)

end Bb.Collect
