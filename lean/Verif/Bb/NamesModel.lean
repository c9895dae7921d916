import Verif.Py.Path
import Verif.Py.Dict
/-!
# Names and versions from names of files

Model of `vars_from_file` in `bitbake/lib/bb/parse/__init__.py` and of its use in `meta/conf/bitbake.conf`.
-/

namespace Bb.Names
open Py

/-- The variable `__pkgsplit_cache__`. -/
abbrev Cache := Dict (List (Option Str))

/-- parse/__init__.py:147-164, `vars_from_file`.  There is no result if a `ParseError` is raised.  The list that is stored
is the one that is filled up afterwards. -/
def varsFromFile (cache : Cache) (file : Str) : Cache × Option (List (Option Str)) :=
  if file = [] ∨ (endsWith file ".bb".toList || endsWith file ".bbappend".toList) = false then (cache, some [none, none, none])
  else match cache.lookup file with
    | some r => (cache, some r)
    | none =>
      let parts := (splitOn '_' (splitextRoot (basename file))).map some
      if 3 < parts.length then (cache.set file parts, none)
      else
        let parts := parts ++ List.replicate (3 - parts.length) none
        (cache.set file parts, some parts)

/-- What the process has found before. -/
def after (files : List Str) : Cache := files.foldl (fun c f => (varsFromFile c f).1) []

/-- Is it a string that Python takes as true? -/
def orElse (o : Option Str) (s : String) : Str := match o with
  | some (c :: r) => c :: r
  | _ => s.toList

/-- meta/conf/bitbake.conf:33-36, the variables `PN`, `PV` and `PR`. -/
def variables (cache : Cache) (file : Str) : Option (Str × Str × Str) := (varsFromFile cache file).2.map fun l =>
  (orElse (l.getD 0 none) "defaultpkgname", orElse (l.getD 1 none) "1.0", orElse (l.getD 2 none) "r0")

end Bb.Names
