import Verif.Py.Str
/-!
# Model of `meta/classes-recipe/multiarch.bbclass`

Variables holding lists are lists of words.  `PROVIDES` is taken to be written without
references to `${PN}`, so that it is the same text in every variant of the recipe.
-/

namespace Isar.Multiarch
open Py

def native : Str := "-native".toList
def compat : Str := "-compat".toList
def archall : Str := "-archall".toList

/-- `s[:-n]` -/
def dropEnd (s : Str) (n : Nat) : Str := s.take (s.length - n)

/-- `pn_multiarch_target`, meta/classes-recipe/multiarch.bbclass:12-13. -/
def isTarget (pn : Str) : Bool := endsWith pn native || endsWith pn compat

/-- `extend_provides`, meta/classes-recipe/multiarch.bbclass:15-21; `suffix` is `-` followed by
the third argument. -/
def extendProvides (pn suffix : Str) (provides : List Str) : List Str :=
  if isTarget pn then provides
  else provides ++ (provides.filter fun p => !isTarget p).map (· ++ suffix) ++ [pn ++ suffix]

/-- The variables read by the anonymous function. -/
structure Conf where
  hostArch : Str
  distroArch : Str
  dpkgArch : Str
  /-- `isar_can_build_compat`, meta/classes-recipe/compat.bbclass -/
  canCompat : Bool
  cross : Bool

/-- `archDiffers` and `archIsAll`, meta/classes-recipe/multiarch.bbclass:9-10. -/
def Conf.differs (c : Conf) : Bool := c.hostArch ≠ c.distroArch
@[inherit_doc Conf.differs]
def Conf.isAll (c : Conf) : Bool := c.dpkgArch = "all".toList

/-- The part of the anonymous function which sets `PROVIDES` and `BBCLASSEXTEND`,
meta/classes-recipe/multiarch.bbclass:23-37.  The result is the new value of both. -/
def extend (c : Conf) (pn : Str) (provides classes : List Str) : List Str × List Str :=
  let (provides, classes) :=
    if c.canCompat then
      if c.isAll then (extendProvides pn compat provides, classes)
      else (provides, classes ++ ["compat".toList])
    else (provides, classes)
  if c.differs then (provides, classes ++ ["native".toList])
  else (extendProvides pn native provides, classes)

/-- Dropping `-native` build dependencies, meta/classes-recipe/multiarch.bbclass:39-49. -/
def dropNative (c : Conf) (depends : Option (List Str)) : Option (List Str) :=
  match depends with
  | none => none
  | some ds =>
    if c.differs && !c.cross then
      some (ds.map fun d => if endsWith d native then dropEnd d 7 else d)
    else some ds

/-- `fixup_depends` for one word, meta/classes-recipe/multiarch.bbclass:84-91. -/
def fixupWord (suffix v : Str) : List Str :=
  (if endsWith v compat || endsWith v native then [v] else []) ++
  (if endsWith v archall then (if suffix = native then [dropEnd v 8] else [])
   else [v ++ suffix])

/-- `fixup_depends` for one variable, meta/classes-recipe/multiarch.bbclass:79-92. -/
def fixup (suffix : Str) (val : List Str) : List Str := (val.map (fixupWord suffix)).flatten

/-- `PROVIDES` of the recipe variant named `pn` after `multiarch_virtclass_handler`
(meta/classes-recipe/multiarch.bbclass:94-110) and the anonymous function. -/
def finalProvides (c : Conf) (pn : Str) (provides : List Str) : List Str :=
  let p := if endsWith pn compat then fixup compat provides
           else if endsWith pn native then fixup native provides else provides
  (extend c pn p []).1

/-- The variants of a recipe: the recipe itself and, for every word of `BBCLASSEXTEND`, a copy
named `<pn>-<word>` (`multi_finalize`, bitbake/lib/bb/parse/ast.py), each with the names it
provides (its own name and `PROVIDES`, `add_cacheData`, bitbake/lib/bb/cache.py).  The recipe's
own `BBCLASSEXTEND` is empty. -/
def variants (c : Conf) (pn : Str) (provides : List Str) : List (Str × List Str) :=
  (pn, pn :: finalProvides c pn provides) ::
    (extend c pn provides []).2.map fun e =>
      let v := pn ++ '-' :: e
      (v, v :: finalProvides c v provides)

/-- `isar_multiarch_packages`, meta/classes-recipe/multiarch.bbclass:116-128, on words and
before the final join. -/
def packages (compatArch : Option Str) (hostArch : Str) (targets : List Str) : List Str :=
  targets.map fun t =>
    match endsWith t compat, compatArch with
    | true, some a => dropEnd t 7 ++ ':' :: a
    | _, _ => if endsWith t native then dropEnd t 7 ++ ':' :: hostArch else t

end Isar.Multiarch
