import Verif.Py.Str
/-!
# Customization packages

Model of meta/classes-recipe/customization-base.bbclass, dpkg-customization.bbclass and image-customizations.bbclass: the names
of the packages that recipes build and the names that images install.  Variables are taken with their final values, with one
exception: `IMAGE`, on which the names depend.  Simplification: the value of `CUSTOMIZATION_VARS` that a user gives has no
reference to `IMAGE` of its own.
-/

namespace Isar.Custom

open Py

/-- The configuration that images and recipes share. -/
structure Conf where
  /-- `CUSTOMIZATION_VARS` without what the class appends, expanded. -/
  vars : Str
  /-- `CUSTOMIZATION_VARS_PREFIXED`, expanded. -/
  prefixed : Str
  /-- `CUSTOMIZATION_FOR_IMAGES`. -/
  forImages : Str

/-- customization-base.bbclass:11: the override is active. -/
def perImage (c : Conf) : Bool := strip c.forImages ≠ []

/-- customization-base.bbclass:9, 12: `CUSTOMIZATION_VARS` for a value of `IMAGE`. -/
def varsOf (c : Conf) (image : Str) : Str := if perImage c then c.vars ++ ' ' :: image else c.vars

/-- customization-base.bbclass:20.  The test is one for a part of a text, not for an item of a list. -/
def prefixOf (c : Conf) (image : Str) : Str :=
  join ['-'] ((words (varsOf c image)).filter fun v => isSub v c.prefixed)

/-- customization-base.bbclass:21. -/
def suffixOf (c : Conf) (image : Str) : Str :=
  join ['-'] ((words (varsOf c image)).filter fun v => !isSub v c.prefixed)

/-- dpkg-customization.bbclass:3-6: the name of a recipe with the file name `pn`. -/
def recipeName (c : Conf) (image pn : Str) : Str :=
  (if prefixOf c image ≠ [] then prefixOf c image ++ ['-'] else []) ++ pn ++
    (if suffixOf c image ≠ [] then '-' :: suffixOf c image else [])

/-- A variant of a recipe: its `PN`, its `BPN`, which is the name of the Debian package (debianize.bbclass:118), and its
`PROVIDES` (bitbake.conf sets it to `PN` at first). -/
structure Variant where
  pn : Str
  bpn : Str
  provides : List Str
deriving DecidableEq

/-- dpkg-customization.bbclass:16-19: the recipe itself. -/
def baseVariant (c : Conf) (pn : Str) : Variant :=
  let n := recipeName c [] pn
  ⟨n, n, [n, pn]⟩

/-- dpkg-customization.bbclass:21-33: the variant for an image of the list. -/
def imageVariant (c : Conf) (pn image : Str) : Variant :=
  let n := recipeName c image pn
  ⟨n, if endsWith n ('-' :: image) then n else n ++ '-' :: image, [n, pn ++ '-' :: image]⟩

/-- dpkg-customization.bbclass:8: all variants of a recipe. -/
def variants (c : Conf) (pn : Str) : List Variant :=
  baseVariant c pn :: (words c.forImages).map (imageVariant c pn)

/-- image-customizations.bbclass:8-14: the value of `IMAGE` in an image. -/
def imageOf (c : Conf) (image : Str) : Str :=
  if words c.forImages = [] ∨ image ∉ words c.forImages then [] else image

/-- image-customizations.bbclass:3-27: the packages that an image installs. -/
def packages (c : Conf) (image customizations : Str) : List Str :=
  let i := imageOf c image
  let p := if prefixOf c i ≠ [] then prefixOf c i ++ ['-'] else prefixOf c i
  let s := if suffixOf c i ≠ [] then "-customization-".toList ++ suffixOf c i else "-customization".toList
  (words customizations).map fun k => p ++ k ++ s

end Isar.Custom
