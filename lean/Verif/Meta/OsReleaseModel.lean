import Verif.Py.Str
/-!
# Marking an image in `/etc/os-release`

Model of `update_etc_os_release` and `image_postprocess_mark` in meta/classes-recipe/image-postproc-extension.bbclass.
Simplifications: the values have no characters that the shell or its `echo` treat in a special way (quotes, dollar signs,
backslashes); the file is a text of lines.
-/

namespace Meta.OsRelease

open Py

/-- `sed '/^KEY=.*/d'` on the pieces of a text between line feeds: a last line without a line feed stays without one. -/
def delGo (key : Str) : List Str → Str
  | [] => []
  | [l] => if startsWith l (key ++ ['=']) then [] else l
  | l :: m :: ls => if startsWith l (key ++ ['=']) then delGo key (m :: ls) else l ++ '\n' :: delGo key (m :: ls)

/-- meta/classes-recipe/image-postproc-extension.bbclass:20: `sed -i '/^KEY=.*/d'`. -/
def del (key s : Str) : Str := delGo key (splitOn '\n' s)

/-- meta/classes-recipe/image-postproc-extension.bbclass:19-23: one field, if there is a value. -/
def setField (key value s : Str) : Str :=
  if value ≠ [] then del key s ++ (key ++ "=\"".toList ++ value ++ "\"".toList ++ ['\n']) else s

/-- meta/classes-recipe/image-postproc-extension.bbclass:19-33, 50-54: the file after an image was marked. -/
def mark (buildId variant version s : Str) : Str :=
  setField "VARIANT_VERSION".toList version (setField "VARIANT".toList variant (setField "BUILD_ID".toList buildId s))

end Meta.OsRelease
