import Verif.Py.Str

/-!
# Additional code in dracut modules

Model of meta/classes-recipe/dracut-module.bbclass: `replace_marker_with_file_content` and `do_add_additional_dracut_configuration`.  A file is
the list of its lines.  Simplified: lines end with line feeds only (`splitlines` knows more, line 53), a file is written at once (line 59), and
what the regular expression of line 44 matches is described in terms of lines.
-/

namespace Meta.DracutMod

open Py

/-- a line for which `line.strip()` is false, dracut-module.bbclass:52 -/
def blank (l : Str) : Bool := l.all isWs

/-- `\s*` before the marker, dracut-module.bbclass:44 -/
def lead (l : Str) : Str := l.takeWhile isWs

/-- dracut-module.bbclass:44: the first line that is the marker with white space around it; with what is before and after it -/
def findMarker (marker : Str) : List Str → Option (List Str × Str × List Str)
  | [] => none
  | l :: ls =>
    if strip l = marker then some ([], l, ls)
    else match findMarker marker ls with
      | none => none
      | some (pre, m, post) => some (l :: pre, m, post)

/-- dracut-module.bbclass:41: `rstrip('\n')` -/
def trim (content : List Str) : List Str := (content.reverse.dropWhile (fun l => l == [])).reverse

/-- dracut-module.bbclass:48-54: the group `indent` is the blank lines before the marker and the white space in its line, as `\s*` also matches
line feeds. -/
def indent (blanks : List Str) (w : Str) (content : List Str) : List Str :=
  if content = [] then [[]] else content.flatMap fun l => if blank l then [[]] else blanks ++ [w ++ l]

/-- dracut-module.bbclass:37-59; `none` is `bb.fatal`.  The match begins with the blank lines before the marker and ends with the blank lines
after it. -/
def replaceMarker (marker : Str) (content tmpl : List Str) : Option (List Str) :=
  match findMarker marker tmpl with
  | none => none
  | some (pre, m, post) =>
    some ((pre.reverse.dropWhile blank).reverse ++ indent (pre.reverse.takeWhile blank).reverse (lead m) (trim content)
      ++ post.dropWhile blank)

/-- One entry of the table in dracut-module.bbclass:79-85: the marker, and the content of the file if the variable is set. -/
structure Entry where
  marker : Str
  content : Option (List Str)

/-- dracut-module.bbclass:88-91 -/
def addOne (e : Entry) (tmpl : List Str) : Option (List Str) :=
  match e.content with
  | none => some tmpl
  | some c => replaceMarker e.marker c tmpl

/-- dracut-module.bbclass:87-91: the template after all entries -/
def addAll : List Entry → List Str → Option (List Str)
  | [], t => some t
  | e :: es, t =>
    match addOne e t with
    | none => none
    | some t' => addAll es t'

/-- dracut-module.bbclass:80-84 -/
def markers : List Str :=
  ["# ISAR_DRACUT_CHECK".toList, "# ISAR_DRACUT_DEPENDS".toList, "# ISAR_DRACUT_CMDLINE".toList, "# ISAR_DRACUT_INSTALL".toList,
    "# ISAR_DRACUT_KERNELINSTALL".toList]

/-- meta/recipes-initramfs/dracut-module/files/module-setup.sh.tmpl, the last lines -/
def shipped : List Str :=
  ["installkernel() {".toList, "    # ISAR_DRACUT_KERNELINSTALL".toList, "    return 0".toList, "}".toList, [],
    "cmdline() {".toList, "    # ISAR_DRACUT_CMDLINE".toList, "    return 0".toList, "}".toList, []]

/-- dracut-module.bbclass:18: `DRACUT_MODULE_NAME` -/
def moduleName (pn : Str) : Str := if startsWith pn "dracut-".toList then pn.drop 7 else pn

end Meta.DracutMod
