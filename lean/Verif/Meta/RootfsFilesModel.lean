import Verif.Py.Sort

/-
Files that are added to a root file system (meta/classes-recipe/rootfs-add-files.bbclass) and its locales
(meta/classes-recipe/image-locales-extension.bbclass).
-/

namespace Meta.RootfsFiles
open Py

/-! ### Files -/

/-- An entry of `ROOTFS_ADDITIONAL_FILES`: its flags. -/
structure Entry where
  dest : Str
  source : Str
deriving DecidableEq

/-- Files by name.  Directories are left out, and two names are never the same file. -/
abbrev Files := Str → Option Str

/-- The host, and the root file system, whose names are without `ROOTFSDIR`. -/
structure World where
  host : Files
  rootfs : Files

def put (fs : Files) (p : Str) (c : Option Str) : Files := fun q => if q = p then c else fs q

/-- rootfs-add-files.bbclass:26-27.  `rm` is given the name on the host.  Without the right to do so it fails, and the task
with it, if there is a file. -/
def removed (may : Str → Bool) (e : Entry) (w : World) : Option World :=
  if w.rootfs e.dest ≠ none then
    if w.host e.dest ≠ none ∧ may e.dest = false then none else some { w with host := put w.host e.dest none }
  else some w

/-- rootfs-add-files.bbclass:33: `touch`. -/
def touch (e : Entry) (w : World) : World := { w with rootfs := put w.rootfs e.dest (some ((w.rootfs e.dest).getD [])) }

/-- rootfs-add-files.bbclass:36-39: `cp`, which fails if there is no source. -/
def copy (e : Entry) (w : World) : Option World := match w.host e.source with
  | none => none
  | some c => some { w with rootfs := put w.rootfs e.dest (some c) }

/-- rootfs-add-files.bbclass:18-40, `rootfs_add_files`.  The `return` of line 34 ends the loop. -/
def addFiles (may : Str → Bool) : List Entry → World → Option World
  | [], w => some w
  | e :: es, w => match removed may e w with
    | none => none
    | some w => if e.source = [] then some (touch e w) else match copy e w with
      | none => none
      | some w => addFiles may es w

/-! ### Locales -/

/-- `split('\\n')`: the separator has two characters. -/
def splitNlGo : Str → Str → List Str
  | [], cur => [cur]
  | [c], cur => [cur ++ [c]]
  | c :: d :: s, cur => if c = '\\' ∧ d = 'n' then cur :: splitNlGo s [] else splitNlGo (d :: s) (cur ++ [c])

def splitNl (s : Str) : List Str := splitNlGo s []

/-- image-locales-extension.bbclass:15-17: what is joined. -/
def genLines (localeGen : Str) : List Str := sortSet (((splitNl localeGen).map strip).filter (· ≠ []))

/-- image-locales-extension.bbclass:13-17, `get_locale_gen`. -/
def localeGen (sep v : Str) : Str := join sep (genLines v)

/-- `x.split(c)[0]`. -/
def firstPart (c : Char) (s : Str) : Str := (splitOn c s).head?.getD []

/-- image-locales-extension.bbclass:24-26: names for one line. -/
def keepNames (j : Str) : List Str :=
  let w := (words j).head?.getD []
  [firstPart '_' w, firstPart '.' w, w]

/-- image-locales-extension.bbclass:21-26: what is joined. -/
def nopurgeLines (v : Str) : List Str := sortSet ((((splitNl v).filter (strip · ≠ [])).flatMap keepNames).map strip)

/-- image-locales-extension.bbclass:19-26, `get_nopurge`. -/
def nopurge (v : Str) : Str := join ['\n'] (nopurgeLines v)

end Meta.RootfsFiles
