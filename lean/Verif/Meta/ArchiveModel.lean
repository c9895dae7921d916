import Verif.Py.Str

/-!
# Archives, compressed file systems and packages made of plain files

Model of meta/classes-recipe/imagetypes.bbclass:8-14 (archive of the root file system; the SDK, sdk.bbclass:56, has another directory in place of the point),
meta/classes-recipe/squashfs.bbclass:26-49 (left out directories) and meta/classes-recipe/dpkg-raw.bbclass:25-39 (the list of the files of a package).
GNU tar, mksquashfs and dh_install are not part of the code; what they do with the arguments is written after their documentation.
-/

namespace Isar.Meta.Archive

open Py

/-! ## Archives -/

/-- `s|pat|rep|` of tar: the first place; `rep` has no special characters -/
def replaceFirst (pat rep : Str) : Str → Str
  | [] => if pat = [] then rep else []
  | c :: s => if startsWith (c :: s) pat then rep ++ (c :: s).drop pat.length else c :: replaceFirst pat rep s

/-- What a name is in a file system; a file holds its content, all names of a hard link but the first are links to that. -/
inductive Entry
  | dir
  | file (content : Str)
  | symlink (target : Str)
  | hardlink (name : Str)
deriving DecidableEq, Repr

/-- the directory that is packed -/
def rootfs : Str := "rootfs".toList

/-- tar applies the transformation to names and to the targets of both kinds of links -/
def transform (rep : Str) (m : Str × Entry) : Str × Entry :=
  (replaceFirst rootfs rep m.1, match m.2 with
    | .symlink t => .symlink (replaceFirst rootfs rep t)
    | .hardlink n => .hardlink (replaceFirst rootfs rep n)
    | e => e)

/-- imagetypes.bbclass:10-14: the members of the archive.  A path is the text below the directory: empty or beginning with a slash.  Other file systems that are mounted are left out. -/
def pack (rep : Str) (fs : List (Str × Entry)) : List (Str × Entry) :=
  fs.map fun x => transform rep (rootfs ++ x.1, match x.2 with
    | .hardlink n => .hardlink (rootfs ++ n)
    | e => e)

/-- Unpacking into a directory: the members and the names of hard links are below `rep` in it. -/
def unpack (rep : Str) (ms : List (Str × Entry)) : List (Str × Entry) :=
  ms.map fun x => (x.1.drop rep.length, match x.2 with
    | .hardlink n => .hardlink (n.drop rep.length)
    | e => e)

/-! ## Compressed file systems -/

/-- squashfs.bbclass:30-35: the patterns, as components -/
def excludes (dirs : List (List Str)) : List (List Str) := dirs.map fun d => d ++ [['*']]

/-- `fnmatch` of one component with FNM_PERIOD, for patterns without special characters other than the one asterisk -/
def matchComp (pat name : Str) : Bool :=
  if pat = ['*'] then name.head? ≠ some '.' else pat == name

/-- mksquashfs leaves out a path that matches and all below it. -/
def excluded : List Str → List Str → Bool
  | [], _ => true
  | _ :: _, [] => false
  | p :: ps, c :: cs => matchComp p c && excluded ps cs

/-- squashfs.bbclass:41-49: the paths in the image -/
def squash (dirs : List (List Str)) (fs : List (List Str)) : List (List Str) :=
  if dirs = [] then fs else fs.filter fun p => !(excludes dirs).any fun e => excluded e p

/-! ## Packages of plain files -/

/-- dpkg-raw.bbclass:28-30: the lines of the list for the names in the directory (in the order of `sort`, here that of the list) -/
def installLines (names : List Str) : List Str := names.filter (· ≠ "debian".toList)

/-- dh_install, one line: a single word is a name that is installed where it is; with more words the last one is a directory to install the others in.  `none` is the failure for a missing file.
Names have no wildcards. -/
def dhLine (have_ : List Str) (line : Str) : Option (List (Str × Str)) :=
  match words line with
  | [] => some []
  | [w] => if w ∈ have_ then some [(w, w)] else none
  | w :: ws =>
    let all := w :: ws
    let dest := all.getLast (List.cons_ne_nil _ _)
    if all.dropLast.all (fun s => decide (s ∈ have_)) then some (all.dropLast.map fun s => (s, dest ++ '/' :: s)) else none

/-- all lines -/
def dhInstall (have_ : List Str) : List Str → Option (List (Str × Str))
  | [] => some []
  | l :: ls => match dhLine have_ l, dhInstall have_ ls with
    | some a, some b => some (a ++ b)
    | _, _ => none

/-- dpkg-raw.bbclass:25-39: source and place in the package of everything at the top of the directory -/
def package (names : List Str) : Option (List (Str × Str)) := dhInstall names (installLines names)

end Isar.Meta.Archive
