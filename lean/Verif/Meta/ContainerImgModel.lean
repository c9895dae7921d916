import Verif.Py.Str

/-!
# Container images

Model of `do_containerize` in meta/classes-recipe/imagetypes_container.bbclass:33-79.  Simplified: `umoci` is described by the names in the layout and the tree for
each; configuration of the image (command, entry point, path), owners and modes are left out, and commands fail only if described.
-/

namespace Isar.Meta.ContainerImg

open Py

inductive Node where
  | dir
  | file (content : Str)
  | link (target : Str)
deriving DecidableEq

/-- the entries below the root with the names on the way to them -/
abbrev Tree := List (List Str × Node)

/-- a layout: trees with their tags -/
abbrev Layout := List (Str × Tree)

def tmp : Str := "tmp".toList

def emptyTag : Str := "empty".toList

/-- `*` does not match names that begin with a point. -/
def visible (path : List Str) : Bool :=
  match path with
  | ('.' :: _) :: _ => false
  | _ => true

/-- imagetypes_container.bbclass:65; without any match the star itself is not found -/
def copy (rootfs : Tree) : Option Tree :=
  if rootfs.any fun e => visible e.1 then some (rootfs.filter fun e => visible e.1) else none

/-- below the directory of temporary files -/
def belowTmp (path : List Str) : Bool :=
  match path with
  | d :: _ :: _ => d == tmp
  | _ => false

/-- imagetypes_container.bbclass:67: `find` fails without the directory and does not follow a link. -/
def cleanTmp (t : Tree) : Option Tree :=
  match t.lookup [tmp] with
  | none => none
  | some .dir => some (t.filter fun e => !belowTmp e.1)
  | some _ => some t

/-- `umoci repack` and `umoci new` replace an image with the same tag. -/
def tagImage (l : Layout) (tag : Str) (t : Tree) : Layout := l.filter (fun x => x.1 != tag) ++ [(tag, t)]

/-- `umoci remove` -/
def untag (l : Layout) (tag : Str) : Layout := l.filter fun x => x.1 != tag

/-- imagetypes_container.bbclass:43-79 -/
def containerize (rootfs : Tree) (tag : Str) : Option Layout :=
  let l := tagImage [] emptyTag []
  match copy rootfs with
  | none => none
  | some t =>
    match cleanTmp t with
    | none => none
    | some t' => some (untag (tagImage l tag t') emptyTag)

/-- imagetypes_container.bbclass:98-114: what `skopeo` reads for the image that is deployed -/
def deployed (rootfs : Tree) (tag : Str) : Option Tree :=
  match containerize rootfs tag with
  | none => none
  | some l => l.lookup tag

end Isar.Meta.ContainerImg
