import Verif.Py.Str
/-!
# Images and SDKs as tar files

Model of the image type `tar` of meta/classes-recipe/imagetypes.bbclass:6-13 and of the other name for SDKs (sdk.bbclass:56).  `tar` packs the
directory `rootfs` and changes names with `--transform='s|rootfs|.|'`.  From the documentation of GNU tar: the first match in a name is replaced,
in names of members, and also in targets of symbolic links and of hard links, since none of the flags `R`, `S` and `H` is given.
-/

namespace Meta.TarImage
open Py

def rootfs : Str := "rootfs".toList

/-- What is at a path.  Hard links name the path of the file that was packed before. -/
inductive Node where
  | dir
  | file (content : Nat)
  | sym (target : Str)
  | hard (path : Str)
deriving DecidableEq

/-- The root file system in the order in which it is read: paths such as `/etc/hosts`, and the empty one for the directory itself. -/
abbrev Tree := List (Str × Node)

/-- `s|rootfs|r|`: the first match is replaced.  Simplified: `r` has no character that means something to `sed`. -/
def transform (r : Str) : Str → Str
  | [] => []
  | c :: s => if startsWith (c :: s) rootfs then r ++ (c :: s).drop rootfs.length else c :: transform r s

/-- One member of the tar file. -/
def packOne (r : Str) : Str × Node → Str × Node
  | (p, .sym t) => (transform r (rootfs ++ p), .sym (transform r t))
  | (p, .hard q) => (transform r (rootfs ++ p), .hard (transform r (rootfs ++ q)))
  | (p, n) => (transform r (rootfs ++ p), n)

/-- imagetypes.bbclass:10-13, `IMAGE_CMD:tar`.  Simplified: one file system. -/
def pack (r : Str) (t : Tree) : Tree := t.map (packOne r)

end Meta.TarImage
