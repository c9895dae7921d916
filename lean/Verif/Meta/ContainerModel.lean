import Verif.Py.Str

/-
Images of containers: how they are named when they are fetched (meta/lib/container_fetcher.py), how they are put into a package
(meta/classes-recipe/container-loader.bbclass) and how they are loaded on the device
(meta/recipes-support/container-loader/files/container-loader.sh.tmpl).
-/

namespace Meta.Container
open Py

/-- What `SRC_URI` names: host, path, and the parameters `tag` and `digest`. -/
structure Url where
  host : Str
  path : Str
  tag : Option Str
  digest : Option Str
deriving DecidableEq

/-- container_fetcher.py:22-24; container-loader.bbclass:49. -/
def tagOf (u : Url) : Str := u.tag.getD "latest".toList

/-- container_fetcher.py:39, `ud.container_name`; container-loader.bbclass:50, `image_name`. -/
def nameOf (u : Url) : Str := u.host ++ if u.path ≠ ['/'] then u.path else []

/-- `replace(a, b)` for characters. -/
def subChar (a b : Char) (s : Str) : Str := s.map fun c => if c = a then b else c

/-- container_fetcher.py:42, `ud.localname`. -/
def localName (u : Url) : Str := subChar '/' '.' (nameOf u)

/-- container_fetcher.py:30-37, `ud.arch` and `ud.variant`. -/
def archOf (arch : Str) : Str × Option Str :=
  if arch = "armhf".toList then ("arm".toList, some "v7".toList)
  else if arch = "armel".toList then ("arm".toList, some "v6".toList)
  else (arch, none)

/-- container_fetcher.py:45: the end of the name of the file. -/
def idOf (u : Url) : Str := match u.digest with
  | some d => if d = [] then tagOf u else subChar ':' '-' d
  | none => tagOf u

/-- container_fetcher.py:44. -/
def variantDir : Option Str → Str
  | some v => v ++ ['/']
  | none => []

/-- container_fetcher.py:43-46, `ud.localfile`: the file in `DL_DIR`. -/
def localFile (arch : Str) (u : Url) : Str :=
  "container-images/".toList ++ (archOf arch).1 ++ ['/'] ++ variantDir (archOf arch).2 ++ localName u ++ ['_'] ++ idOf u ++ ".zst".toList

/-- container_fetcher.py:103, the file in `WORKDIR`; container-loader.bbclass:51-52, the file in the package. -/
def imageFile (u : Url) : Str := localName u ++ [':'] ++ tagOf u ++ ".zst".toList

/-- container_fetcher.py:74, the name inside of the archive; container-loader.bbclass:57, the name in the list. -/
def refOf (u : Url) : Str := nameOf u ++ [':'] ++ tagOf u

/-- container_fetcher.py:102-105, for each URL in turn: `WORKDIR` has the image of this URL under this name, the last one if there
are more. -/
def unpackAll : List Url → (Str → Option Url) → (Str → Option Url)
  | [], w => w
  | u :: us, w => unpackAll us fun f => if f = imageFile u then some u else w f

/-! ### On the device -/

/-- A line of `image.list`, container-loader.bbclass:57-59. -/
structure Line where
  image : Str
  ref : Str
deriving DecidableEq

/-- container-loader.bbclass:44-59: the lines. -/
def lines (us : List Url) : List Line := us.map fun u => ⟨imageFile u, refOf u⟩

/-- What is on the device: files in `images`, what the engine has, and all that was ever loaded. -/
structure Dev where
  files : List Str
  engine : List Str
  loads : List Str
deriving DecidableEq

/-- `engine load` of a file: `content` is the name in the archive, `ok` is whether it can be loaded. -/
structure Archive where
  content : Str → Str
  ok : Str → Bool

/-- container-loader.sh.tmpl:12-13: the image is loaded. -/
def load (ar : Archive) (l : Line) (s : Dev) : Dev :=
  { s with engine := ar.content l.image :: s.engine, loads := ar.content l.image :: s.loads }

/-- container-loader.sh.tmpl:14-16. -/
def delete (l : Line) (s : Dev) : Dev := { s with files := s.files.filter (· ≠ l.image) }

/-- container-loader.sh.tmpl:10-11. -/
def wanted (l : Line) (s : Dev) : Bool := l.image ∈ s.files && decide (l.ref ∉ s.engine)

/-- container-loader.sh.tmpl:9-18: all states in which it may be stopped, the last one being the end; after a failure `set -e`
stops it.  The pipe to the engine is one step. -/
def states (ar : Archive) (del : Bool) : List Line → Dev → List Dev
  | [], s => [s]
  | l :: ls, s =>
    if wanted l s then
      if ar.ok l.image then
        s :: (if del then load ar l s :: states ar del ls (delete l (load ar l s)) else states ar del ls (load ar l s))
      else [s]
    else states ar del ls s

/-- A run of the script that is not stopped. -/
def run (ar : Archive) (del : Bool) (ls : List Line) (s : Dev) : Dev := (states ar del ls s).getLast?.getD s

/-- Runs of the script, each to its end or stopped. -/
inductive After (ar : Archive) (del : Bool) (ls : List Line) : Dev → Dev → Prop where
  | none (s) : After ar del ls s s
  | some {s s' s''} : After ar del ls s s' → s'' ∈ states ar del ls s' → After ar del ls s s''

end Meta.Container
