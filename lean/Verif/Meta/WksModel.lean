import Verif.Py.Path
import Verif.Py.Dict
/-!
# The description of a disk image and its variables

Model of meta/classes-recipe/imagetypes_wic.bbclass (which file describes the image, its template, the variables
for wic), of the substitution in meta/classes-global/template.bbclass with `envsubst`, and of `BitbakeVars` in
scripts/lib/wic/misc.py.  Whether a file exists is a parameter.  Not modelled: reading variables by running
`bitbake -e`, relative entries in `BBPATH` and a colon in `COREBASE`, and what `envsubst` does with names that have
a `$` in them.
-/

namespace Meta.Wks

open Py

/-! ## The file -/

/-- imagetypes_wic.bbclass:33-34: the suffix. -/
def withSuffix (f : Str) : Str :=
  if endsWith f ".wks".toList || endsWith f ".wks.in".toList then f else f ++ ".wks".toList

/-- imagetypes_wic.bbclass:40-51: where is searched.  `corebase_paths` is the same list as `bbpaths`, so that
`COREBASE` is in both. -/
def searchPath (bbpath : List Str) (corebase : Option Str) : List Str :=
  let ps := bbpath ++ corebase.toList
  ps.map (· ++ "/wic".toList) ++ ps.map (· ++ "/scripts/lib/wic/canned-wks".toList)

/-- bb/utils.py:959-989, `which`, with absolute paths. -/
def which (there : Str → Bool) : List Str → Str → Option Str
  | [], _ => none
  | p :: ps, f => if there (pathJoin p f) then some (pathJoin p f) else which there ps f

/-- imagetypes_wic.bbclass:30-55: the file; `none` is `bb.fatal`. -/
def wksFile (there : Str → Bool) (bbpath : List Str) (corebase : Option Str) (f : Str) : Option Str :=
  if f = [] then none
  else if startsWith f "/".toList then (if there (withSuffix f) then some (withSuffix f) else none)
  else which there (searchPath bbpath corebase) (withSuffix f)

/-! ## The template -/

/-- imagetypes_wic.bbclass:76: what a name may consist of. -/
def nameChar (c : Char) : Bool := !['{', '}', '@', '\n', '\t', ' ', ':'].contains c

/-- imagetypes_wic.bbclass:76-81: `findall` of `\${(?P<name>[^{}@\n\t :]+)}`.  The number bounds the steps. -/
def findVars : Nat → Str → List Str
  | 0, _ => []
  | _ + 1, [] => []
  | k + 1, '$' :: '{' :: s =>
    match s.takeWhile nameChar, s.dropWhile nameChar with
    | c :: n, '}' :: r => (c :: n) :: findVars k r
    | _, _ => findVars k ('{' :: s)
  | k + 1, _ :: s => findVars k s

/-- Letters of a name for `envsubst`. -/
def idStart (c : Char) : Bool := c.isAlpha || c == '_'
@[inherit_doc idStart]
def idChar (c : Char) : Bool := c.isAlphanum || c == '_'

/-- The name at the front of a text, and what follows; for `envsubst`. -/
def ident (s : Str) : Str × Str :=
  match s with
  | [] => ([], [])
  | c :: r => if idStart c then (c :: r.takeWhile idChar, r.dropWhile idChar) else ([], c :: r)

/-- template.bbclass:23-24, 52-58: `envsubst` with a list of names.  The number bounds the steps. -/
def substGo (names : List Str) (env : Str → Option Str) : Nat → Str → Str
  | 0, _ => []
  | _ + 1, [] => []
  | k + 1, '$' :: '{' :: s =>
    match ident s with
    | (n, '}' :: r) =>
      if n ∈ names then (env n).getD [] ++ substGo names env k r
      else "${".toList ++ n ++ substGo names env k ('}' :: r)
    | (n, r) => "${".toList ++ n ++ substGo names env k r
  | k + 1, '$' :: s =>
    match ident s with
    | (n, r) => (if n ∈ names then (env n).getD [] else '$' :: n) ++ substGo names env k r
  | k + 1, c :: s => c :: substGo names env k s

/-- template.bbclass:50-58. -/
def subst (names : List Str) (env : Str → Option Str) (s : Str) : Str := substGo names env (s.length + 1) s

/-- template.bbclass:28-32: the environment of `envsubst`: that of the process, with the values that are not
empty. -/
def envOf (environ : Str → Option Str) (vars : List Str) (get : Str → Option Str) (v : Str) : Option Str :=
  if v ∈ vars then
    match get v with
    | some (c :: x) => some (c :: x)
    | _ => environ v
  else environ v

/-- template.bbclass:13-58: a template with the variables of the recipe: `TEMPLATE_VARS` and those found. -/
def transform (environ get : Str → Option Str) (tvars : List Str) (t : Str) : Str :=
  let vars := tvars ++ findVars (t.length + 1) t
  subst vars (envOf environ vars get) t

/-- imagetypes_wic.bbclass:61-64: the file that wic reads; the template is there. -/
def fullPath (workdir f : Str) : Str :=
  if f.drop (splitextRoot f).length = ".in".toList then pathJoin workdir (basename (splitextRoot f)) else f

/-- imagetypes_wic.bbclass:68: the template in the work directory. -/
def templateFile (f : Str) : Str := basename (splitextRoot f) ++ ".tmpl".toList

/-! ## The variables for wic -/

/-- imagetypes_wic.bbclass:123-125: one variable. -/
def envLine (get : Str → Option Str) (v : Str) : Str :=
  match get v with
  | some (c :: x) => v ++ "=\"".toList ++ strip (c :: x) ++ "\"\n".toList
  | _ => []

/-- imagetypes_wic.bbclass:112-125: the file. -/
def writeEnv (get : Str → Option Str) (vars : List Str) : Str := (vars.map (envLine get)).flatten

/-- misc.py:192: what a key may consist of. -/
def keyChar (c : Char) : Bool := c.isAlphanum || "-_+./~".toList.contains c

/-- `s.strip('"')` -/
def stripQuotes (s : Str) : Str := ((s.dropWhile (· == '"')).reverse.dropWhile (· == '"')).reverse

/-- misc.py:192-203, `_parse_line`, for a line without its end. -/
def parseLine (l : Str) : Option (Str × Str) :=
  match l.takeWhile keyChar, l.dropWhile keyChar with
  | c :: k, '=' :: v => some (c :: k, stripQuotes v)
  | _, _ => none

/-- misc.py:219-221: one line more. -/
def addLine (d : Dict Str) (l : Str) : Dict Str :=
  match parseLine l with
  | some (k, v) => Dict.set d k v
  | none => d

/-- A file is read with all its ends of lines as one character. -/
def newline (c : Char) : Char := if c = '\r' then '\n' else c

/-- misc.py:219-221: all lines. -/
def readEnv (s : Str) : Dict Str := (splitOn '\n' (s.map newline)).foldl addLine []

/-- What is kept: the variables of each image; misc.py:181-190. -/
abbrev Kept := List (Option Str × Dict Str)

/-- misc.py:211-212: the image. -/
def asked (deflt : Str) (image : Option Str) : Str :=
  match image with
  | some (c :: x) => c :: x
  | _ => deflt

/-- misc.py:205-256, `get_var` with a directory of files and a default image: the value, and what is kept then.
`file` gives the content of the file of an image. -/
def getVar (file : Str → Option Str) (deflt : Str) (kept : Kept) (var : Str) (image : Option Str) (cache : Bool) :
    Option Str × Kept :=
  let i := asked deflt image
  match kept.lookup (some i) with
  | some d => (d.lookup var, if cache then kept else kept.filter fun e => e.1 ≠ some i)
  | none =>
    match file i with
    | none => (none, kept)
    | some s =>
      let k1 : Kept := (some i, readEnv s) :: kept
      let k2 : Kept := if cache ∧ (k1.filter fun e => e.1 ≠ none).length = 1 then (none, readEnv s) :: k1 else k1
      ((readEnv s).lookup var, if cache then k2 else k2.filter fun e => e.1 ≠ some i)

/-- A history of questions: the answers. -/
def asks (file : Str → Option Str) (deflt : Str) : Kept → List (Str × Option Str × Bool) → List (Option Str)
  | _, [] => []
  | kept, q :: qs =>
    (getVar file deflt kept q.1 q.2.1 q.2.2).1 :: asks file deflt (getVar file deflt kept q.1 q.2.1 q.2.2).2 qs

end Meta.Wks
