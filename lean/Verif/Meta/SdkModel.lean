import Verif.Py.Path
/-!
# The SDK in another place

Model of the part of `sdkchroot_finalize` (meta/classes-recipe/sdk.bbclass) that makes all links relative, and of the
interpreters in meta/recipes-devtools/sdk-files/files/relocate-sdk.sh.

Simplifications: names of files have no white space and no patterns (the scripts do not quote them); permissions are not
modelled; a link with a slash at its end is the link without.
-/

namespace Meta.Sdk

open Py

/-- What is in a place of a file system. -/
inductive Node where
  | dir
  | file
  | link (target : Str)
deriving DecidableEq

/-- A file system: what is at the path with these components. -/
abbrev Fs := List Str → Option Node

/-! ## Links -/

/-- `realpath --no-symlinks -m --relative-to=base path` for absolute paths: it does not look at the file system. -/
def relativeTo (base path : Str) : Str :=
  let s := normComps base
  let p := normComps path
  let i := commonLen s p
  let r := List.replicate (s.length - i) dotdot ++ p.drop i
  if r = [] then dot else join ['/'] r

/-- meta/classes-recipe/sdk.bbclass:90-95: the new target of a link. -/
def newTarget (rootfs link target : Str) : Str :=
  if isabs target then relativeTo (dirname link) (rootfs ++ target) else target

/-- meta/classes-recipe/sdk.bbclass:89-101: all links of the root file system, which is at `/`, joined by slashes, `rootfs`. -/
def finalize (rootfs : List Str) (fs : Fs) : Fs := fun p =>
  match fs p with
  | some (.link t) => some (.link (newTarget (render rootfs) (render (rootfs ++ p)) t))
  | x => x

/-! ## Interpreters -/

/-- A part of a pattern of the shell. -/
inductive Tok where
  | lit (c : Char)
  | one
  | any
  | set (cs : Str)
deriving DecidableEq

/-- A pattern of the shell.  Ranges and classes in brackets are not modelled. -/
def toksGo : Nat → Str → List Tok
  | 0, _ => []
  | _ + 1, [] => []
  | n + 1, c :: s =>
    if c = '*' then .any :: toksGo n s
    else if c = '?' then .one :: toksGo n s
    else if c = '\\' then (match s with
      | [] => [.lit '\\']
      | d :: s => .lit d :: toksGo n s)
    else if c = '[' ∧ s.contains ']' = true then .set (s.takeWhile (· ≠ ']')) :: toksGo n ((s.dropWhile (· ≠ ']')).drop 1)
    else .lit c :: toksGo n s

def toks (s : Str) : List Tok := toksGo s.length s

def tails : Str → List Str
  | [] => [[]]
  | c :: s => (c :: s) :: tails s

/-- If a pattern matches a text. -/
def matches' : List Tok → Str → Bool
  | [], s => s.isEmpty
  | .lit c :: p, s => (match s with
    | [] => false
    | x :: s => x == c && matches' p s)
  | .one :: p, s => (match s with
    | [] => false
    | _ :: s => matches' p s)
  | .set cs :: p, s => (match s with
    | [] => false
    | x :: s => cs.contains x && matches' p s)
  | .any :: p, s => (tails s).any (matches' p)

/-- `${s#pattern}`: without the shortest prefix that matches. -/
def cutPrefix (pat s : Str) : Str :=
  match (List.range (s.length + 1)).find? fun n => matches' (toks pat) (s.take n) with
  | some n => s.drop n
  | none => s

/-- `${s%pattern}`: without the shortest suffix that matches. -/
def cutSuffix (pat s : Str) : Str :=
  match (List.range (s.length + 1)).find? fun n => matches' (toks pat) (s.drop (s.length - n)) with
  | some n => s.take (s.length - n)
  | none => s

/-- meta/recipes-devtools/sdk-files/files/relocate-sdk.sh:31-39: the interpreter of a program after the script, with the new
place of the SDK. -/
def relocate (root interpreter : Str) : Str :=
  let old := cutSuffix "/lib*/ld-linux*".toList interpreter
  let rest := cutPrefix old interpreter
  if rest ≠ [] then root ++ rest else interpreter

end Meta.Sdk
