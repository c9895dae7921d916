import Verif.Py.Sort
/-!
# The sources of packages

Model of `debsrc_source_version_filter` and `debsrc_download` in `meta/classes-recipe/deb-dl-dir.bbclass`.

Left out: what `apt-cache`, `apt-ftparchive` and `apt-get` do (their outputs are inputs of the model), the
lock, the temporary files, and whether directories can be made.  Texts are sorted by characters, as in the
C locale; `sort` and `comm` use the same order.
-/

namespace Meta.DebSrc
open Py

/-- The variables of the awk program and what it has printed. -/
structure Awk where
  s : Str
  v : Str
  out : List Str
deriving DecidableEq, Repr

/-- awk: the field `$n` of a line. -/
def field (n : Nat) (l : Str) : Str := (words l).getD (n - 1) []

/-- deb-dl-dir.bbclass:23, `/^Package:/ { s=$2; v="" }` -/
def rulePackage (st : Awk) (l : Str) : Awk :=
  if startsWith l "Package:".toList then { st with s := field 2 l, v := [] } else st

/-- deb-dl-dir.bbclass:24, `/^Version:/ { if (v == "") v=$2 }` -/
def ruleVersion (st : Awk) (l : Str) : Awk :=
  if startsWith l "Version:".toList ∧ st.v = [] then { st with v := field 2 l } else st

/-- deb-dl-dir.bbclass:25, `/^Source:/ { s=$2; if ($3 ~ /^\(/) v=substr($3, 2, length($3)-2) }` -/
def ruleSource (st : Awk) (l : Str) : Awk :=
  if startsWith l "Source:".toList then
    { st with
      s := field 2 l
      v := if startsWith (field 3 l) ['('] then ((field 3 l).drop 1).take ((field 3 l).length - 2) else st.v }
  else st

/-- deb-dl-dir.bbclass:26, `/^Size:/ { print s, v}` -/
def ruleSize (st : Awk) (l : Str) : Awk :=
  if startsWith l "Size:".toList then { st with out := st.out ++ [st.s ++ ' ' :: st.v] } else st

def awkLine (st : Awk) (l : Str) : Awk := ruleSize (ruleSource (ruleVersion (rulePackage st l) l) l) l

/-- deb-dl-dir.bbclass:8-28, `debsrc_source_version_filter`: awk and `sort -u`. -/
def filter (lines : List Str) : List Str := sortSet (lines.foldl awkLine ⟨[], [], []⟩).out

/-- `comm -12`, for one line of the first file. -/
def commIn (a : Str) (next : List Str → List Str) : List Str → List Str
  | [] => []
  | b :: bs => if a = b then a :: next bs else if strLe a b then next (b :: bs) else commIn a next bs

/-- `comm -12`: goes through both files together. -/
def comm : List Str → List Str → List Str
  | [], _ => []
  | a :: as, bs => commIn a (comm as) bs

/-- `read src version` -/
def readPair (l : Str) : Str × Str := ((words l).headD [], join [' '] ((words l).drop 1))

/-- deb-dl-dir.bbclass:66-67: `${version#*:}`, without the epoch. -/
def noEpoch (v : Str) : Str := if ':' ∈ v then (v.dropWhile (· ≠ ':')).drop 1 else v

/-- deb-dl-dir.bbclass:67 -/
def dscName (p : Str × Str) : Str := p.1 ++ '_' :: noEpoch p.2 ++ ".dsc".toList

/-- What `apt-get source` does for a package: the files that arrive, in this order, and whether it succeeds. -/
abbrev Apt := Str × Str → List Str × Bool

/-- Files below `${DEBSRCDIR}/<distro>`: directory and name. -/
abbrev Files := List (Str × Str)

/-- deb-dl-dir.bbclass:68-80: the files that arrive in the loop. -/
def arrive (apt : Apt) : Files → List (Str × Str) → Files
  | _, [] => []
  | fs, p :: ps =>
    if (p.1, dscName p) ∈ fs then arrive apt fs ps
    else (apt p).1.map (fun n => (p.1, n)) ++ arrive apt (fs ++ (apt p).1.map fun n => (p.1, n)) ps

/-- deb-dl-dir.bbclass:81: what is written to the list of missing sources. -/
def failed (apt : Apt) : Files → List (Str × Str) → List (Str × Str)
  | _, [] => []
  | fs, p :: ps =>
    if (p.1, dscName p) ∈ fs then failed apt fs ps
    else (if (apt p).2 then [] else [p]) ++ failed apt (fs ++ (apt p).1.map fun n => (p.1, n)) ps

/-- deb-dl-dir.bbclass:57-59: what the loop reads. -/
def pairs (wanted avail : List Str) : List (Str × Str) := (comm wanted avail).map readPair

/-- deb-dl-dir.bbclass:30-90, `debsrc_download`: the files after it and the warnings, or an error if apt knows
no package.  `dump` is the output of `apt-cache dumpavail`, `scan` that of `apt-ftparchive packages`. -/
def download (apt : Apt) (dump scan : List Str) (fs : Files) : Option (Files × List (Str × Str)) :=
  if filter dump = [] then none
  else some (fs ++ arrive apt fs (pairs (filter scan) (filter dump)), failed apt fs (pairs (filter scan) (filter dump)))

/-- The same, stopped after `n` files have arrived. -/
def stopped (apt : Apt) (dump scan : List Str) (n : Nat) (fs : Files) : Files :=
  fs ++ (arrive apt fs (pairs (filter scan) (filter dump))).take n

end Meta.DebSrc
