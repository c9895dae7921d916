import Verif.Py.Str
/-!
# Model of the apt source handling in `meta/classes-recipe/bootstrap.bbclass`

Files are texts, given by a table from (resolved) names to contents.  Regular expressions of
the premirrors are parameters (`Regex`); the fixed regular expressions of the parser are
modelled by hand.
-/

namespace Isar.Apt
open Py

/-- A source entry: `[type, options, source, suite, components]`,
meta/classes-recipe/bootstrap.bbclass:103. -/
structure Entry where
  type : Str
  options : Str
  source : Str
  suite : Str
  components : Str
deriving DecidableEq, Repr

def nonWs (c : Char) : Bool := !isWs c

/-- `a, b = re.split("\s+", s, maxsplit=1)`: `none` is the `ValueError` of the assignment when
there is no whitespace.  meta/classes-recipe/bootstrap.bbclass:84, 94, 99. -/
def split1 (s : Str) : Option (Str × Str) :=
  match s.dropWhile nonWs with
  | [] => none
  | rest => some (s.takeWhile nonWs, lstrip rest)

/-- `\S+=\S+` matches the whole of `r`, a text without whitespace. -/
def isOpt (r : Str) : Bool := '=' ∈ r.tail.dropLast

/-- Does the text begin with whitespace? -/
def wsHead : Str → Bool
  | [] => false
  | c :: _ => isWs c

/-- `(\S+=\S+)\s*\]\s+` with all of `r` taken by the group, `rest` following. -/
def closeA (r rest : Str) : Option Str :=
  match lstrip rest with
  | ']' :: t => if isOpt r && wsHead t then some (lstrip t) else none
  | _ => none

/-- `(\S+=\S+)\s*\]\s+` with the group taking `r` without a final `]`. -/
def closeB (r rest : Str) : Option Str :=
  if r.getLast? = some ']' && isOpt r.dropLast && wsHead rest then some (lstrip rest) else none

/-- `(\S+=\S+)\s*\]\s+` on the text `r ++ rest`, `r` being its longest prefix without
whitespace: what is left behind the match.  The greedy `\S+` takes all of `r` if possible, else
`r` without a final `]`. -/
def closeAfter (r rest : Str) : Option Str := (closeA r rest).or (closeB r rest)

/-- `re.match("\[\s*(\S+=\S+(?=\s))*\s*(\S+=\S+)\s*\]\s+", s)`: what is left behind the match.
The starred group can match at most once, since each repetition has to be followed by
whitespace and has to begin with something else.
meta/classes-recipe/bootstrap.bbclass:89. -/
def optMatch : Str → Option Str
  | '[' :: s =>
    let s1 := lstrip s
    let r1 := s1.takeWhile nonWs
    let rest1 := s1.dropWhile nonWs
    if isOpt r1 && wsHead rest1 then
      let s2 := lstrip rest1
      (closeAfter (s2.takeWhile nonWs) (s2.dropWhile nonWs)).or (closeAfter r1 rest1)
    else closeAfter r1 rest1
  | _ => none

/-- The options and what follows them, meta/classes-recipe/bootstrap.bbclass:88-92. -/
def takeOptions (s : Str) : Str × Str :=
  match optMatch s with
  | some t => (strip (s.take (s.length - t.length)), t)
  | none => ([], s)

/-- `parse_aptsources_list_line`, meta/classes-recipe/bootstrap.bbclass:76-103.  Outer `none`:
a Python exception; inner `none`: not a source entry. -/
def parseLine (line : Str) : Option (Option Entry) :=
  let s := strip line
  if s = [] ∨ startsWith s "#".toList then some none
  else do
    let (type, s) ← split1 s
    if type ≠ "deb".toList ∧ type ≠ "deb-src".toList then some none
    else
      let (options, s) := takeOptions s
      let (source, s) ← split1 s
      if startsWith s "/".toList then
        some (some ⟨type, options, source, [], join " ".toList (words s)⟩)
      else
        let (suite, s) ← split1 s
        some (some ⟨type, options, source, suite, join " ".toList (words s)⟩)

/-- `re.search` (as a truth value) and `re.sub(..., count=1)`. -/
structure Regex where
  search : Str → Str → Bool
  sub : Str → Str → Str → Str

/-- `text.split('\\n')`: split at a backslash followed by `n`. -/
def splitBsN : Str → List Str
  | [] => [[]]
  | '\\' :: 'n' :: cs => [] :: splitBsN cs
  | c :: cs =>
    match splitBsN cs with
    | [] => [[c]]
    | w :: ws => (c :: w) :: ws

/-- The mirror list, meta/classes-recipe/bootstrap.bbclass:130-132: entries with two words. -/
def mirrorList (premirrors : Str) : List (Str × Str) :=
  (splitBsN premirrors).filterMap fun e =>
    match words e with
    | [a, b] => some (a, b)
    | _ => none

/-- The variables read by `get_apt_source_mirror`. -/
structure Conf where
  useSnapshot : Bool
  snapshotMirror : Str
  cachedBaseRepo : Bool
  premirrors : Str

/-- The choice of the premirrors, meta/classes-recipe/bootstrap.bbclass:122-129.  Unset
variables are empty. -/
def Conf.mirrors (c : Conf) : List (Str × Str) :=
  mirrorList <|
    if c.cachedBaseRepo then
      "\\S* file://${REPO_BASE_DIR}/${BOOTSTRAP_BASE_DISTRO}\n".toList
    else if c.useSnapshot ∧ c.snapshotMirror ≠ [] then c.snapshotMirror
    else c.premirrors

/-- The loop of `get_apt_source_mirror`, meta/classes-recipe/bootstrap.bbclass:134-146. -/
def applyMirrors (re : Regex) (useSnapshot : Bool) (e : Entry) : List (Str × Str) → Entry
  | [] => e
  | (regex, replace) :: ms =>
    if re.search regex e.source then
      { e with
        source := re.sub regex replace e.source
        options := if useSnapshot then "[check-valid-until=no]".toList else e.options }
    else applyMirrors re useSnapshot e ms

/-- `get_apt_source_mirror`, meta/classes-recipe/bootstrap.bbclass:118-146. -/
def mirror (re : Regex) (c : Conf) (e : Entry) : Entry :=
  applyMirrors re c.useSnapshot e c.mirrors

/-- `" ".join(parsed)`, meta/classes-recipe/bootstrap.bbclass:159. -/
def render (e : Entry) : Str :=
  join " ".toList [e.type, e.options, e.source, e.suite, e.components]

/-- Iterating over a text file: the lines with their line ends. -/
def fileLines (text : Str) : List Str :=
  let rec go : List Str → List Str
    | [] => []
    | [l] => if l = [] then [] else [l]
    | l :: ls => (l ++ ['\n']) :: go ls
  go (splitOn '\n' text)

/-- One line of `aggregate_aptsources_list`, meta/classes-recipe/bootstrap.bbclass:156-162. -/
def outLine (re : Regex) (c : Conf) (line : Str) : Option Str :=
  (parseLine line).map fun
    | some e => render (mirror re c e) ++ ['\n']
    | none => line ++ ['\n']

/-- `mapM` on `Option`. -/
def allSome {α β} (f : α → Option β) : List α → Option (List β)
  | [] => some []
  | a :: as =>
    match f a with
    | none => none
    | some b =>
      match allSome f as with
      | none => none
      | some bs => some (b :: bs)

/-- One file of `aggregate_aptsources_list`, meta/classes-recipe/bootstrap.bbclass:153-163. -/
def outFile (re : Regex) (c : Conf) (text : Str) : Option Str :=
  (allSome (outLine re c) (fileLines text)).map fun ls => ls.flatten ++ ['\n']

/-- `aggregate_aptsources_list`, meta/classes-recipe/bootstrap.bbclass:148-163: the text
written, for the names in the list; `files` gives the content of a name, `none` if it cannot be
found. -/
def aggregate (re : Regex) (c : Conf) (files : Str → Option Str) (names : List Str) : Option Str :=
  (allSome (fun n => (files n).bind (outFile re c)) names).map List.flatten

/-- `list(OrderedDict.fromkeys(l))` -/
def dedup (l : List Str) : List Str :=
  l.foldl (fun acc x => if x ∈ acc then acc else acc ++ [x]) []

/-- `get_aptsources_list`, meta/classes-recipe/bootstrap.bbclass:165-175: `none` is the fatal
error for a file that cannot be found. -/
def sourcesList (files : Str → Option Str) (var : Str) : Option (List Str) :=
  let l := dedup (words var)
  if l.all fun n => (files n).isSome then some l else none

/-- The apt part of `do_apt_config_prepare`, meta/classes-recipe/bootstrap.bbclass:223-226. -/
def prepare (re : Regex) (c : Conf) (files : Str → Option Str) (var : Str) : Option Str :=
  (sourcesList files var).bind (aggregate re c files)

/-- `get_distro_primary_source_entry` (meta/classes-recipe/bootstrap.bbclass:187-191) on the
lines read by `generate_distro_sources` (177-185), which is a generator: lines behind the first
`deb` entry are not looked at.  `none`: an exception or the fatal error. -/
def primaryOfLines (re : Regex) (c : Conf) : List Str → Option (Str × Str × Str)
  | [] => none
  | l :: ls =>
    match parseLine l with
    | none => none
    | some none => primaryOfLines re c ls
    | some (some e) =>
      let e := mirror re c e
      if e.type = "deb".toList then some (e.source, e.suite, e.components)
      else primaryOfLines re c ls

/-- `get_distro_primary_source_entry` on the files of the variable,
meta/classes-recipe/bootstrap.bbclass:177-191. -/
def primary (re : Regex) (c : Conf) (files : Str → Option Str) (var : Str) :
    Option (Str × Str × Str) :=
  (sourcesList files var).bind fun names =>
    primaryOfLines re c (names.map fun n => fileLines ((files n).getD [])).flatten

/-- `get_distro_components_argument`, meta/classes-recipe/bootstrap.bbclass:199-204. -/
def componentsArgument (components : Str) : Str :=
  if strip components ≠ [] then "--components=".toList ++ join ",".toList (words components)
  else []

end Isar.Apt
