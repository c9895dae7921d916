import Verif.Py.Dict
/-!
# Model of URLs in the fetcher: `bitbake/lib/bb/fetch2/__init__.py`

`decodeurl`, `encodeurl`, `trusted_network`, `mirror_from_string`, `build_mirroruris` and
`srcrev_internal_helper`.

Simplifications.  URLs have no line breaks in them (they come from lists that are split at white
space).  A byte above 127 that is written with `%` is taken as the character with that number, so
the model is exact for paths in ASCII.
-/

namespace Bb.Url
open Py

/-- The result of `decodeurl`. -/
structure Decoded where
  type : Str
  host : Str
  path : Str
  user : Str
  pswd : Str
  parm : Dict Str
deriving DecidableEq, Repr

/-- The exceptions. -/
inductive Err where
  /-- `MalformedUrl`. -/
  | malformed
  /-- `UnboundLocalError`: the user begins with a colon (fetch2:376-380). -/
  | unbound
  /-- `MissingParameterError`. -/
  | missing
deriving DecidableEq, Repr

/-- `s.lower()` for ASCII. -/
def lower (s : Str) : Str := s.map Char.toLower

/-- The value of a hexadecimal digit. -/
def hexVal (c : Char) : Option Nat :=
  if '0' ≤ c ∧ c ≤ '9' then some (c.toNat - 48)
  else if 'a' ≤ c ∧ c ≤ 'f' then some (c.toNat - 87)
  else if 'A' ≤ c ∧ c ≤ 'F' then some (c.toNat - 55)
  else none

/-- A hexadecimal digit, as `quote` writes it. -/
def hexChar (n : Nat) : Char := if n < 10 then Char.ofNat (48 + n) else Char.ofNat (55 + n)

/-- `urllib.parse.unquote`. -/
def unquote : Str → Str
  | [] => []
  | c :: s =>
    if c = '%' then
      match s with
      | a :: b :: r =>
        match hexVal a, hexVal b with
        | some x, some y => Char.ofNat (16 * x + y) :: unquote r
        | _, _ => '%' :: unquote (a :: b :: r)
      | s => '%' :: unquote s
    else c :: unquote s
termination_by s => s.length

/-- The characters that `urllib.parse.quote` leaves alone. -/
def safe (c : Char) : Bool :=
  c.isAlphanum || c = '_' || c = '.' || c = '-' || c = '~' || c = '/'

/-- `urllib.parse.quote`. -/
def quote : Str → Str
  | [] => []
  | c :: s =>
    if safe c then c :: quote s
    else '%' :: hexChar (c.toNat / 16) :: hexChar (c.toNat % 16) :: quote s

/-- fetch2:355, the part `((?P<user>[^/;]+)@)?(?P<location>[^;]+)` of the expression: the text before
and after the last `@` that comes before every `/` and `;` and that has a location after it. -/
def lastAt : Str → Option (Str × Str)
  | [] => none
  | c :: s =>
    if c = '/' ∨ c = ';' then none
    else
      match lastAt s with
      | some (u, l) => some (c :: u, l)
      | none => if c = '@' ∧ s ≠ [] ∧ s.head? ≠ some ';' then some ([], s) else none

/-- The user and the rest; the user must not be empty. -/
def splitUser (s : Str) : Option Str × Str :=
  match lastAt s with
  | some (u, l) => if u = [] then (none, s) else (some u, l)
  | none => (none, s)

/-- fetch2:376-383: the user and the password. -/
def userInfo : Option Str → Except Err (Str × Str)
  | none => .ok ([], [])
  | some u =>
    if u.head? = some ':' then .error .unbound
    else .ok (u.takeWhile (· ≠ ':'), (u.dropWhile (· ≠ ':')).drop 1)

/-- fetch2:385-392: the parameters. -/
def parms : List Str → Dict Str → Except Err (Dict Str)
  | [], d => .ok d
  | s :: l, d =>
    if s = [] then parms l d
    else if '=' ∉ s then .error .malformed
    else parms l (Dict.set d (s.takeWhile (· ≠ '=')) ((s.dropWhile (· ≠ '=')).drop 1))

/-- fetch2:366-375: the host and the path. -/
def hostPath (type location : Str) : Str × Str :=
  if lower type = "file".toList then ([], location)
  else if '/' ∈ location then (location.takeWhile (· ≠ '/'), location.dropWhile (· ≠ '/'))
  else (location, ['/'])

/-- `://` and what is after it. -/
def afterColon : Str → Option Str
  | ':' :: '/' :: '/' :: r => some r
  | _ => none

/-- fetch2:350-394, `decodeurl`. -/
def decodeurl (url : Str) : Except Err Decoded :=
  match afterColon (url.dropWhile (· ≠ ':')) with
  | none => .error .malformed
  | some r =>
    let ul := splitUser r
    let location := ul.2.takeWhile (· ≠ ';')
    let rest := (ul.2.dropWhile (· ≠ ';')).drop 1
    let type := url.takeWhile (· ≠ ':')
    if location = [] then .error .malformed
    else do
      let p ← parms (splitOn ';' rest) []
      let up ← userInfo ul.1
      pure { type := type, host := (hostPath type location).1, path := unquote (hostPath type location).2
             user := up.1, pswd := up.2, parm := p }

/-- `path.replace("//", "/")`. -/
def squeeze : Str → Str
  | [] => []
  | c :: s =>
    if c = '/' then
      match s with
      | d :: r => if d = '/' then '/' :: squeeze r else '/' :: squeeze (d :: r)
      | [] => ['/']
    else c :: squeeze s
termination_by s => s.length

/-- fetch2:415-416: `while '//' in path:`.  The path gets shorter each time. -/
def squeezeAll : Nat → Str → Str
  | 0, s => s
  | n + 1, s => if isSub ['/', '/'] s then squeezeAll n (squeeze s) else s

/-- fetch2:418-420: the parameters. -/
def showParms : Dict Str → Str
  | [] => []
  | (k, v) :: l => ';' :: (k ++ '=' :: v) ++ showParms l

/-- fetch2:406-410: the user. -/
def showUser (u : Decoded) : Str :=
  if u.user ≠ [] ∧ u.type ≠ "file".toList then
    u.user ++ (if u.pswd ≠ [] then ':' :: u.pswd else []) ++ ['@']
  else []

/-- fetch2:396-422, `encodeurl`. -/
def encodeurl (u : Decoded) : Except Err Str :=
  if u.type = [] then .error .missing
  else .ok (u.type ++ "://".toList ++ showUser u ++ (if u.type ≠ "file".toList then u.host else []) ++
    quote (squeezeAll u.path.length u.path) ++ showParms u.parm)

/-- fetch2:1197-1202: the comparison of one entry of the list with the host. -/
def hostMatches (network entry : Str) : Bool :=
  let host := lower entry
  (startsWith host "*.".toList && endsWith ('.' :: network) (host.drop 1)) || decide (host = network)

/-- fetch2:1168-1204, `trusted_network`, when `BB_NO_NETWORK` is off: `hosts` is the value of
`BB_ALLOWED_NETWORKS` for the recipe or in general, or nothing. -/
def trustedNetwork (hosts : Option Str) (url : Str) : Except Err Bool :=
  match hosts with
  | none => .ok true
  | some h =>
    if h = [] then .ok true
    else do
      let u ← decodeurl url
      if u.host = [] then pure true
      else pure ((splitOn ' ' h).any (hostMatches (lower (u.host.takeWhile (· ≠ ':')))))

/-- fetch2:1177-1183: the value for the recipe, or the general one. -/
def allowedHosts (pn : Option Str) (flag : Str → Option Str) (value : Option Str) : Option Str :=
  match pn with
  | some p => if p ≠ [] ∧ (flag p).any (· ≠ []) then flag p else value
  | none => value

/-- `s.replace('\\n', ' ')`: a backslash and an `n`. -/
def dropEscapes : Str → Str
  | [] => []
  | c :: s =>
    if c = '\\' then
      match s with
      | d :: r => if d = 'n' then ' ' :: dropEscapes r else '\\' :: dropEscapes (d :: r)
      | [] => ['\\']
    else c :: dropEscapes s
termination_by s => s.length

/-- Pairs of a list; an odd last element is left out (`zip(*[iter(l)]*2)`). -/
def pairs : List Str → List (Str × Str)
  | a :: b :: l => (a, b) :: pairs l
  | _ => []

/-- fetch2:542-547, `mirror_from_string`. -/
def mirrorFromString (data : Option Str) : List (Str × Str) :=
  pairs (words (dropEscapes (data.getD [])))

/-- What becomes of a new URL (fetch2:1009-1022). -/
inductive Setup where
  | ok
  /-- `setup_localpath` fails: the URL is left out, its mirrors are not. -/
  | noPath
  /-- `FetchData` fails. -/
  | fail
deriving DecidableEq, Repr

/-- What `build_mirroruris` needs of the rest: the replacement of a URL by a line of mirrors
(`uri_replace`), trust, and whether the local path of the new URL can be set up. -/
structure Rules (L : Type) where
  replace : Str → L → Option Str
  trusted : Str → Bool
  setup : Str → Setup

/-- fetch2:976-1030, `build_mirroruris`, with one tarball: for the URL `cur`, the lines `todo` of
`mirrors` that are left, and the result so far.  If `FetchData` fails, `newud` is the URL of the round
before, or there is none (fetch2:1014-1020); here no mirrors are followed then.  `fuel` bounds the
depth, which is the number of lines. -/
def addUri {L : Type} [DecidableEq L] (r : Rules L) (orig : Str) :
    Nat → Str → List L → List L → List Str → List Str
  | 0, _, _, _, acc => acc
  | _ + 1, _, _, [], acc => acc
  | fuel + 1, cur, mirrors, line :: todo, acc =>
    let acc' :=
      match r.replace cur line with
      | none => acc
      | some new =>
        if new ∈ acc ∨ new = orig ∨ r.trusted new = false then acc
        else
          match r.setup new with
          | .fail => acc
          | .noPath => addUri r orig fuel new (mirrors.erase line) (mirrors.erase line) acc
          | .ok => addUri r orig fuel new (mirrors.erase line) (mirrors.erase line) (acc ++ [new])
    addUri r orig (fuel + 1) cur mirrors todo acc'

/-- fetch2:1028. -/
def buildMirrorUris {L : Type} [DecidableEq L] (r : Rules L) (orig : Str) (mirrors : List L) : List Str :=
  addUri r orig (mirrors.length + 1) orig mirrors mirrors []

/-- The result of `srcrev_internal_helper`. -/
inductive Rev where
  | rev (s : Str)
  /-- The latest revision is asked for. -/
  | latest
  | bothGiven
  | conflict (a b : Str)
  | notSet
deriving DecidableEq, Repr

/-- fetch2:1214-1223: the names of the variables. -/
def attempts (name : Str) (pn : Option Str) : List Str :=
  (if name ≠ [] ∧ pn.any (· ≠ []) then
      ["SRCREV_".toList ++ name ++ ":pn-".toList ++ pn.getD []] else []) ++
    (if name ≠ [] then ["SRCREV_".toList ++ name] else []) ++
    (if pn.any (· ≠ []) then ["SRCREV:pn-".toList ++ pn.getD []] else []) ++ ["SRCREV".toList]

/-- fetch2:1227, 1239, 1246: a value that is a revision. -/
def validRev (v : Option Str) : Bool := v.any fun s => s ≠ [] && s ≠ "INVALID".toList

/-- fetch2:1225-1228: the loop. -/
def findRev (get : Str → Option Str) : List Str → Option Str → Option Str
  | [], v => v
  | a :: l, _ => if validRev (get a) then get a else findRev get l (get a)

/-- fetch2:1206-1250, `srcrev_internal_helper`. -/
def srcrev (get : Str → Option Str) (parm : Dict Str) (name : Str) (pn : Option Str) : Rev :=
  let v := findRev get (attempts name pn) none
  match parm.lookup "rev".toList, parm.lookup "tag".toList with
  | some _, some _ => .bothGiven
  | some r, none => if !validRev v then .rev r else if v ≠ some r then .conflict (v.getD []) r else .rev r
  | none, some r => if !validRev v then .rev r else if v ≠ some r then .conflict (v.getD []) r else .rev r
  | none, none =>
    if !validRev v then .notSet
    else if v = some "AUTOINC".toList then .latest
    else .rev (v.getD [])

end Bb.Url
