import Verif.Bb.UrlModel
/-!
# What a user expects of URLs
-/

namespace Bb.Url
open Py

/-- No slash follows a slash. -/
def NoDouble (s : Str) : Prop := ∀ a b, s ≠ a ++ '/' :: '/' :: b

/-- Parameters that can be written in a URL. -/
structure ParmOk (p : Dict Str) : Prop where
  keys : (p.map Prod.fst).Nodup
  key : ∀ k v, (k, v) ∈ p → '=' ∉ k ∧ ';' ∉ k
  value : ∀ k v, (k, v) ∈ p → ';' ∉ v

/-- The parts of a URL on a server.  The path is in ASCII. -/
structure RemoteOk (u : Decoded) : Prop where
  type : u.type ≠ [] ∧ ':' ∉ u.type ∧ lower u.type ≠ "file".toList
  host : '/' ∉ u.host ∧ ';' ∉ u.host ∧ '@' ∉ u.host
  path : u.path.head? = some '/' ∧ NoDouble u.path ∧ ∀ c, c ∈ u.path → c.toNat < 128
  user : ':' ∉ u.user ∧ '/' ∉ u.user ∧ ';' ∉ u.user
  pswd : '/' ∉ u.pswd ∧ ';' ∉ u.pswd ∧ (u.user = [] → u.pswd = [])
  parm : ParmOk u.parm

/-- The parts of a `file://` URL. -/
structure LocalOk (u : Decoded) : Prop where
  type : u.type = "file".toList
  host : u.host = [] ∧ u.user = [] ∧ u.pswd = []
  path : u.path ≠ [] ∧ NoDouble u.path ∧ ∀ c, c ∈ u.path → c.toNat < 128
  parm : ParmOk u.parm

/-- The labels of a host name. -/
def labels (s : Str) : List Str := splitOn '.' s

/-- An entry of `BB_ALLOWED_NETWORKS` allows a host: it is the host, or it is `*.` and a domain and the
host is in the domain (or the domain itself). -/
def Allows (entry host : Str) : Prop :=
  lower entry = host ∨ ∃ dom, lower entry = '*' :: '.' :: dom ∧ labels dom <:+ labels host

/-- The authority of a URL (RFC 3986, 3.2): what is between `://` and the next `/`, `?` or `#`. -/
def authority (url : Str) : Str :=
  ((url.dropWhile (· ≠ ':')).drop 3).takeWhile fun c => c ≠ '/' && c ≠ '?' && c ≠ '#'

/-- The host that a client contacts: in the authority, after the last `@` and before the port.  (Not
for addresses in brackets.) -/
def contacted (url : Str) : Str :=
  lower (((authority url).reverse.takeWhile (· ≠ '@')).reverse.takeWhile (· ≠ ':'))

/-- A URL that comes from another by lines of mirrors, each line used once. -/
inductive Derived {L : Type} [DecidableEq L] (r : Rules L) : Str → List L → Str → Prop
  | one {cur new : Str} {mirrors : List L} {line : L} : line ∈ mirrors → r.replace cur line = some new →
      Derived r cur mirrors new
  | more {cur new last : Str} {mirrors : List L} {line : L} : line ∈ mirrors →
      r.replace cur line = some new → Derived r new (mirrors.erase line) last →
      Derived r cur mirrors last

end Bb.Url
