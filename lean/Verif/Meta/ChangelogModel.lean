import Verif.Py.Str

/-
The changelog of a package (meta/classes-recipe/debianize.bbclass) and lists in its control file (meta/classes-global/base.bbclass).
-/

namespace Meta.Changelog
open Py

/-- An entry of a changelog: what `dpkg-parsechangelog` tells of it, and the rest. -/
structure Entry where
  version : Str
  date : Int
  text : Str
deriving DecidableEq

/-- A changelog, the newest entry first.  Blank lines between entries are left out. -/
abbrev Log := List Entry

/-- Variables of the recipe, and the file `changelog` in `WORKDIR`, if the recipe brings one. -/
structure Cfg where
  /-- `CHANGELOG_V`. -/
  version : Str
  /-- `DEBIAN_CHANGELOG_TIMESTAMP`. -/
  timestamp : Int
  text : Str
  recipe : Option Log

/-- Files that change: `${S}/debian/changelog` and `${WORKDIR}/changelog.orig`. -/
structure St where
  debian : Option Log
  orig : Option Log
deriving DecidableEq

def mark : Str := "<orig-version>".toList

/-- debianize.bbclass:47: `sed 's/<orig-version>/.../'`, which replaces the first one.  The version of a package has no
characters that mean something to `sed`. -/
def subst (rep : Str) : Str → Str
  | [] => []
  | c :: s => if mark.isPrefixOf (c :: s) then rep ++ (c :: s).drop mark.length else c :: subst rep s

/-- debianize.bbclass:40-43: the original is kept. -/
def copied (st : St) : St := if st.debian ≠ none ∧ st.orig = none then { st with orig := st.debian } else st

/-- debianize.bbclass:38-51: `changelog_v`.  The test for `debian/changelog` is around all of it. -/
def newVersion (cfg : Cfg) (st : St) : Str := match st.debian, (copied st).orig with
  | some _, some (o :: _) => subst o.version cfg.version
  | _, _ => cfg.version

/-- debianize.bbclass:38-51: `timestamp`. -/
def newDate (cfg : Cfg) (st : St) : Int := match st.debian, (copied st).orig with
  | some _, some (o :: _) => o.date + 42
  | _, _ => cfg.timestamp

def newEntry (cfg : Cfg) (st : St) : Entry := ⟨newVersion cfg st, newDate cfg st, cfg.text⟩

/-- debianize.bbclass:72: the newest version in the changelog of the recipe. -/
def latest (r : Log) : Str := (r.head?.map (·.version)).getD []

/-- debianize.bbclass:54-69: after the entry, the original. -/
def written (cfg : Cfg) (st : St) : Log := newEntry cfg st :: (copied st).orig.getD []

/-- debianize.bbclass:36-82, `deb_add_changelog`. -/
def run (cfg : Cfg) (st : St) : St :=
  { debian := some (match cfg.recipe with
      | none => written cfg st
      | some r => if latest r = newVersion cfg st then r else written cfg st ++ r)
    orig := some ((copied st).orig.getD []) }

/-- States in which it may be stopped, between two commands or while `debian/changelog` is written.  Writing first empties the
file. -/
inductive Stops (cfg : Cfg) (st : St) : St → Prop where
  | begin : Stops cfg st st
  | copied : Stops cfg st (copied st)
  | emptied : Stops cfg st { copied st with debian := some [] }
  /-- The entry is written, lines 54-61. -/
  | entry : Stops cfg st { copied st with debian := some [newEntry cfg st] }
  /-- `changelog.orig` is there, line 64; something has been written since. -/
  | touched (l : Log) : Stops cfg st { debian := some l, orig := some ((copied st).orig.getD []) }
  /-- Line 75: the file is removed to be replaced by that of the recipe. -/
  | removed (r : Log) : cfg.recipe = some r → latest r = newVersion cfg st → Stops cfg st { debian := none, orig := some ((copied st).orig.getD []) }

/-- What happens: a run that ends or one that is stopped. -/
inductive After (cfg : Cfg) : St → St → Prop where
  | none (st) : After cfg st st
  | run {st st'} : After cfg st st' → After cfg st (run cfg st')
  | stop {st st' st''} : After cfg st st' → Stops cfg st' st'' → After cfg st st''

/-- base.bbclass:367-377, `deb_list_beautify`.  An unset variable is an empty one. -/
def beautify (line : Str) : Str := join ", ".toList (((splitOn ',' line).map strip).filter (· ≠ []))

end Meta.Changelog
