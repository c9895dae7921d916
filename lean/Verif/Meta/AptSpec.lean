import Verif.Meta.AptModel
/-! # What an apt source entry looks like (sources.list(5), one-line style) -/

namespace Isar.Apt.Spec
open Py

/-- An option `name=value`. -/
def Option' (o : Str) : Prop := ∃ k v, IsWord k ∧ IsWord v ∧ o = k ++ '=' :: v

/-- The option part: nothing, one option or two options in brackets. -/
def Options (s : Str) : Prop :=
  s = [] ∨ (∃ o, Option' o ∧ s = '[' :: o ++ [']']) ∨
  ∃ o o', Option' o ∧ Option' o' ∧ s = '[' :: o ++ ' ' :: o' ++ [']']

/-- A location: a word which cannot be mistaken for (a part of) the options. -/
def Location (s : Str) : Prop :=
  IsWord s ∧ s.head? ≠ some '[' ∧ s.head? ≠ some ']' ∧ s.getLast? ≠ some ']'

/-- Words joined with one space. -/
def Words (s : Str) : Prop := ∃ ws, ws ≠ [] ∧ (∀ w ∈ ws, IsWord w) ∧ s = join " ".toList ws

/-- A source entry: `deb [options] location suite component...` or, with an exact path,
`deb [options] location /path...`. -/
structure Wf (e : Entry) : Prop where
  type : e.type = "deb".toList ∨ e.type = "deb-src".toList
  options : Options e.options
  source : Location e.source
  suite : (IsWord e.suite ∧ e.suite.head? ≠ some '/' ∧ e.suite.head? ≠ some ']') ∨
    (e.suite = [] ∧ e.components.head? = some '/')
  components : Words e.components

/-- All entries written in a text, in order; `none` if a line cannot be read. -/
def entries (text : Str) : Option (List Entry) :=
  (allSome parseLine (splitOn '\n' text)).map fun l => l.filterMap id

end Isar.Apt.Spec
