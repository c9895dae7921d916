import Verif.Meta.TypesModel

/-!
C285: a variable of type list has the items that its text has.
C286: variables of type boolean and choice have valid values only.
-/

namespace Isar.Meta.Types

open Py

namespace Spec

/-- the words for yes and no, written with small letters -/
def yes : List Str := [['y', 'e', 's'], ['y'], ['t', 'r', 'u', 'e'], ['t'], ['1']]
def no : List Str := [['n', 'o'], ['n'], ['f', 'a', 'l', 's', 'e'], ['f'], ['0']]

/-- the same text but for large and small letters -/
def alike (a b : Str) : Prop := a.map Char.toLower = b.map Char.toLower

end Spec

theorem ty_list : "list".toList = ['l', 'i', 's', 't'] := by decide
theorem lc : "choice".toList ≠ "list".toList := by decide
theorem lb : "boolean".toList ≠ "list".toList := by decide
theorem cb : "boolean".toList ≠ "choice".toList := by decide

theorem typed_list {value : Option Str} {flags : List (Str × Str)} (ht : flags.lookup "type".toList = some "list".toList) :
    typedValue value flags = oeList (value.getD []) (flags.lookup "separator".toList) := by
  unfold typedValue
  dsimp only
  rw [ht]
  dsimp only
  rw [if_pos rfl]

/-! ## C285 -/

/-- **C285**: without a separator the items are the words, and the text of the list has the same items again. -/
theorem list_words {value : Option Str} {flags : List (Str × Str)} (ht : flags.lookup "type".toList = some "list".toList) (hs : flags.lookup "separator".toList = none) :
    ∃ items, typedValue value flags = .ok (.list items ' ') ∧ items = words (value.getD []) ∧ (∀ i ∈ items, IsWord i) ∧
      typedValue (some (listText items ' ')) flags = .ok (.list items ' ') := by
  refine ⟨words (value.getD []), ?_, rfl, fun i hi => words_isWord hi, ?_⟩
  · rw [typed_list ht, hs]; rfl
  · rw [typed_list ht, hs]
    show Except.ok (Val.list (words (join [' '] (words (value.getD [])))) ' ') = _
    rw [words_join_sp _ (fun w hw => words_isWord hw)]

/-- **C285**: with a separator the items are what is between the separators, and the text of the list is the value again. -/
theorem list_separated {value : Option Str} {flags : List (Str × Str)} {c : Char} (ht : flags.lookup "type".toList = some "list".toList)
    (hs : flags.lookup "separator".toList = some [c]) :
    ∃ items, typedValue value flags = .ok (.list items c) ∧ (∀ i ∈ items, c ∉ i) ∧ listText items c = value.getD [] ∧
      ∀ items', items' ≠ [] → (∀ i ∈ items', c ∉ i) → listText items' c = value.getD [] → items' = items := by
  refine ⟨splitOn c (value.getD []), ?_, fun i hi => splitOn_pieces hi, join_splitOn c _, fun items' h1 h2 h3 => ?_⟩
  · rw [typed_list ht, hs]; rfl
  · rw [← h3]; exact (splitOn_join c items' h1 h2).symm

/-- A list that is not set, or is empty, has one item with a separator, the empty one, and none without. -/
theorem unset_list {flags : List (Str × Str)} {c : Char} {value : Option Str} (hv : value = none ∨ value = some []) (ht : flags.lookup "type".toList = some "list".toList) :
    (flags.lookup "separator".toList = some [c] → typedValue value flags = .ok (.list [[]] c)) ∧
    (flags.lookup "separator".toList = none → typedValue value flags = .ok (.list [] ' ')) := by
  have h0 : value.getD [] = [] := by rcases hv with rfl | rfl <;> rfl
  constructor
  · intro hs; rw [typed_list ht, hs, h0]; rfl
  · intro hs; rw [typed_list ht, hs, h0]; rfl

example : (typedValue (some "  a b  c ".toList) [("doc".toList, "x".toList), ("type".toList, "list".toList)]).toOption =
      some (.list ["a".toList, "b".toList, "c".toList] ' ') ∧
    (typedValue (some "a::b".toList) [("type".toList, "list".toList), ("separator".toList, ":".toList)]).toOption = some (.list ["a".toList, [], "b".toList] ':') := by decide +kernel

/-! ## C286 -/

theorem typed_boolean {value : Option Str} {flags : List (Str × Str)} (ht : flags.lookup "type".toList = some "boolean".toList) :
    typedValue value flags = match boolean (some (value.getD [])) with
      | .ok b => .ok (.bool b)
      | .error e => .error e := by
  unfold typedValue
  dsimp only
  rw [ht]
  dsimp only
  rw [if_neg lb, if_neg cb, if_pos rfl]
  cases boolean (some (value.getD [])) <;> rfl

theorem disjoint_yes_no : ∀ x ∈ Spec.yes, x ∉ Spec.no := by decide

theorem yes_eq : ["yes".toList, "y".toList, "true".toList, "t".toList, "1".toList] = Spec.yes := by decide
theorem no_eq : ["no".toList, "n".toList, "false".toList, "f".toList, "0".toList] = Spec.no := by decide

/-- **C286**: a boolean is true for the words for yes, false for those for no, in large or small letters, and an error for all else. -/
theorem boolean_iff {v : Str} {flags : List (Str × Str)} (ht : flags.lookup "type".toList = some "boolean".toList) :
    (typedValue (some v) flags = .ok (.bool true) ↔ ∃ w ∈ Spec.yes, Spec.alike v w) ∧
    (typedValue (some v) flags = .ok (.bool false) ↔ ∃ w ∈ Spec.no, Spec.alike v w) ∧
    ((∀ w ∈ Spec.yes ++ Spec.no, ¬ Spec.alike v w) ↔ typedValue (some v) flags = .error .invalid) := by
  have low : ∀ w ∈ Spec.yes ++ Spec.no, w.map Char.toLower = w := by decide
  have key : ∀ ws : List Str, (∀ w ∈ ws, w ∈ Spec.yes ++ Spec.no) → (lower v ∈ ws ↔ ∃ w ∈ ws, Spec.alike v w) := by
    intro ws hsub
    constructor
    · intro h
      refine ⟨lower v, h, ?_⟩
      unfold Spec.alike
      rw [low _ (hsub _ h)]; rfl
    · rintro ⟨w, hw, ha⟩
      unfold Spec.alike at ha
      rw [low _ (hsub _ hw)] at ha
      show v.map Char.toLower ∈ ws
      rw [ha]; exact hw
  have ky := key Spec.yes (fun w h => List.mem_append_left _ h)
  have kn := key Spec.no (fun w h => List.mem_append_right _ h)
  have ka := key (Spec.yes ++ Spec.no) (fun w h => h)
  have hneg : (∀ w ∈ Spec.yes ++ Spec.no, ¬ Spec.alike v w) ↔ lower v ∉ Spec.yes ++ Spec.no := by
    rw [ka]
    exact ⟨fun h ⟨w, hw, ha⟩ => h w hw ha, fun h w hw ha => h ⟨w, hw, ha⟩⟩
  rw [typed_boolean ht, ← ky, ← kn, hneg, List.mem_append]
  unfold boolean
  dsimp only [Option.getD_some]
  rw [yes_eq, no_eq]
  by_cases h1 : lower v ∈ Spec.yes
  · have h2 := disjoint_yes_no _ h1
    rw [if_pos h1]
    simp [h1, h2]
  · rw [if_neg h1]
    by_cases h2 : lower v ∈ Spec.no
    · rw [if_pos h2]; simp [h1, h2]
    · rw [if_neg h2]; simp [h1, h2]

/-- A boolean that is not set is false for the type, but an error for a variable with the type. -/
theorem boolean_unset {flags : List (Str × Str)} (ht : flags.lookup "type".toList = some "boolean".toList) :
    boolean none = .ok false ∧ typedValue none flags = .error .invalid := by
  refine ⟨rfl, ?_⟩
  rw [typed_boolean ht]
  have : boolean (some (Option.getD none [])) = .error .invalid := by
    unfold boolean
    dsimp only
    rw [yes_eq, no_eq, if_neg (by decide), if_neg (by decide)]
  rw [this]

/-- **C286**: a choice is one of the words that are offered, in small letters, the same as the value but for large letters; all else is an error, and so is a variable without choices. -/
theorem choice_iff {value : Option Str} {flags : List (Str × Str)} (ht : flags.lookup "type".toList = some "choice".toList) :
    (∀ cs, flags.lookup "choices".toList = some cs → ∀ r, typedValue value flags = .ok r ↔
      ((value.getD []).map Char.toLower ∈ words (cs.map Char.toLower) ∧ r = .choice ((value.getD []).map Char.toLower))) ∧
    (flags.lookup "choices".toList = none → typedValue value flags = .error (.missingFlag "choices".toList)) := by
  constructor
  · intro cs hc r
    unfold typedValue
    dsimp only
    rw [ht]
    dsimp only
    rw [if_neg lc, if_pos rfl, hc]
    dsimp only
    unfold choice lower
    by_cases h : (value.getD []).map Char.toLower ∈ words (cs.map Char.toLower)
    · rw [if_pos h]
      constructor
      · intro e; injection e with e; exact ⟨h, e.symm⟩
      · rintro ⟨_, rfl⟩; rfl
    · rw [if_neg h]
      constructor
      · intro e; cases e
      · rintro ⟨h', _⟩; exact absurd h' h
  · intro hc
    unfold typedValue
    dsimp only
    rw [ht]
    dsimp only
    rw [if_neg lc, if_pos rfl, hc]

/-- **C286**: a type that is not set is an error. -/
theorem no_type {value : Option Str} {flags : List (Str × Str)} (h : flags.lookup "type".toList = none) : typedValue value flags = .error .noType := by
  unfold typedValue
  dsimp only
  rw [h]

example : (typedValue (some "YES".toList) [("type".toList, "boolean".toList)]).toOption = some (.bool true) ∧
    (typedValue (some "maybe".toList) [("type".toList, "boolean".toList)]).toOption = none ∧
    (typedValue (some "Tmux".toList) [("type".toList, "choice".toList), ("choices".toList, "auto Tmux none".toList)]).toOption = some (.choice "tmux".toList) ∧
    (typedValue none [("type".toList, "choice".toList), ("choices".toList, "auto none".toList)]).toOption = none := by decide +kernel

end Isar.Meta.Types
