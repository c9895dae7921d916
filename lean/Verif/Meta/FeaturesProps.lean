import Verif.Meta.FeaturesModel
/-! # Properties of the feature checks: C84 -/

namespace Isar.Features
open Py

namespace Spec

/-- `f` is one of the words of the variable `name`. -/
def Listed (d : Conf) (name : String) (f : Str) : Prop :=
  ∃ v, d.get name.toList = some v ∧ f ∈ words v

/-- The conditions of one kind of features are not met, as the comment at the top of the class
says. -/
def Unmet (d : Conf) (kind : String) : Prop :=
  ((∃ f, Listed d ("ANY_OF_" ++ kind ++ "_FEATURES") f) ∧
    ∀ f, Listed d ("ANY_OF_" ++ kind ++ "_FEATURES") f → ¬ Listed d (kind ++ "_FEATURES") f) ∨
  (∃ f, Listed d ("REQUIRED_" ++ kind ++ "_FEATURES") f ∧ ¬ Listed d (kind ++ "_FEATURES") f) ∨
  (∃ f, Listed d ("CONFLICT_" ++ kind ++ "_FEATURES") f ∧ Listed d (kind ++ "_FEATURES") f)

/-- The six kinds. -/
def allKinds : List String := ["DISTRO", "MACHINE", "COMBINED", "IMAGE", "BSP", "ROOTFS"]

/-- PARSE_ALL_RECIPES is unset, empty or a word for "no". -/
def ParseAllOff (d : Conf) : Prop :=
  d.get "PARSE_ALL_RECIPES".toList = none ∨ ∃ v, d.get "PARSE_ALL_RECIPES".toList = some v ∧
    (v = [] ∨ v.map Char.toLower ∈ ["n".toList, "no".toList, "0".toList, "false".toList])

/-- The message names the kind, and exactly the features that are wanted, missing or in conflict. -/
def MessageExact (d : Conf) (k : String) : Reason → Prop
  | .anyOf k' fs => k' = k.toList ∧ ∀ f, f ∈ fs ↔ Listed d ("ANY_OF_" ++ k ++ "_FEATURES") f
  | .required k' fs => k' = k.toList ∧ ∀ f, f ∈ fs ↔
      Listed d ("REQUIRED_" ++ k ++ "_FEATURES") f ∧ ¬ Listed d (k ++ "_FEATURES") f
  | .conflict k' fs => k' = k.toList ∧ ∀ f, f ∈ fs ↔
      Listed d ("CONFLICT_" ++ k ++ "_FEATURES") f ∧ Listed d (k ++ "_FEATURES") f

end Spec
open Spec

theorem mem_items {d : Conf} {pre kind : String} {f : Str} :
    f ∈ items d (var pre kind.toList) ↔ Listed d (pre ++ kind ++ "_FEATURES") f := by
  have e : var pre kind.toList = (pre ++ kind ++ "_FEATURES").toList := by
    rw [String.toList_append, String.toList_append]; rfl
  rw [e]
  unfold items Listed
  cases h : d.get (pre ++ kind ++ "_FEATURES").toList with
  | none => simp [words_nil]
  | some v => simp

theorem filter_ne_nil {p : Str → Bool} {l : List Str} :
    l.filter p ≠ [] ↔ ∃ f ∈ l, p f = true := by
  rw [← List.isEmpty_eq_false_iff]
  simp [List.isEmpty_eq_false_iff_exists_mem, List.mem_filter]

theorem ne_nil_iff {l : List Str} : l ≠ [] ↔ ∃ f, f ∈ l := by
  cases l with
  | nil => simp
  | cons a l => simp only [ne_eq, reduceCtorEq, not_false_eq_true, true_iff]; exact ⟨a, by simp⟩

theorem checkKind_iff {d : Conf} {kind : String} :
    (∃ r, checkKind d kind.toList = some r) ↔ Unmet d kind := by
  have em : ∀ {f : Str}, f ∈ items d (var "" kind.toList) ↔ Listed d (kind ++ "_FEATURES") f := by
    intro f
    rw [mem_items, String.empty_append]
  have ea : ∀ {f : Str}, f ∈ items d (var "ANY_OF_" kind.toList) ↔ _ := mem_items
  have er : ∀ {f : Str}, f ∈ items d (var "REQUIRED_" kind.toList) ↔ _ := mem_items
  have ec : ∀ {f : Str}, f ∈ items d (var "CONFLICT_" kind.toList) ↔ _ := mem_items
  unfold checkKind Unmet
  simp only [← em, ← ea, ← er, ← ec]
  generalize items d (var "" kind.toList) = F
  generalize items d (var "ANY_OF_" kind.toList) = A
  generalize items d (var "REQUIRED_" kind.toList) = R
  generalize items d (var "CONFLICT_" kind.toList) = C
  have h1 : (decide (A ≠ []) && A.all fun f => decide (f ∉ F)) = true ↔
      (∃ f, f ∈ A) ∧ ∀ f, f ∈ A → f ∉ F := by
    rw [Bool.and_eq_true, decide_eq_true_iff, ne_nil_iff, List.all_eq_true]
    simp only [decide_eq_true_eq]
  have h2 : (decide (R ≠ []) && decide (R.filter (fun f => decide (f ∉ F)) ≠ [])) = true ↔
      ∃ f, f ∈ R ∧ f ∉ F := by
    rw [Bool.and_eq_true, decide_eq_true_iff, decide_eq_true_iff, ne_nil_iff, filter_ne_nil]
    simp only [decide_eq_true_eq]
    constructor
    · rintro ⟨-, f, h⟩
      exact ⟨f, h⟩
    · rintro ⟨f, h⟩
      exact ⟨⟨f, h.1⟩, f, h⟩
  have h3 : (decide (C ≠ []) && decide (C.filter (fun f => decide (f ∈ F)) ≠ [])) = true ↔
      ∃ f, f ∈ C ∧ f ∈ F := by
    rw [Bool.and_eq_true, decide_eq_true_iff, decide_eq_true_iff, ne_nil_iff, filter_ne_nil]
    simp only [decide_eq_true_eq]
    constructor
    · rintro ⟨-, f, h⟩
      exact ⟨f, h⟩
    · rintro ⟨f, h⟩
      exact ⟨⟨f, h.1⟩, f, h⟩
  rw [← h1, ← h2, ← h3]
  cases (decide (A ≠ []) && A.all fun f => decide (f ∉ F)) <;>
    cases (decide (R ≠ []) && decide (R.filter (fun f => decide (f ∉ F)) ≠ [])) <;>
      cases (decide (C ≠ []) && decide (C.filter (fun f => decide (f ∈ F)) ≠ [])) <;> simp

theorem unset_items {d : Conf} {v : Str} (h : unset d v = true) : items d v = [] := by
  unfold unset at h
  rw [Bool.and_eq_true, Option.isNone_iff_eq_none] at h
  unfold items
  rw [h.1]
  rfl

theorem skipKind_unmet {d : Conf} {kind : String} (h : skipKind d kind.toList = true) :
    ¬ Unmet d kind := by
  unfold skipKind at h
  rw [Bool.and_eq_true, Bool.and_eq_true] at h
  rw [← checkKind_iff]
  unfold checkKind
  rw [unset_items h.1.1, unset_items h.1.2, unset_items h.2]
  simp

theorem loop_skipped {d : Conf} : ∀ (ks : List String) (u : Bool),
    (∃ r, loop d (ks.map String.toList) u = .skipped r) ↔ ∃ k ∈ ks, Unmet d k := by
  intro ks
  induction ks with
  | nil => intro u; simp [loop]
  | cons k ks ih =>
    intro u
    rw [List.map_cons, loop]
    by_cases hs : skipKind d k.toList = true
    · rw [if_pos hs, ih]
      simp [skipKind_unmet hs]
    · rw [if_neg hs]
      cases hc : checkKind d k.toList with
      | some r =>
        have : Unmet d k := checkKind_iff.1 ⟨r, hc⟩
        simp [this]
      | none =>
        have : ¬ Unmet d k := by rw [← checkKind_iff, hc]; simp
        simp [ih, this]

theorem kinds_eq : kinds = allKinds.map String.toList := rfl

theorem toBoolean_off {d : Conf} :
    ParseAllOff d ↔ toBoolean (d.get "PARSE_ALL_RECIPES".toList) = .ok none ∨
      toBoolean (d.get "PARSE_ALL_RECIPES".toList) = .ok (some false) := by
  unfold ParseAllOff
  cases d.get "PARSE_ALL_RECIPES".toList with
  | none => simp [toBoolean]
  | some s =>
    simp only [reduceCtorEq, Option.some.injEq, exists_eq_left', false_or]
    unfold toBoolean
    simp only
    by_cases h0 : s = []
    · simp [h0]
    · rw [if_neg h0]
      change (s = [] ∨ lower s ∈ [['n'], ['n', 'o'], ['0'], ['f', 'a', 'l', 's', 'e']]) ↔ _
      by_cases h1 : lower s ∈ [['y'], ['y', 'e', 's'], ['1'], ['t', 'r', 'u', 'e']]
      · rw [if_pos h1]
        simp only [h0, false_or, reduceCtorEq, Except.ok.injEq, Option.some.injEq,
          Bool.true_eq_false, or_false, iff_false]
        simp only [List.mem_cons, List.not_mem_nil, or_false] at h1 ⊢
        rcases h1 with h1 | h1 | h1 | h1 <;> rw [h1] <;> decide
      · rw [if_neg h1]
        by_cases h2 : lower s ∈ [['n'], ['n', 'o'], ['0'], ['f', 'a', 'l', 's', 'e']]
        · rw [if_pos h2]
          simp [h2]
        · rw [if_neg h2]
          simp [h0, h2]

/-- C84: a recipe that inherits features_check is skipped exactly if PARSE_ALL_RECIPES is off and
for one of the six kinds of features the conditions are not met: none of the features of ANY_OF is
there, one of the required ones is missing or one of the conflicting ones is there. -/
theorem skipped_iff (d : Conf) :
    (∃ r, check d = .skipped r) ↔ ParseAllOff d ∧ ∃ k ∈ allKinds, Unmet d k := by
  rw [toBoolean_off]
  unfold check
  cases h : toBoolean (d.get "PARSE_ALL_RECIPES".toList) with
  | error e => simp
  | ok v =>
    match v with
    | none => simpa [kinds_eq] using loop_skipped (d := d) allKinds true
    | some false => simpa [kinds_eq] using loop_skipped (d := d) allKinds true
    | some true => simp

/-- A configuration where a required feature is missing and a conflicting one is there. -/
def exConf : Conf where
  get v :=
    if v = "IMAGE_FEATURES".toList then some "a b".toList
    else if v = "REQUIRED_IMAGE_FEATURES".toList then some "b c d".toList
    else if v = "CONFLICT_ROOTFS_FEATURES".toList then some "x".toList
    else if v = "ROOTFS_FEATURES".toList then some "x".toList
    else none
  hasOverrides _ := false

example : check exConf = .skipped (.required "IMAGE".toList ["c".toList, "d".toList]) := by
  decide +kernel

/-- C84: the message for a skipped recipe is about a kind whose conditions are not met, the kinds
before it are met, and the features it names are exactly the missing or conflicting ones. -/
theorem reason_exact {d : Conf} {r : Reason} (h : check d = .skipped r) :
    ∃ pre k post, allKinds = pre ++ k :: post ∧ (∀ j ∈ pre, ¬ Unmet d j) ∧ Unmet d k ∧
      MessageExact d k r := by
  have hl : ∀ (ks : List String) (u : Bool), loop d (ks.map String.toList) u = .skipped r →
      ∃ pre k post, ks = pre ++ k :: post ∧ (∀ j ∈ pre, ¬ Unmet d j) ∧
        checkKind d k.toList = some r := by
    intro ks
    induction ks with
    | nil => intro u h; simp [loop] at h
    | cons k ks ih =>
      intro u h
      rw [List.map_cons, loop] at h
      by_cases hs : skipKind d k.toList = true
      · rw [if_pos hs] at h
        obtain ⟨pre, k', post, e, hp, hk⟩ := ih u h
        refine ⟨k :: pre, k', post, by rw [e]; rfl, ?_, hk⟩
        intro j hj
        rcases List.mem_cons.1 hj with rfl | hj
        · exact skipKind_unmet hs
        · exact hp j hj
      · rw [if_neg hs] at h
        cases hc : checkKind d k.toList with
        | some r' =>
          rw [hc] at h
          simp only [Outcome.skipped.injEq] at h
          subst h
          exact ⟨[], k, ks, rfl, by simp, hc⟩
        | none =>
          rw [hc] at h
          obtain ⟨pre, k', post, e, hp, hk⟩ := ih false h
          refine ⟨k :: pre, k', post, by rw [e]; rfl, ?_, hk⟩
          intro j hj
          rcases List.mem_cons.1 hj with rfl | hj
          · rw [← checkKind_iff, hc]; simp
          · exact hp j hj
  have hc : ∃ u, loop d kinds u = .skipped r := by
    unfold check at h
    split at h
    · cases h
    · cases h
    · exact ⟨_, h⟩
  obtain ⟨u, hu⟩ := hc
  obtain ⟨pre, k, post, e, hp, hk⟩ := hl allKinds u hu
  refine ⟨pre, k, post, e, hp, checkKind_iff.1 ⟨r, hk⟩, ?_⟩
  have em : ∀ {f : Str}, f ∈ items d (var "" k.toList) ↔ Listed d (k ++ "_FEATURES") f := by
    intro f
    rw [mem_items, String.empty_append]
  unfold checkKind at hk
  simp only at hk
  split at hk
  · cases hk
    exact ⟨rfl, fun f => mem_items⟩
  · split at hk
    · cases hk
      refine ⟨rfl, fun f => ?_⟩
      rw [List.mem_filter, mem_items, decide_eq_true_iff, em]
    · split at hk
      · cases hk
        refine ⟨rfl, fun f => ?_⟩
        rw [List.mem_filter, mem_items, decide_eq_true_iff, em]
      · cases hk

/-- C84: the warning that the class is not used appears exactly if none of its variables is set. -/
theorem warned_iff (d : Conf) :
    check d = .kept true ↔ ParseAllOff d ∧ ∀ k ∈ allKinds, ∀ p ∈ ["ANY_OF_", "REQUIRED_", "CONFLICT_"],
      d.get (p ++ k ++ "_FEATURES").toList = none ∧
        d.hasOverrides (p ++ k ++ "_FEATURES").toList = false := by
  have e : ∀ pre kind : String, var pre kind.toList = (pre ++ kind ++ "_FEATURES").toList := by
    intro pre kind
    rw [String.toList_append, String.toList_append]; rfl
  have hu : ∀ v, unset d v = true ↔ d.get v = none ∧ d.hasOverrides v = false := by
    intro v
    unfold unset
    rw [Bool.and_eq_true, Option.isNone_iff_eq_none]
    cases d.hasOverrides v <;> simp
  have hk : ∀ k : String, skipKind d k.toList = true ↔
      ∀ p ∈ ["ANY_OF_", "REQUIRED_", "CONFLICT_"], d.get (p ++ k ++ "_FEATURES").toList = none ∧
        d.hasOverrides (p ++ k ++ "_FEATURES").toList = false := by
    intro k
    unfold skipKind
    rw [Bool.and_eq_true, Bool.and_eq_true, hu, hu, hu, e, e, e]
    simp only [List.mem_cons, List.not_mem_nil, or_false, forall_eq_or_imp, forall_eq]
    constructor
    · rintro ⟨⟨a, b⟩, c⟩
      exact ⟨a, b, c⟩
    · rintro ⟨a, b, c⟩
      exact ⟨⟨a, b⟩, c⟩
  have hf : ∀ ks : List String, loop d (ks.map String.toList) false ≠ .kept true := by
    intro ks
    induction ks with
    | nil => simp [loop]
    | cons k ks ih =>
      rw [List.map_cons, loop]
      by_cases hs : skipKind d k.toList = true
      · rw [if_pos hs]; exact ih
      · rw [if_neg hs]
        cases hc : checkKind d k.toList with
        | some r => simp
        | none => exact ih
  have hl : ∀ ks : List String, loop d (ks.map String.toList) true = .kept true ↔
      ∀ k ∈ ks, skipKind d k.toList = true := by
    intro ks
    induction ks with
    | nil => simp [loop]
    | cons k ks ih =>
      rw [List.map_cons, loop]
      by_cases hs : skipKind d k.toList = true
      · rw [if_pos hs, ih]
        simp [hs]
      · rw [if_neg hs]
        cases hc : checkKind d k.toList with
        | some r => simp [hs]
        | none => simp [hs, hf ks]
  simp only [← hk]
  rw [toBoolean_off, ← hl, ← kinds_eq]
  unfold check
  cases h : toBoolean (d.get "PARSE_ALL_RECIPES".toList) with
  | error e => simp
  | ok v =>
    match v with
    | none => simp
    | some false => simp
    | some true => simp

example : check { exConf with
    get := fun v => if v = "PARSE_ALL_RECIPES".toList then some "No".toList else none } =
    .kept true := by decide +kernel

end Isar.Features
