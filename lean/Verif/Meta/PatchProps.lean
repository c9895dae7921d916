import Verif.Meta.PatchModel
/-!
# Patches are applied in their order
-/

namespace Meta.Patch
open Py

section
variable {P T : Type}

/-- A tree with patches. -/
def Spec.patched (apply : P → T → Option T) : List P → T → Option T
  | [], t => some t
  | p :: ps, t => match apply p t with
    | none => none
    | some t' => Spec.patched apply ps t'

/-- There is no terminal. -/
def alone : Dir P T → Option (Dir P T) := fun _ => none

/-- A directory in which nothing has been done. -/
def Fresh (t : T) (d : Dir P T) : Prop := d.series = [] ∧ d.applied = [] ∧ d.tree = t

/-- A directory that can be cleaned: some patches are applied, the first of them to `t`, or nothing has been done. -/
def Good (t : T) (d : Dir P T) : Prop := (∃ p bs, d.applied = (p, t) :: bs) ∨ Fresh t d

theorem clean_good {t : T} {d : Dir P T} (h : Good t d) : Fresh t (clean d) := by
  rcases h with ⟨p, bs, h⟩ | h
  · unfold clean popAll
    rw [h]
    exact ⟨rfl, rfl, rfl⟩
  · unfold clean popAll
    rw [h.2.1]
    exact h

/-- The loop, from a state in which the same patches are in the series and applied. -/
theorem applyAll_spec {apply : P → T → Option T} : ∀ (ps : List P) (d : Dir P T), d.series.length = d.applied.length →
    ((applyAll apply alone ps d).2 = true ↔ ∃ t, Spec.patched apply ps d.tree = some t) ∧
    (∀ t, Spec.patched apply ps d.tree = some t → (applyAll apply alone ps d).1.tree = t ∧
      (applyAll apply alone ps d).1.series = d.series ++ ps ∧ (applyAll apply alone ps d).1.applied.map (·.1) = d.applied.map (·.1) ++ ps)
  | [], d, _ => ⟨⟨fun _ => ⟨_, rfl⟩, fun _ => rfl⟩, fun t h => by
      injection h with h
      exact ⟨h, (List.append_nil _).symm, (List.append_nil _).symm⟩⟩
  | p :: ps, d, hl => by
    have hp : push apply (importPatch p d) = (apply p d.tree).map fun t =>
        { series := d.series ++ [p], applied := d.applied ++ [(p, d.tree)], tree := t } := by
      unfold push importPatch
      dsimp only
      have hget : (d.series ++ [p])[d.applied.length]? = some p := by
        rw [← hl, List.getElem?_append_right (Nat.le_refl _), Nat.sub_self]; rfl
      rw [hget]
      dsimp only
      cases apply p d.tree <;> rfl
    unfold applyAll Spec.patched
    rw [hp]
    cases ha : apply p d.tree with
    | none =>
      dsimp only [Option.map_none, alone]
      exact ⟨⟨nofun, fun ⟨_, h⟩ => (nomatch h)⟩, nofun⟩
    | some t' =>
      dsimp only [Option.map_some]
      have ih := applyAll_spec (apply := apply) ps ⟨d.series ++ [p], d.applied ++ [(p, d.tree)], t'⟩ (by
        rw [List.length_append, List.length_append, hl]; rfl)
      refine ⟨ih.1, fun t ht => ?_⟩
      have h := ih.2 t ht
      refine ⟨h.1, ?_, ?_⟩
      · rw [h.2.1, List.append_assoc]; rfl
      · rw [h.2.2, List.map_append, List.append_assoc]; rfl

/-- C149: the patches are applied to the unpacked sources, each once and in their order; if one does not apply this is
reported. -/
theorem patched_exact {apply : P → T → Option T} {ps : List P} {d : Dir P T} {t : T} (hd : Good t d) (hps : ps ≠ []) :
    ((doPatch apply alone ps d).2 = true ↔ ∃ t', Spec.patched apply ps t = some t') ∧
    ∀ t', Spec.patched apply ps t = some t' → (doPatch apply alone ps d).1.tree = t' ∧ (doPatch apply alone ps d).1.series = ps ∧
      (doPatch apply alone ps d).1.applied.map (·.1) = ps := by
  unfold doPatch
  rw [if_neg hps]
  obtain ⟨h1, h2, h3⟩ := clean_good hd
  have h := applyAll_spec (apply := apply) ps (clean d) (by rw [h1, h2]; rfl)
  rw [h1, h2, h3] at h
  exact h

/-- The first of the applied patches stays. -/
theorem moments_good {apply : P → T → Option T} {t : T} : ∀ (ps : List P) (d : Dir P T), (∃ p bs, d.applied = (p, t) :: bs) →
    ∀ c, c ∈ moments apply ps d → Good t c
  | [], d, h, c, hc => List.mem_singleton.1 hc ▸ Or.inl h
  | p :: ps, d, h, c, hc => by
    unfold moments at hc
    rcases List.mem_cons.1 hc with hc | hc
    · rw [hc]; exact Or.inl h
    rcases List.mem_cons.1 hc with hc | hc
    · rw [hc]; exact Or.inl h
    cases hp : push apply (importPatch p d) with
    | none => rw [hp] at hc; cases hc
    | some d' =>
      rw [hp] at hc
      refine moments_good ps d' ?_ c hc
      obtain ⟨q, bs, h⟩ := h
      unfold push at hp
      split at hp
      · cases hp
      · split at hp
        · cases hp
        · injection hp with hp
          exact ⟨q, bs ++ [_], by
            rw [← hp]
            show d.applied ++ _ = _
            rw [h]; rfl⟩

/-- C150: wherever the task is ended, the directory can be cleaned, or no patch is applied, but some are in the series. -/
theorem ended {apply : P → T → Option T} {ps : List P} {d : Dir P T} {t : T} (hd : Good t d) {c : Dir P T}
    (hc : c ∈ doPatchMoments apply ps d) : Good t c ∨ (c.series ≠ [] ∧ c.applied = [] ∧ c.tree = t) := by
  unfold doPatchMoments at hc
  split at hc
  · exact Or.inl (List.mem_singleton.1 hc ▸ hd)
  · rcases List.mem_append.1 hc with hc | hc
    · rcases List.mem_cons.1 hc with hc | hc
      · exact Or.inl (hc ▸ hd)
      · rcases hd with ⟨p, bs, h⟩ | h
        · unfold popAll at hc
          rw [h] at hc
          have hc := List.mem_singleton.1 hc
          by_cases hs : d.series = []
          · exact Or.inl (Or.inr ⟨by rw [hc]; exact hs, by rw [hc], by rw [hc]⟩)
          · exact Or.inr ⟨by rw [hc]; exact hs, by rw [hc], by rw [hc]⟩
        · unfold popAll at hc
          rw [h.2.1] at hc
          cases hc
    · have hf := clean_good hd
      cases ps with
      | nil => exact Or.inl (Or.inr (List.mem_singleton.1 hc ▸ hf))
      | cons p ps =>
        unfold moments at hc
        rcases List.mem_cons.1 hc with hc | hc
        · exact Or.inl (Or.inr (hc ▸ hf))
        rcases List.mem_cons.1 hc with hc | hc
        · refine Or.inr ⟨?_, ?_, ?_⟩
          · rw [hc]; exact fun h => nomatch (List.append_eq_nil_iff.1 h).2
          · rw [hc]; exact hf.2.1
          · rw [hc]; exact hf.2.2
        · cases hp : push apply (importPatch p (clean d)) with
          | none => rw [hp] at hc; cases hc
          | some d' =>
            rw [hp] at hc
            refine Or.inl (moments_good ps d' ?_ c hc)
            unfold push at hp
            split at hp
            · cases hp
            · split at hp
              · cases hp
              · injection hp with hp
                rw [← hp]
                dsimp only [importPatch]
                rw [hf.2.1, hf.2.2]
                exact ⟨_, [], rfl⟩

/-- C150: if the task was ended after a patch was applied, or before one was put into the series, it can be repeated, with
the same or other patches. -/
theorem repeat_ok_partial {apply apply' : P → T → Option T} {ps ps' : List P} {d : Dir P T} {t : T} (hd : Good t d) {c : Dir P T}
    (hc : c ∈ doPatchMoments apply ps d) (hgood : c.applied ≠ [] ∨ c.series = []) (hps : ps' ≠ []) :
    ((doPatch apply' alone ps' c).2 = true ↔ ∃ t', Spec.patched apply' ps' t = some t') ∧
    ∀ t', Spec.patched apply' ps' t = some t' → (doPatch apply' alone ps' c).1.tree = t' := by
  have hg : Good t c := by
    rcases ended hd hc with h | ⟨h1, h2, -⟩
    · exact h
    · rcases hgood with h | h
      · exact absurd h2 h
      · exact absurd h h1
  have h := patched_exact (apply := apply') hg hps
  exact ⟨h.1, fun t' ht => (h.2 t' ht).1⟩

/-- The loop with patches that were left in the series: those are taken first. -/
theorem applyAll_left {apply : P → T → Option T} : ∀ (ps rest : List P) (d : Dir P T),
    d.series.drop d.applied.length = rest → d.applied.length ≤ d.series.length →
    ((applyAll apply alone ps d).2 = true ↔ ∃ t, Spec.patched apply ((rest ++ ps).take ps.length) d.tree = some t) ∧
    (∀ t, Spec.patched apply ((rest ++ ps).take ps.length) d.tree = some t → (applyAll apply alone ps d).1.tree = t)
  | [], _, d, _, _ => by
    refine ⟨⟨fun _ => ⟨d.tree, rfl⟩, fun _ => rfl⟩, fun t h => ?_⟩
    injection h
  | p :: ps, rest, d, hr, hle => by
    obtain ⟨q, rest', hq⟩ : ∃ q rest', rest ++ [p] = q :: rest' := by
      cases rest with
      | nil => exact ⟨p, [], rfl⟩
      | cons q r => exact ⟨q, r ++ [p], rfl⟩
    have hdrop : (d.series ++ [p]).drop d.applied.length = q :: rest' := by
      rw [List.drop_append_of_le_length hle, hr, hq]
    have hget : (d.series ++ [p])[d.applied.length]? = some q := by
      rw [← List.head?_drop, hdrop]; rfl
    have hp : push apply (importPatch p d) = (apply q d.tree).map fun t =>
        { series := d.series ++ [p], applied := d.applied ++ [(q, d.tree)], tree := t } := by
      unfold push importPatch
      dsimp only
      rw [hget]
      dsimp only
      cases apply q d.tree <;> rfl
    have ht : (rest ++ p :: ps).take (p :: ps).length = q :: (rest' ++ ps).take ps.length := by
      have : rest ++ p :: ps = q :: (rest' ++ ps) := by
        rw [List.append_cons rest p ps, hq]; rfl
      rw [this]; rfl
    rw [ht]
    unfold applyAll Spec.patched
    rw [hp]
    cases ha : apply q d.tree with
    | none =>
      dsimp only [Option.map_none, alone]
      exact ⟨⟨nofun, fun ⟨_, h⟩ => (nomatch h)⟩, nofun⟩
    | some t' =>
      dsimp only [Option.map_some]
      refine applyAll_left (apply := apply) ps rest' ⟨d.series ++ [p], d.applied ++ [(q, d.tree)], t'⟩ ?_ ?_
      · show (d.series ++ [p]).drop (d.applied ++ [(q, d.tree)]).length = rest'
        rw [List.length_append, List.length_singleton, ← List.drop_drop, hdrop]
        rfl
      · show (d.applied ++ [(q, d.tree)]).length ≤ (d.series ++ [p]).length
        rw [List.length_append, List.length_append]
        exact Nat.add_le_add_right hle 1

/-- Against C150: if patches are in the series and none is applied, as after a first patch that does not apply, then
repeating the task applies those first, and as many of the new ones are not applied. -/
theorem left_in_series {apply : P → T → Option T} {ps : List P} {d : Dir P T} (ha : d.applied = []) (hps : ps ≠ []) :
    ((doPatch apply alone ps d).2 = true ↔ ∃ t, Spec.patched apply ((d.series ++ ps).take ps.length) d.tree = some t) ∧
    (∀ t, Spec.patched apply ((d.series ++ ps).take ps.length) d.tree = some t → (doPatch apply alone ps d).1.tree = t) := by
  unfold doPatch
  rw [if_neg hps]
  have hc : clean d = d := by
    unfold clean popAll
    rw [ha]
  rw [hc]
  refine applyAll_left ps d.series d ?_ ?_
  · rw [ha]; rfl
  · rw [ha]; exact Nat.zero_le _

/-- C149: with `PatchTree`, the patches are taken in their order. -/
theorem tree_order {P : Type} : ∀ (ps : List P), Set.run ps ⟨[], none⟩ = ps.map some := by
  have key : ∀ (ps : List P) (s : Set P) (n : Nat), s.current = some n → s.patches.length = n + 1 → Set.run ps s = ps.map some := by
    intro ps
    induction ps with
    | nil => intros; rfl
    | cons p ps ih =>
      intro s n hc hl
      have hi : s.import p = ⟨s.patches ++ [p], some n⟩ := by
        unfold Set.import
        rw [hc]
        dsimp only
        rw [← hl, List.take_length, List.drop_length]
      unfold Set.run
      rw [hi]
      unfold Set.next
      dsimp only
      rw [ih _ (n + 1) rfl (by rw [List.length_append, hl]; rfl), ← hl, List.getElem?_append_right (Nat.le_refl _), Nat.sub_self]
      rfl
  intro ps
  cases ps with
  | nil => rfl
  | cons p ps =>
    show _ :: Set.run ps ⟨[p], some 0⟩ = _
    rw [key ps ⟨[p], some 0⟩ 0 rfl rfl]
    rfl

end

/-! ## An example: a tree is the list of the patches that it has; patch 9 does not apply -/

def apply9 (p : Nat) (t : List Nat) : Option (List Nat) := if p = 9 then none else some (t ++ [p])

example : doPatch apply9 alone [1, 2] ⟨[], [], []⟩ = (⟨[1, 2], [(1, []), (2, [1])], [1, 2]⟩, true) := by decide
example : doPatch apply9 alone [3] ⟨[1, 2], [(1, []), (2, [1])], [1, 2]⟩ = (⟨[3], [(3, [])], [3]⟩, true) := by decide
example : Good [] (⟨[1, 2], [(1, []), (2, [1])], [1, 2]⟩ : Dir Nat (List Nat)) := Or.inl ⟨_, _, rfl⟩

/-- Against C150: a first patch that does not apply is still tried after it was replaced. -/
theorem still_tried : ∃ c : Dir Nat (List Nat), doPatch apply9 alone [9] ⟨[], [], []⟩ = (c, false) ∧
    (doPatch apply9 alone [1, 2] c).2 = false ∧ Spec.patched apply9 [1, 2] [] = some [1, 2] :=
  ⟨⟨[9], [], []⟩, by decide, by decide, by decide⟩

/-- Against C150: if the task is ended after `quilt pop` and before the series is removed, and repeated with other patches,
it succeeds with the old ones. -/
theorem old_applied : ∃ c : Dir Nat (List Nat), c ∈ doPatchMoments apply9 [3] ⟨[1], [(1, [])], [1]⟩ ∧
    (doPatch apply9 alone [3] c).2 = true ∧ (doPatch apply9 alone [3] c).1.tree = [1] :=
  ⟨⟨[1], [], []⟩, by decide, by decide, by decide⟩

/-- Against C149: if no patches are left, the old ones stay. -/
theorem old_stay : doPatch apply9 alone [] ⟨[1], [(1, [])], [1]⟩ = (⟨[1], [(1, [])], [1]⟩, true) := by decide

/-- Against C149: if a terminal is opened for a patch that does not apply, and is left without a change, the task
succeeds without the patch. -/
theorem terminal_left : (doPatch apply9 some [1, 9] ⟨[], [], []⟩).2 = true ∧ (doPatch apply9 some [1, 9] ⟨[], [], []⟩).1.tree = [1] ∧
    Spec.patched apply9 [1, 9] [] = none := by decide

end Meta.Patch
