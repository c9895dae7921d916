import Verif.Bb.SigLemmas
/-!
# Lemmas about values and dependencies
-/

namespace Bb.Sig
open Py

/-! ## Tests with `bb.utils.contains` -/

/-- The tests, in the order of the text. -/
def tested (ignored exclusions : List Str) (c : List (Str × List Str)) : List (Str × Str) :=
  (sortSet (c.map (·.1))).flatMap fun k =>
    if k ∈ exclusions ∨ k ∈ ignored then [] else (sortSet ((c.lookup k).getD [])).map fun i => (k, i)

theorem mem_keys_of_lookup {α : Type} {c : List (Str × α)} {k : Str} {v : α} (h : c.lookup k = some v) :
    k ∈ c.map (·.1) := by
  induction c with
  | nil => cases h
  | cons e c ih =>
    obtain ⟨a, b⟩ := e
    rw [List.lookup_cons] at h
    by_cases e : k = a
    · subst e; exact List.mem_cons_self
    · have : (k == a) = false := by simpa using e
      rw [this] at h
      exact List.mem_cons_of_mem _ (ih h)

theorem mem_tested {ignored exclusions : List Str} {c : List (Str × List Str)} {k i : Str} :
    (k, i) ∈ tested ignored exclusions c ↔ Tests c k i ∧ k ∉ exclusions ∧ k ∉ ignored := by
  unfold tested
  rw [List.mem_flatMap]
  constructor
  · rintro ⟨x, hx, h⟩
    by_cases e : x ∈ exclusions ∨ x ∈ ignored
    · rw [if_pos e] at h; exact nomatch h
    · rw [if_neg e, List.mem_map] at h
      obtain ⟨j, hj, e2⟩ := h
      cases e2
      rw [mem_sortSet] at hj
      cases hl : c.lookup k with
      | none => rw [hl] at hj; exact nomatch hj
      | some l =>
        rw [hl] at hj
        exact ⟨⟨l, hl, hj⟩, fun h => e (Or.inl h), fun h => e (Or.inr h)⟩
  · rintro ⟨⟨l, hl, hi⟩, h1, h2⟩
    refine ⟨k, mem_sortSet.2 (mem_keys_of_lookup hl), ?_⟩
    rw [if_neg (by rintro (h | h); exact h1 h; exact h2 h), List.mem_map]
    exact ⟨i, mem_sortSet.2 (by rw [hl]; exact hi), rfl⟩

theorem flatten_map_flatMap {α β : Type} (f : α → List β) (g : β → Str) (l : List α) :
    (l.map fun a => ((f a).map g).flatten).flatten = ((l.flatMap f).map g).flatten := by
  induction l with
  | nil => rfl
  | cons a l ih =>
    rw [List.map_cons, List.flatten_cons, ih, List.flatMap_cons, List.map_append, List.flatten_append]

theorem handleContains_eq (s : Store) (v : Str) (c : List (Str × List Str)) (ex : List Str) :
    handleContains s v c ex = v ++ ((tested s.ignored ex c).map fun p =>
      itemText (words ((s.value p.1).getD [])) p.1 p.2).flatten := by
  unfold handleContains tested
  rw [← flatten_map_flatMap]
  congr 2
  apply List.map_congr_left
  intro k _
  by_cases e : k ∈ ex ∨ k ∈ s.ignored
  · rw [if_pos e, if_pos e]; rfl
  · rw [if_neg e, if_neg e, List.map_map]
    rfl

theorem holds_iff (v : Option Str) (item : Str) :
    (words item).all (fun w => decide (w ∈ words (v.getD []))) = true ↔ Holds v item := by
  rw [List.all_eq_true]
  unfold Holds
  simp only [decide_eq_true_iff]

theorem itemText_congr {v v' : Option Str} {k item : Str} (h : Holds v item ↔ Holds v' item) :
    itemText (words (v.getD [])) k item = itemText (words (v'.getD [])) k item := by
  unfold itemText
  rw [← holds_iff, ← holds_iff] at h
  by_cases e : (words item).all (fun w => decide (w ∈ words (v.getD []))) = true
  · rw [if_pos e, if_pos (h.1 e)]
  · rw [if_neg e, if_neg fun h' => e (h.2 h')]

theorem itemText_ne {v v' : Option Str} {k item r r' : Str}
    (h : itemText (words (v.getD [])) k item ++ r = itemText (words (v'.getD [])) k item ++ r') :
    (Holds v item ↔ Holds v' item) ∧ r = r' := by
  unfold itemText at h
  generalize "\n".toList ++ k ++ "{".toList ++ item ++ "} = ".toList = pre at h
  rw [List.append_assoc, List.append_assoc] at h
  have h := List.append_cancel_left h
  have ds : ∀ x y : Str, "Set".toList ++ x ≠ "Unset".toList ++ y := by
    intro x y e
    injection e with e1
    revert e1
    decide
  rw [← holds_iff, ← holds_iff]
  by_cases e : (words item).all (fun w => decide (w ∈ words (v.getD []))) = true
  · by_cases e' : (words item).all (fun w => decide (w ∈ words (v'.getD []))) = true
    · rw [if_pos e, if_pos e'] at h
      exact ⟨⟨fun _ => e', fun _ => e⟩, List.append_cancel_left h⟩
    · rw [if_pos e, if_neg e'] at h
      exact absurd h (ds _ _)
  · by_cases e' : (words item).all (fun w => decide (w ∈ words (v'.getD []))) = true
    · rw [if_neg e, if_pos e'] at h
      exact absurd h.symm (ds _ _)
    · rw [if_neg e, if_neg e'] at h
      exact ⟨⟨fun h => absurd h e, fun h => absurd h e'⟩, List.append_cancel_left h⟩

theorem tests_text (val val' : Str → Option Str) (l : List (Str × Str)) :
    (l.map fun p => itemText (words ((val p.1).getD [])) p.1 p.2).flatten =
      (l.map fun p => itemText (words ((val' p.1).getD [])) p.1 p.2).flatten ↔
    ∀ p, p ∈ l → (Holds (val p.1) p.2 ↔ Holds (val' p.1) p.2) := by
  induction l with
  | nil => exact ⟨fun _ p h => (nomatch h), fun _ => rfl⟩
  | cons q l ih =>
    rw [List.map_cons, List.map_cons, List.flatten_cons, List.flatten_cons]
    constructor
    · intro h p hp
      obtain ⟨h1, h2⟩ := itemText_ne h
      rcases List.mem_cons.1 hp with rfl | hp
      · exact h1
      · exact ih.1 h2 p hp
    · intro h
      rw [itemText_congr (h q List.mem_cons_self), ih.2 fun p hp => h p (List.mem_cons_of_mem _ hp)]

theorem handleContains_congr {s s' : Store} (v : Str) (c : List (Str × List Str)) (ex : List Str)
    (hi : s.ignored = s'.ignored)
    (h : ∀ x i, Tests c x i → x ∉ ex → x ∉ s.ignored → (Holds (s.value x) i ↔ Holds (s'.value x) i)) :
    handleContains s v c ex = handleContains s' v c ex := by
  rw [handleContains_eq, handleContains_eq, ← hi]
  congr 1
  refine (tests_text s.value s'.value _).2 fun p hp => ?_
  have := mem_tested.1 hp
  exact h _ _ this.1 this.2.1 this.2.2

theorem removeText_congr {s s' : Store} (ex : List Str) (hi : s.ignored = s'.ignored) (l : List Removal)
    (h : ∀ r, r ∈ l → ∀ x i, Tests r.parsed.contains x i → x ∉ ex → x ∉ s.ignored →
      (Holds (s.value x) i ↔ Holds (s'.value x) i)) (v : Str) :
    removeText s ex l v = removeText s' ex l v := by
  induction l generalizing v with
  | nil => rfl
  | cons r l ih =>
    unfold removeText
    rw [handleContains_congr _ _ _ hi (h r List.mem_cons_self)]
    exact ih (fun r' hr => h r' (List.mem_cons_of_mem _ hr)) _

theorem mem_sortRemoves {l : List Removal} {r : Removal} : r ∈ sortRemoves l ↔ r ∈ l :=
  (sortBy_perm _ _).mem_iff

/-- `build_dependencies` looks at nothing else. -/
theorem buildDeps_congr {s s' : Store} (k : Str) (he : s.entry k = s'.entry k) (hf : s.flags k = s'.flags k)
    (hk : s.keys = s'.keys) (hs : s.shelldeps = s'.shelldeps) (hx : s.varflagsexcl = s'.varflagsexcl)
    (hi : s.ignored = s'.ignored)
    (ht : ∀ c, c ∈ (s.entry k).testing → ∀ x i, Tests c x i → x ∉ s.ignored →
      (Holds (s.value x) i ↔ Holds (s'.value x) i)) : buildDeps s k = buildDeps s' k := by
  have hkn : ∀ e, known s e = known s' e := fun e => by unfold known; rw [hk]
  have hfd : flagDeps s k (s.flags k) = flagDeps s' k (s'.flags k) := by unfold flagDeps; rw [hx, hf]
  have hrm : ∀ r : List Removal, (∀ y, y ∈ r → ∀ x i, Tests y.parsed.contains x i → x ∉ s.ignored →
      (Holds (s.value x) i ↔ Holds (s'.value x) i)) → ∀ ex v,
      removeText s ex (sortRemoves r) v = removeText s' ex (sortRemoves r) v :=
    fun r hr ex v => removeText_congr ex hi _ (fun y hy x i h1 _ h2 => hr y (mem_sortRemoves.1 hy) x i h1 h2) v
  unfold buildDeps
  rw [← he]
  cases hent : s.entry k with
  | module p =>
    rw [hent] at ht
    dsimp only
    rw [hkn, hi, handleContains_congr _ _ _ hi fun x i h1 _ h2 => ht _ List.mem_cons_self x i h1 h2]
  | flag n v p =>
    dsimp only
    rw [hkn, hi]
  | python v p =>
    rw [hent] at ht
    dsimp only
    rw [hfd, hf, hi]
    unfold bodyDeps
    cases (s'.flags k).vardepvalue with
    | some x => rfl
    | none =>
      dsimp only
      rw [hkn, handleContains_congr _ _ _ hi fun x i h1 _ h2 => ht _ List.mem_cons_self x i h1 h2]
  | shell v calls p r =>
    rw [hent] at ht
    dsimp only
    rw [hfd, hf, hi]
    unfold bodyDeps
    cases (s'.flags k).vardepvalue with
    | some x => rfl
    | none =>
      dsimp only
      rw [hkn, hkn, hs, handleContains_congr _ _ _ hi fun x i h1 _ h2 => ht _ List.mem_cons_self x i h1 h2,
        hrm r fun y hy x i h1 h2 => ht _ (List.mem_cons_of_mem _ (List.mem_map.2 ⟨y, hy, rfl⟩)) x i h1 h2]
  | plain v p r =>
    rw [hent] at ht
    dsimp only
    rw [hfd, hf, hi]
    unfold bodyDeps
    cases (s'.flags k).vardepvalue with
    | some x => rfl
    | none =>
      dsimp only
      rw [hkn, handleContains_congr _ _ _ hi fun x i h1 _ h2 => ht _ List.mem_cons_self x i h1 h2,
        hrm r fun y hy x i h1 h2 => ht _ (List.mem_cons_of_mem _ (List.mem_map.2 ⟨y, hy, rfl⟩)) x i h1 h2]

/-! ## Texts of names and values -/

/-- The text that is hashed for a task, for given values. -/
def dataText (f : Str → Str) (t : Str) (L : List Str) : Str :=
  f t ++ (L.map fun k => k ++ f k).flatten

theorem parts_length (f g : Str → Str) (L : List Str) (h : ∀ k, k ∈ L → (f k).length ≤ (g k).length) :
    ((L.map fun k => k ++ f k).flatten).length ≤ ((L.map fun k => k ++ g k).flatten).length := by
  induction L with
  | nil => exact Nat.le_refl _
  | cons k L ih =>
    have h1 := h k List.mem_cons_self
    have h2 := ih fun j hj => h j (List.mem_cons_of_mem _ hj)
    simp only [List.map_cons, List.flatten_cons, List.length_append]
    omega

theorem parts_inj (f g : Str → Str) (L : List Str) (h : ∀ k, k ∈ L → (f k).length ≤ (g k).length)
    (e : (L.map fun k => k ++ f k).flatten = (L.map fun k => k ++ g k).flatten) :
    ∀ k, k ∈ L → f k = g k := by
  induction L with
  | nil => intro k hk; exact nomatch hk
  | cons k L ih =>
    have h1 := h k List.mem_cons_self
    have h2 := parts_length f g L fun j hj => h j (List.mem_cons_of_mem _ hj)
    have hl := congrArg List.length e
    simp only [List.map_cons, List.flatten_cons, List.length_append] at hl
    rw [List.map_cons, List.map_cons, List.flatten_cons, List.flatten_cons, List.append_assoc,
      List.append_assoc] at e
    have e := List.append_cancel_left e
    obtain ⟨e1, e2⟩ := List.append_inj e (by omega)
    intro j hj
    rcases List.mem_cons.1 hj with rfl | hj
    · exact e1
    · exact ih (fun j hj => h j (List.mem_cons_of_mem _ hj)) e2 j hj

/-- If values only get longer, the texts are the same only for the same values. -/
theorem dataText_inj (f g : Str → Str) (t : Str) (L : List Str)
    (ht : (f t).length ≤ (g t).length) (h : ∀ k, k ∈ L → (f k).length ≤ (g k).length)
    (e : dataText f t L = dataText g t L) : f t = g t ∧ ∀ k, k ∈ L → f k = g k := by
  have h2 := parts_length f g L h
  have hl := congrArg List.length e
  unfold dataText at e hl
  rw [List.length_append, List.length_append] at hl
  obtain ⟨e1, e2⟩ := List.append_inj e (by omega)
  exact ⟨e1, parts_inj f g L h e2⟩

/-! ## What is needed -/

theorem deps_not_ignored (s : Store) (k j : Str) (h : j ∈ (buildDeps s k).1) : j ∉ s.ignored := by
  unfold buildDeps at h
  cases he : s.entry k with
  | module p => rw [he] at h; exact (mem_minus.1 h).2
  | flag n v p =>
    rw [he] at h
    dsimp only at h
    by_cases e : n = "vardepvalueexclude".toList
    · rw [if_pos e] at h; exact nomatch h
    · rw [if_neg e] at h; exact (mem_minus.1 h).2
  | python v p => rw [he] at h; exact (mem_minus.1 h).2
  | shell v c p r => rw [he] at h; exact (mem_minus.1 h).2
  | plain v p r => rw [he] at h; exact (mem_minus.1 h).2

theorem needs_not_ignored {s : Store} {t k : Str} (h : Needs s t k) : k ∉ s.ignored := by
  cases h with
  | direct h => exact deps_not_ignored s _ _ h
  | step _ h => exact deps_not_ignored s _ _ h

theorem needs_congr {s s' : Store} {t : Str}
    (h : ∀ k, k = t ∨ Needs s t k → (buildDeps s k).1 = (buildDeps s' k).1) (k : Str) :
    Needs s t k ↔ Needs s' t k := by
  constructor
  · intro hk
    induction hk with
    | direct hd => exact .direct (h t (Or.inl rfl) ▸ hd)
    | step hk hj ih => exact .step ih (h _ (Or.inr hk) ▸ hj)
  · intro hk
    induction hk with
    | direct hd => exact .direct ((h t (Or.inl rfl)).symm ▸ hd)
    | step _ hj ih => exact .step ih ((h _ (Or.inr ih)).symm ▸ hj)

theorem recordVals_some {s : Store} {c : Cache} (ok : CacheOk s c) (ignored l : List Str)
    (hl : ∀ k, k ∈ l → Has c k ∧ k ∉ ignored) (d : Dict (Option Str))
    (hd : ∀ k v, d.lookup k = some v → v = (buildDeps s k).2) :
    ∃ d', recordVals c ignored l d = some d' ∧
      (∀ k v, d'.lookup k = some v → v = (buildDeps s k).2) ∧
      (∀ k, k ∈ l → (d'.lookup k).isSome = true) ∧
      ∀ k, (d.lookup k).isSome = true → (d'.lookup k).isSome = true := by
  induction l generalizing d with
  | nil => exact ⟨d, rfl, hd, fun k hk => (nomatch hk), fun k hk => hk⟩
  | cons x l ih =>
    have hx := hl x List.mem_cons_self
    unfold recordVals
    rw [if_neg hx.2, (ok.get hx.1).2]
    dsimp only
    obtain ⟨d', e, h1, h2, h3⟩ := ih (fun k hk => hl k (List.mem_cons_of_mem _ hk))
      (Dict.set d x (buildDeps s x).2) (by
        intro k v hv
        rw [Dict.lookup_set] at hv
        by_cases e : k = x
        · rw [if_pos e] at hv; cases hv; rw [e]
        · rw [if_neg e] at hv; exact hd k v hv)
    refine ⟨d', e, h1, ?_, ?_⟩
    · intro k hk
      rcases List.mem_cons.1 hk with rfl | hk
      · refine h3 k ?_
        rw [Dict.lookup_set, if_pos rfl]; rfl
      · exact h2 k hk
    · intro k hk
      refine h3 k ?_
      rw [Dict.lookup_set]
      by_cases e : k = x
      · rw [if_pos e]; rfl
      · rw [if_neg e]; exact hk

end Bb.Sig
