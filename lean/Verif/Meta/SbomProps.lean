import Verif.Meta.SbomModel

/-!
C270: the identifier of a bill of materials is valid, reproducible and distinguishes builds.
-/

namespace Isar.Meta.Sbom

open Py

namespace Spec

/-- RFC 4122: 36 characters, dashes at four places, else hexadecimal digits, version 4 and the variant. -/
def valid (s : Str) : Prop :=
  s.length = 36 ∧ (∀ i, i < 36 → (i = 8 ∨ i = 13 ∨ i = 18 ∨ i = 23) → s[i]? = some '-') ∧
  (∀ i, i < 36 → ¬ (i = 8 ∨ i = 13 ∨ i = 18 ∨ i = 23) → ∃ c, s[i]? = some c ∧ c ∈ "0123456789abcdef".toList) ∧
  s[14]? = some '4' ∧ ∃ c, s[19]? = some c ∧ c ∈ "89ab".toList

/-- Two hashes agree in all of the first 128 bits but the six that the format needs. -/
def agree (a b : List Digit) : Prop :=
  ∀ i, i < 32 → (i ≠ 12 → i ≠ 16 → a[i]? = b[i]?) ∧ (i = 16 → (a[i]?.map fun d => d.val % 4) = b[i]?.map fun d => d.val % 4)

end Spec

theorem hex_mem (d : Digit) : hex d ∈ "0123456789abcdef".toList := by revert d; decide +kernel

theorem hex_inj : ∀ a b : Digit, hex a = hex b → a = b := by decide +kernel

theorem map_hex_inj : ∀ {a b : List Digit}, a.map hex = b.map hex → a = b
  | [], [], _ => rfl
  | [], _ :: _, h => by simp at h
  | _ :: _, [], h => by simp at h
  | x :: a, y :: b, h => by
    simp only [List.map_cons, List.cons.injEq] at h
    rw [hex_inj _ _ h.1, map_hex_inj h.2]

/-- a list of 32 is one of 32 named items -/
theorem of_length {α : Type} (n : Nat) (l : List α) (h : l.length = n + 1) : ∃ x t, l = x :: t ∧ t.length = n := by
  rcases l with _ | ⟨x, t⟩
  · simp at h
  · exact ⟨x, t, rfl, by simpa using h⟩

theorem mark_length (ds : List Digit) : (mark ds).length = ds.length := by simp [mark]

theorem format_length (ds : List Digit) (h : ds.length = 32) : (format ds).length = 36 := by
  simp [format, h]

theorem format_inj {a b : List Digit} (ha : a.length = 32) (hb : b.length = 32) (h : format a = format b) : a = b := by
  unfold format at h
  obtain ⟨h1, h⟩ := List.append_inj h (by simp [ha, hb])
  obtain ⟨h2, h⟩ := List.append_inj (List.cons.inj h).2 (by simp [ha, hb])
  obtain ⟨h3, h⟩ := List.append_inj (List.cons.inj h).2 (by simp [ha, hb])
  obtain ⟨h4, h⟩ := List.append_inj (List.cons.inj h).2 (by simp [ha, hb])
  have h5 := map_hex_inj (List.cons.inj h).2
  have h1 := map_hex_inj h1
  have h2 := map_hex_inj h2
  have h3 := map_hex_inj h3
  have h4 := map_hex_inj h4
  have e : ∀ l : List Digit, l = l.take 8 ++ ((l.drop 8).take 4 ++ ((l.drop 12).take 4 ++ ((l.drop 16).take 4 ++ l.drop 20))) := by
    intro l
    have a1 : (l.drop 16).take 4 ++ l.drop 20 = l.drop 16 := by
      have := List.take_append_drop 4 (l.drop 16); rwa [List.drop_drop] at this
    have a2 : (l.drop 12).take 4 ++ l.drop 16 = l.drop 12 := by
      have := List.take_append_drop 4 (l.drop 12); rwa [List.drop_drop] at this
    have a3 : (l.drop 8).take 4 ++ l.drop 12 = l.drop 8 := by
      have := List.take_append_drop 4 (l.drop 8); rwa [List.drop_drop] at this
    rw [a1, a2, a3, List.take_append_drop]
  rw [e a, e b, h1, h2, h3, h4, h5]

theorem piece {x : List Digit} {k : Nat} (hk : x.length = k) (rest : Str) (i : Nat) : (x.map hex ++ '-' :: rest)[i]? =
    if i < k then x[i]?.map hex else if i = k then some '-' else rest[i - (k + 1)]? := by
  subst hk
  rw [List.getElem?_append, List.length_map]
  split
  · rw [List.getElem?_map]
  · next h1 =>
    split
    · next h2 => subst h2; simp
    · next h2 =>
      have : i - x.length = (i - (x.length + 1)) + 1 := by omega
      rw [this, List.getElem?_cons_succ]

theorem format_get (ds : List Digit) (h : ds.length = 32) :
    (∀ i, i < 36 → (i = 8 ∨ i = 13 ∨ i = 18 ∨ i = 23) → (format ds)[i]? = some '-') ∧
    (∀ i, i < 36 → ¬ (i = 8 ∨ i = 13 ∨ i = 18 ∨ i = 23) → ∃ c, (format ds)[i]? = some c ∧ c ∈ "0123456789abcdef".toList) ∧
    (format ds)[14]? = ds[12]?.map hex ∧ (format ds)[19]? = ds[16]?.map hex := by
  have g : ∀ i, i < 36 → (format ds)[i]? = if i < 8 then ds[i]?.map hex else if i = 8 then some '-' else if i < 13 then ds[i - 1]?.map hex
      else if i = 13 then some '-' else if i < 18 then ds[i - 2]?.map hex else if i = 18 then some '-' else if i < 23 then ds[i - 3]?.map hex
      else if i = 23 then some '-' else ds[i - 4]?.map hex := by
    intro i hi
    unfold format
    rw [piece (k := 8) (by simp [h]), piece (k := 4) (by simp [h]), piece (k := 4) (by simp [h]), piece (k := 4) (by simp [h]), List.getElem?_map,
      List.getElem?_drop]
    by_cases c1 : i < 8
    · rw [if_pos c1, if_pos c1, List.getElem?_take, if_pos c1]
    rw [if_neg c1, if_neg c1]
    by_cases c2 : i = 8
    · rw [if_pos c2, if_pos c2]
    rw [if_neg c2, if_neg c2]
    by_cases c3 : i < 13
    · rw [if_pos c3, if_pos (by omega), List.getElem?_take, if_pos (by omega), List.getElem?_drop]
      congr 2; omega
    rw [if_neg c3, if_neg (by omega : ¬ i - (8 + 1) < 4)]
    by_cases c4 : i = 13
    · rw [if_pos c4, if_pos (by omega)]
    rw [if_neg c4, if_neg (by omega : ¬ i - (8 + 1) = 4)]
    by_cases c5 : i < 18
    · rw [if_pos c5, if_pos (by omega), List.getElem?_take, if_pos (by omega), List.getElem?_drop]
      congr 2; omega
    rw [if_neg c5, if_neg (by omega : ¬ i - (8 + 1) - (4 + 1) < 4)]
    by_cases c6 : i = 18
    · rw [if_pos c6, if_pos (by omega)]
    rw [if_neg c6, if_neg (by omega : ¬ i - (8 + 1) - (4 + 1) = 4)]
    by_cases c7 : i < 23
    · rw [if_pos c7, if_pos (by omega), List.getElem?_take, if_pos (by omega), List.getElem?_drop]
      congr 2; omega
    rw [if_neg c7, if_neg (by omega : ¬ i - (8 + 1) - (4 + 1) - (4 + 1) < 4)]
    by_cases c8 : i = 23
    · rw [if_pos c8, if_pos (by omega)]
    rw [if_neg c8, if_neg (by omega : ¬ i - (8 + 1) - (4 + 1) - (4 + 1) = 4)]
    congr 2; omega
  refine ⟨?_, ?_, ?_, ?_⟩
  · intro i hi hd
    rw [g i hi]
    rcases hd with rfl | rfl | rfl | rfl <;> rfl
  · intro i hi hd
    have hs : ∀ j, j < 32 → ∃ c, ds[j]?.map hex = some c ∧ c ∈ "0123456789abcdef".toList := by
      intro j hj
      have : j < ds.length := by omega
      exact ⟨hex ds[j], by simp [this], hex_mem _⟩
    rw [g i hi]
    repeat' split
    all_goals first
      | omega
      | (exact hs _ (by omega))
  · rw [g 14 (by omega)]; rfl
  · rw [g 19 (by omega)]; rfl

theorem mark_get (ds : List Digit) (i : Nat) : (mark ds)[i]? =
    if i = 16 then ds[16]?.map fun d => (⟨8 + d.val % 4, by omega⟩ : Digit) else if i = 12 then ds[12]?.map fun _ => 4 else ds[i]? := by
  unfold mark
  rw [List.getElem?_modify]
  by_cases h : i = 16
  · subst h
    simp
  · have h' : ¬ 16 = i := fun e => h e.symm
    simp only [h, h', if_false]
    by_cases h2 : i = 12
    · subst h2
      rcases hd : ds[12]? with _ | d
      · have : ds.length ≤ 12 := List.getElem?_eq_none_iff.mp hd
        simp [List.getElem?_set, Nat.not_lt.mpr this]
      · have : 12 < ds.length := by
          rcases Nat.lt_or_ge 12 ds.length with x | x
          · exact x
          · rw [List.getElem?_eq_none x] at hd; cases hd
        simp [List.getElem?_set, this]
    · have h3 : ¬ 12 = i := fun e => h2 e.symm
      simp [List.getElem?_set, h2, h3]

/-! ## C270 -/

/-- Every hash with at least 32 digits gives a valid identifier. -/
theorem uuid_valid (hash : List Digit) (h : 32 ≤ hash.length) : ∃ s, uuid hash = some s ∧ Spec.valid s := by
  have hl : (hash.take 32).length = 32 := by simp; omega
  unfold uuid
  dsimp only
  rw [if_pos hl]
  refine ⟨_, rfl, ?_⟩
  have hm : (mark (hash.take 32)).length = 32 := by rw [mark_length, hl]
  obtain ⟨h1, h2, h3, h4⟩ := format_get _ hm
  refine ⟨format_length _ hm, h1, h2, ?_, ?_⟩
  · rw [h3, mark_get]
    have : 12 < (hash.take 32).length := by omega
    rw [List.getElem?_eq_getElem this]
    rfl
  · rw [h4, mark_get]
    have : 16 < (hash.take 32).length := by omega
    rw [List.getElem?_eq_getElem this]
    refine ⟨_, rfl, ?_⟩
    generalize (hash.take 32)[16] = d
    revert d
    decide +kernel

/-- Two hashes give the same identifier if and only if they agree in the first 128 bits but the six that are fixed. -/
theorem uuid_same_iff (a b : List Digit) (ha : 32 ≤ a.length) (hb : 32 ≤ b.length) : uuid a = uuid b ↔ Spec.agree a b := by
  have la : (a.take 32).length = 32 := by simp; omega
  have lb : (b.take 32).length = 32 := by simp; omega
  have ga : ∀ i, i < 32 → (a.take 32)[i]? = a[i]? := fun i hi => by rw [List.getElem?_take, if_pos hi]
  have gb : ∀ i, i < 32 → (b.take 32)[i]? = b[i]? := fun i hi => by rw [List.getElem?_take, if_pos hi]
  have inj4 : ∀ x y : Option Digit, (x.map fun d => (⟨8 + d.val % 4, by omega⟩ : Digit)) = (y.map fun d => (⟨8 + d.val % 4, by omega⟩ : Digit)) ↔
      (x.map fun d => d.val % 4) = y.map fun d => d.val % 4 := by
    intro x y
    rcases x with _ | x <;> rcases y with _ | y <;> simp
  unfold uuid
  dsimp only
  rw [if_pos la, if_pos lb, Option.some.injEq]
  have : format (mark (a.take 32)) = format (mark (b.take 32)) ↔ mark (a.take 32) = mark (b.take 32) :=
    ⟨format_inj (by rw [mark_length, la]) (by rw [mark_length, lb]), fun h => by rw [h]⟩
  rw [this]
  unfold Spec.agree
  constructor
  · intro h i hi
    have hg : (mark (a.take 32))[i]? = (mark (b.take 32))[i]? := by rw [h]
    rw [mark_get, mark_get] at hg
    refine ⟨fun n1 n2 => ?_, fun e => ?_⟩
    · rw [if_neg n2, if_neg n2, if_neg n1, if_neg n1, ga i hi, gb i hi] at hg
      exact hg
    · subst e
      rw [if_pos rfl, if_pos rfl, ga 16 hi, gb 16 hi, inj4] at hg
      exact hg
  · intro h
    apply List.ext_getElem?
    intro i
    rcases Nat.lt_or_ge i 32 with hi | hi
    · rw [mark_get, mark_get]
      by_cases e : i = 16
      · subst e
        rw [if_pos rfl, if_pos rfl, ga 16 hi, gb 16 hi, inj4]
        exact (h 16 hi).2 rfl
      · rw [if_neg e, if_neg e]
        by_cases e2 : i = 12
        · subst e2
          rw [if_pos rfl, if_pos rfl, ga 12 hi, gb 12 hi, List.getElem?_eq_getElem (by omega : 12 < a.length),
            List.getElem?_eq_getElem (by omega : 12 < b.length)]
          rfl
        · rw [if_neg e2, if_neg e2, ga i hi, gb i hi]
          exact (h i hi).1 e2 e
    · rw [List.getElem?_eq_none (by rw [mark_length, la]; exact hi), List.getElem?_eq_none (by rw [mark_length, lb]; exact hi)]

/-- The identifier is the one that the user set, or is made from the hash of the task and depends on nothing else. -/
theorem reproducible (set : Str) (h : Option (List Digit)) (hs : set ≠ []) (d : List Digit) (r r' : Str) :
    document set h r = some set ∧ document [] (some d) r = uuid d ∧ document [] (some d) r = document [] (some d) r' := by
  refine ⟨?_, rfl, rfl⟩
  unfold document
  rw [if_pos hs]

/-- Without a hash of the task it is random. -/
theorem random_without_hash (r : Str) : document [] none r = some r := rfl

/-- Hashes that differ only after the first 128 bits give the same identifier. -/
theorem cut_off (p s t : List Digit) (h : p.length = 32) : uuid (p ++ s) = uuid (p ++ t) := by
  unfold uuid
  have : ∀ u : List Digit, (p ++ u).take 32 = p := fun u => by rw [← h]; exact List.take_left
  rw [this, this]

/-! ## Examples -/

example : uuid (List.replicate 64 (15 : Digit)) = some "ffffffff-ffff-4fff-bfff-ffffffffffff".toList := by decide +kernel

example : uuid (List.replicate 31 (15 : Digit)) = none := by decide +kernel

end Isar.Meta.Sbom
