import Verif.Bb.DataLemmas
/-!
# Lemmas about reading what was written
-/

namespace Bb.Data
open Py Spec

/-! ### Names -/

theorem beforeColon_lt {s : Str} (h : s ≠ []) : (beforeColon s).length < s.length := by
  unfold beforeColon
  rw [List.length_reverse, List.length_drop]
  have h1 : (s.reverse.dropWhile (· ≠ ':')).length ≤ s.reverse.length :=
    (List.dropWhile_sublist _).length_le
  rw [List.length_reverse] at h1
  have : 0 < s.length := List.length_pos_iff.2 h
  omega

theorem candGo_lt (var : Str) (n : Nat) (s o : Str) (h : s.length < var.length) :
    ∀ c ∈ candGo var n s o, c.1.length < var.length := by
  induction n generalizing s o with
  | zero => intro c hc; cases hc
  | succ n ih =>
    intro c hc
    unfold candGo at hc
    by_cases e : isOverride o
    · rw [if_pos e] at hc
      rcases List.mem_cons.1 hc with rfl | hc
      · exact h
      · by_cases e2 : ':' ∈ s
        · rw [if_pos e2] at hc
          dsimp only at hc
          by_cases e3 : beforeColon s = []
          · rw [if_pos e3] at hc; cases hc
          · rw [if_neg e3] at hc
            have hs : s ≠ [] := fun x => by rw [x] at e2; cases e2
            exact ih _ _ (Nat.lt_trans (beforeColon_lt hs) h) c hc
        · rw [if_neg e2] at hc; cases hc
    · rw [if_neg e] at hc; cases hc

/-- The loops over the overrides of a name are about shorter names. -/
theorem candidates_ne (var : Str) : ∀ c ∈ candidates var, c.1 ≠ var := by
  intro c hc e
  have hv : var ≠ [] := by
    rintro rfl
    cases hc
  have : c.1.length < var.length := by
    unfold candidates at hc
    by_cases h : ':' ∈ var
    · rw [if_pos h] at hc
      exact candGo_lt var _ _ _ (beforeColon_lt hv) c hc
    · rw [if_neg h] at hc
      refine candGo_lt var _ _ _ ?_ c hc
      rw [List.length_dropLast]
      have : 0 < var.length := List.length_pos_iff.2 hv
      omega
  rw [e] at this
  exact Nat.lt_irrefl _ this

/-! ### What the changes do to the own datastore -/

theorem findVar_cons {w : World} (h : WF w) {i : Nat} (hi : i < w.stores.length) : ∃ t,
    w.line i = i :: t ∧ ∀ var, w.findVar i var =
      ((w.dict i).lookup var).or (t.findSome? fun j => (w.dict j).lookup var) := by
  obtain ⟨t, ht⟩ := h.head i hi
  refine ⟨t, ht, fun var => ?_⟩
  unfold World.findVar
  rw [ht, List.findSome?_cons]
  cases (w.dict i).lookup var <;> rfl

theorem findVar_setDict {w : World} (h : WF w) {i : Nat} (hi : i < w.stores.length) (var : Str)
    (x : VarD) (y : Str) :
    (w.setDict i var x).findVar i y = if y = var then some x else w.findVar i y := by
  obtain ⟨t, ht⟩ := h.head i hi
  by_cases e : y = var
  · rw [if_pos e]
    unfold World.findVar
    rw [line_setDict, ht, List.findSome?_cons, dict_setDict, if_pos ⟨rfl, hi⟩, Dict.lookup_set,
      if_pos e]
  · rw [if_neg e]
    unfold World.findVar
    rw [line_setDict]
    refine findSome_congr fun j _ => ?_
    rw [dict_setDict]
    by_cases c : j = i ∧ i < w.stores.length
    · rw [if_pos c, Dict.lookup_set, if_neg e, c.1]
    · rw [if_neg c]

theorem findVar_shadow {w : World} (h : WF w) {i : Nat} (hi : i < w.stores.length) (var y : Str) :
    (w.shadow i var).findVar i y =
      if y = var then some ((w.findVar i var).getD {}) else w.findVar i y := by
  unfold World.shadow
  by_cases c : ((w.dict i).lookup var).isSome
  · rw [if_pos c]
    by_cases e : y = var
    · rw [if_pos e, e]
      obtain ⟨t, _, hf⟩ := findVar_cons h hi
      rw [hf var]
      cases hl : (w.dict i).lookup var with
      | none => rw [hl] at c; cases c
      | some v => rfl
    · rw [if_neg e]
  · rw [if_neg c, findVar_setDict h hi]

theorem lookup_shadow {w : World} (h : WF w) {i : Nat} (hi : i < w.stores.length) (var : Str) :
    ((w.shadow i var).dict i).lookup var = some ((w.findVar i var).getD {}) := by
  unfold World.shadow
  by_cases c : ((w.dict i).lookup var).isSome
  · rw [if_pos c]
    obtain ⟨t, _, hf⟩ := findVar_cons h hi
    rw [hf var]
    cases hl : (w.dict i).lookup var with
    | none => rw [hl] at c; cases c
    | some v => rfl
  · rw [if_neg c, dict_setDict, if_pos ⟨rfl, hi⟩, Dict.lookup_set, if_pos rfl]

theorem findVar_modVar {w : World} (h : WF w) {i : Nat} (hi : i < w.stores.length) (var : Str)
    (f : VarD → VarD) (y : Str) : (w.modVar i var f).findVar i y =
      if y = var then some (f ((w.findVar i var).getD {})) else w.findVar i y := by
  unfold World.modVar
  dsimp only
  rw [findVar_setDict (wf_shadow h i var) (by rw [(frame_shadow w i var).len]; exact hi),
    lookup_shadow h hi, findVar_shadow h hi]
  by_cases e : y = var
  · rw [if_pos e, if_pos e]; rfl
  · rw [if_neg e, if_neg e, if_neg e]

theorem od_shadow (w : World) (i : Nat) (var : Str) (j : Nat) : (w.shadow i var).od j = w.od j := by
  unfold World.shadow
  by_cases c : ((w.dict i).lookup var).isSome
  · rw [if_pos c]
  · rw [if_neg c, od_setDict]

theorem od_modVar (w : World) (i : Nat) (var : Str) (f : VarD → VarD) (j : Nat) :
    (w.modVar i var f).od j = w.od j := by
  unfold World.modVar
  rw [od_setDict, od_shadow]

/-- The dictionaries are the same. -/
def SameDict (w w' : World) : Prop := (∀ j, w'.dict j = w.dict j) ∧ ∀ j, w'.line j = w.line j

theorem SameDict.refl (w : World) : SameDict w w := ⟨fun _ => rfl, fun _ => rfl⟩

theorem SameDict.trans {a b c : World} (h : SameDict a b) (h' : SameDict b c) : SameDict a c :=
  ⟨fun j => (h'.1 j).trans (h.1 j), fun j => (h'.2 j).trans (h.2 j)⟩

theorem SameDict.findVar {w w' : World} (h : SameDict w w') (i : Nat) (var : Str) :
    w'.findVar i var = w.findVar i var := by
  unfold World.findVar
  rw [h.2]
  exact findSome_congr fun j _ => by rw [h.1]

theorem sd_setOd (w : World) (i : Nat) (var : Str) (x : Nat) : SameDict w (w.setOd i var x) :=
  ⟨dict_setOd w i var x, line_setOd w i var x⟩

theorem sd_delOd (w : World) (i : Nat) (var : Str) : SameDict w (w.delOd i var) :=
  ⟨dict_delOd w i var, line_delOd w i var⟩

theorem sd_new (w : World) (o : Obj) : SameDict w (w.new o) := ⟨fun _ => rfl, fun _ => rfl⟩

theorem sd_write (w : World) (l : Nat) (o : Obj) : SameDict w (w.write l o) :=
  ⟨fun _ => rfl, fun _ => rfl⟩

theorem sd_setPairs (w : World) (i : Nat) (var : Str) (a b : List (Str × Str)) :
    SameDict w (w.setPairs i var a b) :=
  (sd_new w _).trans ((sd_setOd _ i var _).trans (sd_write _ _ _))

theorem sd_addOverride (w : World) (i : Nat) (var : Str) (c : Str × Str) :
    SameDict w (addOverride i var w c) := by
  unfold addOverride
  have h1 : SameDict w (if ((w.od i).lookup c.1).isSome then w else
      (w.new (.pairs [])).setOd i c.1 w.objs.length) := by
    by_cases e : ((w.od i).lookup c.1).isSome
    · rw [if_pos e]; exact SameDict.refl w
    · rw [if_neg e]; exact (sd_new w _).trans (sd_setOd _ i _ _)
  revert h1
  generalize (if ((w.od i).lookup c.1).isSome then w else
      (w.new (.pairs [])).setOd i c.1 w.objs.length) = w1
  intro h1
  dsimp only
  by_cases e : (var, c.2) ∈ w1.pairs (((w1.od i).lookup c.1).getD 0)
  · rw [if_pos e]; exact h1
  · rw [if_neg e]; exact h1.trans (sd_setPairs w1 i c.1 _ _)

theorem sd_foldl {α : Type} {f : World → α → World} (hf : ∀ w a, SameDict w (f w a)) (l : List α)
    (w : World) : SameDict w (l.foldl f w) := by
  induction l generalizing w with
  | nil => exact SameDict.refl w
  | cons a l ih => exact (hf w a).trans (ih (f w a))

theorem sd_updateOverrides (w : World) (i : Nat) (var : Str) :
    SameDict w (updateOverrides w i var) := sd_foldl (fun w c => sd_addOverride w i var c) _ w

theorem sd_dropOverride (w : World) (i : Nat) (var : Str) (c : Str × Str) :
    SameDict w (dropOverride i var w c) := by
  unfold dropOverride
  cases (w.od i).lookup c.1 with
  | none => exact SameDict.refl w
  | some l => exact sd_setPairs w i c.1 _ _

theorem lookup_od_setOd (w : World) (i : Nat) (var : Str) (x : Nat) (y : Str) (hy : y ≠ var) :
    ((w.setOd i var x).od i).lookup y = (w.od i).lookup y := by
  rw [od_setOd]
  by_cases c : i = i ∧ i < w.stores.length
  · rw [if_pos c, Dict.lookup_set, if_neg hy]
  · rw [if_neg c]

theorem lookup_od_addOverride (w : World) (i : Nat) (var : Str) (c : Str × Str) (y : Str)
    (hy : y ≠ c.1) : ((addOverride i var w c).od i).lookup y = (w.od i).lookup y := by
  unfold addOverride
  have h1 : ((if ((w.od i).lookup c.1).isSome then w else
      (w.new (.pairs [])).setOd i c.1 w.objs.length).od i).lookup y = (w.od i).lookup y := by
    by_cases e : ((w.od i).lookup c.1).isSome
    · rw [if_pos e]
    · rw [if_neg e, lookup_od_setOd _ _ _ _ _ hy]; rfl
  revert h1
  generalize (if ((w.od i).lookup c.1).isSome then w else
      (w.new (.pairs [])).setOd i c.1 w.objs.length) = w1
  intro h1
  dsimp only
  by_cases e : (var, c.2) ∈ w1.pairs (((w1.od i).lookup c.1).getD 0)
  · rw [if_pos e]; exact h1
  · rw [if_neg e]
    show (((w1.new _).setOd i c.1 _).od i).lookup y = _
    rw [lookup_od_setOd _ _ _ _ _ hy]
    exact h1

theorem lookup_od_updateOverrides (w : World) (i : Nat) (var y : Str)
    (hy : ∀ c ∈ candidates var, c.1 ≠ y) :
    ((updateOverrides w i var).od i).lookup y = (w.od i).lookup y := by
  unfold updateOverrides
  generalize candidates var = cs at hy
  induction cs generalizing w with
  | nil => rfl
  | cons c cs ih =>
    rw [List.foldl_cons, ih _ fun c hc => hy c (List.mem_cons_of_mem _ hc),
      lookup_od_addOverride _ _ _ _ _ fun x => hy c List.mem_cons_self x.symm]

theorem lookup_od_dropOverride (w : World) (i : Nat) (var : Str) (c : Str × Str) (y : Str)
    (hy : (w.od i).lookup y = none) : ((dropOverride i var w c).od i).lookup y = none := by
  unfold dropOverride
  cases e : (w.od i).lookup c.1 with
  | none => exact hy
  | some l =>
    show (((w.new _).setOd i c.1 _).od i).lookup y = _
    rw [lookup_od_setOd _ _ _ _ _ fun x => by rw [x, e] at hy; cases hy]
    exact hy

/-- What `delVar` does. -/
theorem delVar_own {w : World} (h : WF w) {i : Nat} (hi : i < w.stores.length) (var : Str) :
    (∀ y, (delVar w i var).findVar i y = if y = var then some {} else w.findVar i y) ∧
    ((delVar w i var).od i).lookup var = none := by
  unfold delVar
  dsimp only
  have h1 : ∀ y, (if (((w.setDict i var {}).od i).lookup var).isSome then
      (w.setDict i var {}).delOd i var else w.setDict i var {}).findVar i y =
      if y = var then some {} else w.findVar i y := by
    intro y
    by_cases e : (((w.setDict i var {}).od i).lookup var).isSome
    · rw [if_pos e, (sd_delOd _ i var).findVar, findVar_setDict h hi]
    · rw [if_neg e, findVar_setDict h hi]
  have h2 : ((if (((w.setDict i var {}).od i).lookup var).isSome then
      (w.setDict i var {}).delOd i var else w.setDict i var {}).od i).lookup var = none := by
    by_cases e : (((w.setDict i var {}).od i).lookup var).isSome
    · rw [if_pos e, od_delOd, if_pos ⟨rfl, by rw [len_setDict]; exact hi⟩, Dict.lookup_del,
        if_pos rfl]
    · rw [if_neg e]; exact Option.not_isSome_iff_eq_none.1 e
  revert h1 h2
  generalize (if (((w.setDict i var {}).od i).lookup var).isSome then
      (w.setDict i var {}).delOd i var else w.setDict i var {}) = w1
  intro h1 h2
  by_cases e : ':' ∈ var
  · rw [if_pos e]
    constructor
    · intro y
      rw [(sd_foldl (fun w c => sd_dropOverride w i var c) (candidates var) w1).findVar, h1]
    · generalize candidates var = cs
      clear h1
      induction cs generalizing w1 with
      | nil => exact h2
      | cons c cs ih => exact ih _ (lookup_od_dropOverride w1 i var c var h2)
  · rw [if_neg e]; exact ⟨h1, h2⟩

/-- The variable has no operators. -/
def NoOps (v : VarD) : Prop := ∀ k, v.kw k = none

theorem noOps_empty : NoOps {} := fun k => by cases k <;> rfl

theorem delAll_own {w : World} (h : WF w) {i : Nat} (hi : i < w.stores.length) (vars : List Str)
    (var : Str) (hv : NoOps ((w.findVar i var).getD {})) :
    WF (vars.foldl (fun w a => delVar w i a) w) ∧
    NoOps (((vars.foldl (fun w a => delVar w i a) w).findVar i var).getD {}) := by
  induction vars generalizing w with
  | nil => exact ⟨h, hv⟩
  | cons a vars ih =>
    refine ih (wf_delVar h i a) (by rw [(frame_delVar w i a).len]; exact hi) ?_
    rw [(delVar_own h hi a).1 var]
    by_cases e : var = a
    · rw [if_pos e]; exact noOps_empty
    · rw [if_neg e]; exact hv

/-- What `clearVar` does. -/
theorem clearVar_own {w : World} (h : WF w) {i : Nat} (hi : i < w.stores.length) (ov : List Str)
    (var : Str) : NoOps (((clearVar w ov i var).findVar i var).getD {}) ∧
      ((clearVar w ov i var).od i).lookup var = none := by
  unfold clearVar
  have h1 : WF (w.modVar i var fun v => { v with app := none, pre := none, rem := none }) :=
    wf_modVar h i var _ fun v hv => ok_sub hv (fun k => .inl (by cases k <;> rfl)) rfl
  have f1 : NoOps (((w.modVar i var fun v => { v with app := none, pre := none, rem := none }).findVar
      i var).getD {}) := by
    rw [findVar_modVar h hi, if_pos rfl]
    exact fun k => by cases k <;> rfl
  have l1 : i < (w.modVar i var fun v =>
      { v with app := none, pre := none, rem := none }).stores.length := by
    rw [(frame_modVar w i var _).len]; exact hi
  revert h1 f1 l1
  generalize (w.modVar i var fun v => { v with app := none, pre := none, rem := none }) = w1
  intro h1 f1 l1
  dsimp only
  cases e : (w1.od i).lookup var with
  | none => exact ⟨f1, e⟩
  | some l =>
    obtain ⟨h2, f2⟩ := delAll_own h1 l1 (((w1.pairs l).filter fun p => active ov p.2).map (·.1))
      var f1
    dsimp only
    refine ⟨by rw [(sd_delOd _ i var).findVar]; exact f2, ?_⟩
    rw [od_delOd, if_pos ⟨rfl, by
      rw [(frame_foldl (b := false) (i := i) (fun w a => frame_delVar w i a) _ w1).len]
      exact l1⟩, Dict.lookup_del, if_pos rfl]

theorem raw_plain {w : World} {ov : List Str} {E : Expand} {i : Nat} {var : Str}
    (ho : (w.od i).lookup var = none) (n : Nat) :
    rawVar w ov E i (n + 1) var =
      (addOps ((w.findVar i var).bind fun v => v.content.or v.default)
        (activeOps w ov (w.findVar i var) .app) (activeOps w ov (w.findVar i var) .pre),
       activeOps w ov (w.findVar i var) .rem) := by
  conv => lhs; unfold rawVar
  rw [ho]
  rfl

theorem activeOps_none {w : World} {ov : List Str} {v : VarD} (h : NoOps v) (k : Kw) :
    activeOps w ov (some v) k = [] := by
  unfold activeOps
  show ((((v.kw k).map w.ops).getD []).filter _).map _ = []
  rw [h k]
  rfl

theorem wsSplit_flatten (cur s : Str) : (wsSplit cur s).flatten = cur ++ s := by
  induction s generalizing cur with
  | nil => simp [wsSplit]
  | cons c s ih =>
    unfold wsSplit
    by_cases h : isWs c
    · rw [if_pos h]; simp [ih]
    · rw [if_neg h, ih]; simp

theorem removeWords_nil (s : Str) : removeWords [] s = s := by
  unfold removeWords
  rw [List.filter_eq_self.2 (by simp), wsSplit_flatten]
  rfl

end Bb.Data
