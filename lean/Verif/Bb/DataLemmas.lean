import Verif.Bb.DataSpec
/-!
# Lemmas about the datastore
-/

namespace Bb.Data
open Py Spec

/-! ### The primitive changes -/

theorem get_modify {α β : Type} (l : List α) (i j : Nat) (f : α → α) (g : α → β) (d : β)
    (h : ∀ x, g (f x) = g x) : (((l.modify i f)[j]?).map g).getD d = ((l[j]?).map g).getD d := by
  rw [List.getElem?_modify]
  by_cases e : i = j
  · subst e
    cases l[i]? with
    | none => simp
    | some x => simp [h]
  · simp [e]

theorem get_modify' {α β : Type} (l : List α) (i j : Nat) (f : α → α) (g : α → β) (k : β → β)
    (d : β) (h : ∀ x, g (f x) = k (g x)) : (((l.modify i f)[j]?).map g).getD d =
      if j = i ∧ i < l.length then k (((l[i]?).map g).getD d) else ((l[j]?).map g).getD d := by
  rw [List.getElem?_modify]
  by_cases e : i = j
  · subst e
    by_cases hl : i < l.length
    · rw [if_pos ⟨rfl, hl⟩, List.getElem?_eq_getElem hl]
      simp [h]
    · rw [if_neg fun x => hl x.2, List.getElem?_eq_none (by omega)]
      simp
  · rw [if_neg fun x => e x.1.symm]
    simp [e]

theorem dict_setDict (w : World) (i : Nat) (var : Str) (x : VarD) (j : Nat) :
    (w.setDict i var x).dict j =
      if j = i ∧ i < w.stores.length then Dict.set (w.dict i) var x else w.dict j :=
  get_modify' w.stores i j _ Store.dict (fun d => Dict.set d var x) [] fun _ => rfl

theorem line_setDict (w : World) (i : Nat) (var : Str) (x : VarD) (j : Nat) :
    (w.setDict i var x).line j = w.line j := get_modify w.stores i j _ Store.line [] fun _ => rfl

theorem od_setDict (w : World) (i : Nat) (var : Str) (x : VarD) (j : Nat) :
    (w.setDict i var x).od j = w.od j :=
  get_modify w.stores i j _ Store.overridedata [] fun _ => rfl

theorem len_setDict (w : World) (i : Nat) (var : Str) (x : VarD) :
    (w.setDict i var x).stores.length = w.stores.length := List.length_modify _ _ _

theorem dict_delDict (w : World) (i : Nat) (var : Str) (j : Nat) :
    (w.delDict i var).dict j =
      if j = i ∧ i < w.stores.length then Dict.del (w.dict i) var else w.dict j :=
  get_modify' w.stores i j _ Store.dict (fun d => Dict.del d var) [] fun _ => rfl

theorem line_delDict (w : World) (i : Nat) (var : Str) (j : Nat) :
    (w.delDict i var).line j = w.line j := get_modify w.stores i j _ Store.line [] fun _ => rfl

theorem od_delDict (w : World) (i : Nat) (var : Str) (j : Nat) :
    (w.delDict i var).od j = w.od j :=
  get_modify w.stores i j _ Store.overridedata [] fun _ => rfl

theorem len_delDict (w : World) (i : Nat) (var : Str) :
    (w.delDict i var).stores.length = w.stores.length := List.length_modify _ _ _

theorem dict_setOd (w : World) (i : Nat) (var : Str) (x : Nat) (j : Nat) :
    (w.setOd i var x).dict j = w.dict j := get_modify w.stores i j _ Store.dict [] fun _ => rfl

theorem line_setOd (w : World) (i : Nat) (var : Str) (x : Nat) (j : Nat) :
    (w.setOd i var x).line j = w.line j := get_modify w.stores i j _ Store.line [] fun _ => rfl

theorem od_setOd (w : World) (i : Nat) (var : Str) (x : Nat) (j : Nat) :
    (w.setOd i var x).od j =
      if j = i ∧ i < w.stores.length then Dict.set (w.od i) var x else w.od j :=
  get_modify' w.stores i j _ Store.overridedata (fun d => Dict.set d var x) [] fun _ => rfl

theorem len_setOd (w : World) (i : Nat) (var : Str) (x : Nat) :
    (w.setOd i var x).stores.length = w.stores.length := List.length_modify _ _ _

theorem dict_delOd (w : World) (i : Nat) (var : Str) (j : Nat) :
    (w.delOd i var).dict j = w.dict j := get_modify w.stores i j _ Store.dict [] fun _ => rfl

theorem line_delOd (w : World) (i : Nat) (var : Str) (j : Nat) :
    (w.delOd i var).line j = w.line j := get_modify w.stores i j _ Store.line [] fun _ => rfl

theorem od_delOd (w : World) (i : Nat) (var : Str) (j : Nat) :
    (w.delOd i var).od j =
      if j = i ∧ i < w.stores.length then Dict.del (w.od i) var else w.od j :=
  get_modify' w.stores i j _ Store.overridedata (fun d => Dict.del d var) [] fun _ => rfl

theorem len_delOd (w : World) (i : Nat) (var : Str) :
    (w.delOd i var).stores.length = w.stores.length := List.length_modify _ _ _

/-! ### What holds of all worlds -/

/-- The places that a dictionary of a variable refers to. -/
def VarD.Ok (objs : List Obj) (v : VarD) : Prop :=
  (∀ k l, v.kw k = some l → l < objs.length) ∧
  (∀ l, v.exports = some l → ∃ ns, objs[l]? = some (.names ns))

/-- All that the program makes is well formed. -/
structure WF (w : World) : Prop where
  head : ∀ i, i < w.stores.length → ∃ t, w.line i = i :: t
  below : ∀ i j, j ∈ w.line i → j < w.stores.length
  vars : ∀ i var v, (w.dict i).lookup var = some v → v.Ok w.objs
  od : ∀ i var l, (w.od i).lookup var = some l → l < w.objs.length

theorem ok_empty (objs : List Obj) : VarD.Ok objs {} :=
  ⟨fun k l e => (by cases k <;> cases e), fun l e => (by cases e)⟩

theorem none_dict {w : World} {i : Nat} (h : ¬ i < w.stores.length) : w.dict i = [] := by
  unfold World.dict
  rw [List.getElem?_eq_none (by omega)]
  rfl

theorem none_od {w : World} {i : Nat} (h : ¬ i < w.stores.length) : w.od i = [] := by
  unfold World.od
  rw [List.getElem?_eq_none (by omega)]
  rfl

theorem none_line {w : World} {i : Nat} (h : ¬ i < w.stores.length) : w.line i = [] := by
  unfold World.line
  rw [List.getElem?_eq_none (by omega)]
  rfl

theorem wf_init : WF init := by
  refine ⟨fun i hi => ?_, fun i j hj => ?_, fun i var v e => ?_, fun i var l e => ?_⟩
  · have : i = 0 := by have : i < 1 := hi; omega
    subst this
    exact ⟨[], rfl⟩
  · cases i with
    | zero =>
      have : j ∈ [0] := hj
      have : j = 0 := by simpa using this
      subst this
      exact Nat.one_pos
    | succ i => rw [none_line (show ¬ i + 1 < 1 by omega)] at hj; cases hj
  · cases i with
    | zero => cases e
    | succ i => rw [none_dict (show ¬ i + 1 < 1 by omega)] at e; cases e
  · cases i with
    | zero => cases e
    | succ i => rw [none_od (show ¬ i + 1 < 1 by omega)] at e; cases e

theorem wf_setDict {w : World} (h : WF w) (i : Nat) (var : Str) (x : VarD) (hx : x.Ok w.objs) :
    WF (w.setDict i var x) := by
  refine ⟨fun j hj => ?_, fun j m hm => ?_, fun j y v e => ?_, fun j y l e => ?_⟩
  · rw [len_setDict] at hj; rw [line_setDict]; exact h.head j hj
  · rw [line_setDict] at hm; rw [len_setDict]; exact h.below j m hm
  · rw [dict_setDict] at e
    by_cases c : j = i ∧ i < w.stores.length
    · rw [if_pos c, Dict.lookup_set] at e
      by_cases c2 : y = var
      · rw [if_pos c2] at e; cases e; exact hx
      · rw [if_neg c2] at e; exact h.vars i y v e
    · rw [if_neg c] at e; exact h.vars j y v e
  · rw [od_setDict] at e; exact h.od j y l e

theorem wf_delDict {w : World} (h : WF w) (i : Nat) (var : Str) : WF (w.delDict i var) := by
  refine ⟨fun j hj => ?_, fun j m hm => ?_, fun j y v e => ?_, fun j y l e => ?_⟩
  · rw [len_delDict] at hj; rw [line_delDict]; exact h.head j hj
  · rw [line_delDict] at hm; rw [len_delDict]; exact h.below j m hm
  · rw [dict_delDict] at e
    by_cases c : j = i ∧ i < w.stores.length
    · rw [if_pos c, Dict.lookup_del] at e
      by_cases c2 : y = var
      · rw [if_pos c2] at e; cases e
      · rw [if_neg c2] at e; exact h.vars i y v e
    · rw [if_neg c] at e; exact h.vars j y v e
  · rw [od_delDict] at e; exact h.od j y l e

theorem wf_setOd {w : World} (h : WF w) (i : Nat) (var : Str) (x : Nat) (hx : x < w.objs.length) :
    WF (w.setOd i var x) := by
  refine ⟨fun j hj => ?_, fun j m hm => ?_, fun j y v e => ?_, fun j y l e => ?_⟩
  · rw [len_setOd] at hj; rw [line_setOd]; exact h.head j hj
  · rw [line_setOd] at hm; rw [len_setOd]; exact h.below j m hm
  · rw [dict_setOd] at e; exact h.vars j y v e
  · rw [od_setOd] at e
    by_cases c : j = i ∧ i < w.stores.length
    · rw [if_pos c, Dict.lookup_set] at e
      by_cases c2 : y = var
      · rw [if_pos c2] at e; cases e; exact hx
      · rw [if_neg c2] at e; exact h.od i y l e
    · rw [if_neg c] at e; exact h.od j y l e

theorem wf_delOd {w : World} (h : WF w) (i : Nat) (var : Str) : WF (w.delOd i var) := by
  refine ⟨fun j hj => ?_, fun j m hm => ?_, fun j y v e => ?_, fun j y l e => ?_⟩
  · rw [len_delOd] at hj; rw [line_delOd]; exact h.head j hj
  · rw [line_delOd] at hm; rw [len_delOd]; exact h.below j m hm
  · rw [dict_delOd] at e; exact h.vars j y v e
  · rw [od_delOd] at e
    by_cases c : j = i ∧ i < w.stores.length
    · rw [if_pos c, Dict.lookup_del] at e
      by_cases c2 : y = var
      · rw [if_pos c2] at e; cases e
      · rw [if_neg c2] at e; exact h.od i y l e
    · rw [if_neg c] at e; exact h.od j y l e

theorem ok_append {objs : List Obj} {v : VarD} (h : v.Ok objs) (o : Obj) : v.Ok (objs ++ [o]) := by
  refine ⟨fun k l e => ?_, fun l e => ?_⟩
  · rw [List.length_append, List.length_singleton]
    have := h.1 k l e
    omega
  · obtain ⟨ns, hn⟩ := h.2 l e
    refine ⟨ns, ?_⟩
    have hl : l < objs.length := by
      rcases Nat.lt_or_ge l objs.length with hl | hl
      · exact hl
      · rw [List.getElem?_eq_none hl] at hn; cases hn
    rw [List.getElem?_append_left hl]
    exact hn

theorem wf_new {w : World} (h : WF w) (o : Obj) : WF (w.new o) := by
  refine ⟨h.head, h.below, fun j y v e => ok_append (h.vars j y v e) o, fun j y l e => ?_⟩
  have := h.od j y l e
  show l < (w.objs ++ [o]).length
  rw [List.length_append, List.length_singleton]
  omega

theorem wf_write {w : World} (h : WF w) (l : Nat) (o : Obj)
    (ho : (∀ ns, w.objs[l]? ≠ some (.names ns)) ∨ ∃ ns, o = .names ns) : WF (w.write l o) := by
  refine ⟨h.head, h.below, fun j y v e => ?_, fun j y l' e => ?_⟩
  · have hv := h.vars j y v e
    refine ⟨fun k l' e => ?_, fun l' e => ?_⟩
    · have := hv.1 k l' e
      show l' < (w.objs.set l o).length
      rw [List.length_set]
      exact this
    · obtain ⟨ns, hn⟩ := hv.2 l' e
      show ∃ ns, (w.objs.set l o)[l']? = _
      by_cases c : l = l'
      · subst c
        rcases ho with ho | ⟨ns', rfl⟩
        · exact absurd hn (ho ns)
        · refine ⟨ns', ?_⟩
          rw [List.getElem?_set_self]
          rcases Nat.lt_or_ge l w.objs.length with hl | hl
          · exact hl
          · rw [List.getElem?_eq_none hl] at hn; cases hn
      · exact ⟨ns, by rw [List.getElem?_set_ne c]; exact hn⟩
  · have := h.od j y l' e
    show l' < (w.objs.set l o).length
    rw [List.length_set]
    exact this

theorem wf_copy {w : World} (h : WF w) (i : Nat) : WF (createCopy w i) := by
  have hlen : (createCopy w i).stores.length = w.stores.length + 1 := by
    unfold createCopy; simp
  have hget : ∀ j, j < w.stores.length → (createCopy w i).stores[j]? = w.stores[j]? :=
    fun j hj => List.getElem?_append_left hj
  have hlast : (createCopy w i).stores[w.stores.length]? =
      some { dict := [], line := w.stores.length :: w.line i, overridedata := w.od i } := by
    unfold createCopy
    rw [List.getElem?_append_right (Nat.le_refl _), Nat.sub_self]
    rfl
  refine ⟨fun j hj => ?_, fun j m hm => ?_, fun j y v e => ?_, fun j y l e => ?_⟩
  · rw [hlen] at hj
    by_cases c : j < w.stores.length
    · unfold World.line
      rw [hget j c]
      exact h.head j c
    · have : j = w.stores.length := by omega
      subst this
      unfold World.line
      rw [hlast]
      exact ⟨_, rfl⟩
  · rw [hlen]
    by_cases c : j < w.stores.length
    · unfold World.line at hm
      rw [hget j c] at hm
      have := h.below j m hm
      omega
    · by_cases c2 : j = w.stores.length
      · subst c2
        unfold World.line at hm
        rw [hlast] at hm
        rcases List.mem_cons.1 hm with rfl | hm
        · omega
        · have := h.below i m hm
          omega
      · rw [none_line (by omega)] at hm; cases hm
  · by_cases c : j < w.stores.length
    · unfold World.dict at e
      rw [hget j c] at e
      exact h.vars j y v e
    · by_cases c2 : j = w.stores.length
      · subst c2
        unfold World.dict at e
        rw [hlast] at e
        cases e
      · rw [none_dict (by omega)] at e; cases e
  · by_cases c : j < w.stores.length
    · unfold World.od at e
      rw [hget j c] at e
      exact h.od j y l e
    · by_cases c2 : j = w.stores.length
      · subst c2
        unfold World.od at e
        rw [hlast] at e
        exact h.od i y l e
      · rw [none_od (by omega)] at e; cases e

/-! ### The composed changes -/

theorem findSome_mem {α β : Type} {f : α → Option β} {l : List α} {b : β}
    (h : l.findSome? f = some b) : ∃ a ∈ l, f a = some b := by
  induction l with
  | nil => cases h
  | cons a l ih =>
    rw [List.findSome?_cons] at h
    cases e : f a with
    | some x => rw [e] at h; cases h; exact ⟨a, List.mem_cons_self, e⟩
    | none =>
      rw [e] at h
      obtain ⟨a', ha, hb⟩ := ih h
      exact ⟨a', List.mem_cons_of_mem _ ha, hb⟩

theorem ok_findVar {w : World} (h : WF w) (i : Nat) (var : Str) :
    VarD.Ok w.objs ((w.findVar i var).getD {}) := by
  cases e : w.findVar i var with
  | none => exact ok_empty _
  | some v =>
    obtain ⟨j, _, hj⟩ := findSome_mem e
    exact h.vars j var v hj

theorem wf_shadow {w : World} (h : WF w) (i : Nat) (var : Str) : WF (w.shadow i var) := by
  unfold World.shadow
  by_cases c : ((w.dict i).lookup var).isSome
  · rw [if_pos c]; exact h
  · rw [if_neg c]; exact wf_setDict h i var _ (ok_findVar h i var)

theorem objs_shadow (w : World) (i : Nat) (var : Str) : (w.shadow i var).objs = w.objs := by
  unfold World.shadow
  by_cases c : ((w.dict i).lookup var).isSome
  · rw [if_pos c]
  · rw [if_neg c]; rfl

theorem objs_modVar (w : World) (i : Nat) (var : Str) (f : VarD → VarD) :
    (w.modVar i var f).objs = w.objs := objs_shadow w i var

theorem ok_lookup {w : World} (h : WF w) (i : Nat) (var : Str) :
    VarD.Ok w.objs (((w.dict i).lookup var).getD {}) := by
  cases e : (w.dict i).lookup var with
  | none => exact ok_empty _
  | some v => exact h.vars i var v e

theorem wf_modVar {w : World} (h : WF w) (i : Nat) (var : Str) (f : VarD → VarD)
    (hf : ∀ v, v.Ok w.objs → (f v).Ok w.objs) : WF (w.modVar i var f) := by
  have h1 := wf_shadow h i var
  refine wf_setDict h1 i var _ ?_
  rw [objs_shadow]
  refine hf _ ?_
  rw [← objs_shadow w i var]
  exact ok_lookup h1 i var

/-- A new list in `overridedata`. -/
def World.setPairs (w : World) (i : Nat) (var : Str) (a b : List (Str × Str)) : World :=
  ((w.new (.pairs a)).setOd i var w.objs.length).write w.objs.length (.pairs b)

theorem get_new_last (w : World) (o : Obj) : (w.new o).objs[w.objs.length]? = some o := by
  show (w.objs ++ [o])[w.objs.length]? = _
  rw [List.getElem?_append_right (Nat.le_refl _), Nat.sub_self]
  rfl

theorem len_new (w : World) (o : Obj) : (w.new o).objs.length = w.objs.length + 1 := by
  show (w.objs ++ [o]).length = _
  simp

theorem wf_setPairs {w : World} (h : WF w) (i : Nat) (var : Str) (a b : List (Str × Str)) :
    WF (w.setPairs i var a b) := by
  have h1 := wf_setOd (wf_new h (.pairs a)) i var w.objs.length (by rw [len_new]; omega)
  refine wf_write h1 _ _ (.inl fun ns e => ?_)
  have : ((w.new (.pairs a)).setOd i var w.objs.length).objs[w.objs.length]? = some (.pairs a) :=
    get_new_last w _
  rw [this] at e
  cases e

theorem wf_addOverride {w : World} (h : WF w) (i : Nat) (var : Str) (c : Str × Str) :
    WF (addOverride i var w c) := by
  unfold addOverride
  have h1 : WF (if ((w.od i).lookup c.1).isSome then w else
      (w.new (.pairs [])).setOd i c.1 w.objs.length) := by
    by_cases e : ((w.od i).lookup c.1).isSome
    · rw [if_pos e]; exact h
    · rw [if_neg e]
      exact wf_setOd (wf_new h _) i _ _ (by rw [len_new]; omega)
  revert h1
  generalize (if ((w.od i).lookup c.1).isSome then w else
      (w.new (.pairs [])).setOd i c.1 w.objs.length) = w1
  intro h1
  dsimp only
  by_cases e : (var, c.2) ∈ w1.pairs (((w1.od i).lookup c.1).getD 0)
  · rw [if_pos e]; exact h1
  · rw [if_neg e]; exact wf_setPairs h1 i c.1 _ _

theorem wf_foldl {α : Type} {f : World → α → World} (hf : ∀ w a, WF w → WF (f w a)) (l : List α)
    {w : World} (h : WF w) : WF (l.foldl f w) := by
  induction l generalizing w with
  | nil => exact h
  | cons a l ih => exact ih (hf w a h)

theorem wf_updateOverrides {w : World} (h : WF w) (i : Nat) (var : Str) :
    WF (updateOverrides w i var) := wf_foldl (fun _ c hw => wf_addOverride hw i var c) _ h

theorem wf_dropOverride {w : World} (h : WF w) (i : Nat) (var : Str) (c : Str × Str) :
    WF (dropOverride i var w c) := by
  unfold dropOverride
  cases (w.od i).lookup c.1 with
  | none => exact h
  | some l => exact wf_setPairs h i c.1 _ _

theorem wf_delVar {w : World} (h : WF w) (i : Nat) (var : Str) : WF (delVar w i var) := by
  unfold delVar
  have h1 := wf_setDict h i var {} (ok_empty _)
  have h2 : WF (if (((w.setDict i var {}).od i).lookup var).isSome then
      (w.setDict i var {}).delOd i var else w.setDict i var {}) := by
    by_cases e : (((w.setDict i var {}).od i).lookup var).isSome
    · rw [if_pos e]; exact wf_delOd h1 i var
    · rw [if_neg e]; exact h1
  dsimp only
  by_cases e : ':' ∈ var
  · rw [if_pos e]
    exact wf_foldl (fun _ c hw => wf_dropOverride hw i var c) _ h2
  · rw [if_neg e]; exact h2

theorem ok_setKw {objs : List Obj} {v : VarD} (h : v.Ok objs) (l : Nat) (hl : l < objs.length)
    (k : Kw) : (v.setKw l k).Ok objs := by
  refine ⟨fun k' l' e => ?_, fun l' e => ?_⟩
  · cases k <;> cases k' <;> first
      | (cases e; exact hl)
      | exact h.1 .app l' e
      | exact h.1 .pre l' e
      | exact h.1 .rem l' e
  · refine h.2 l' ?_
    cases k <;> exact e

theorem wf_setOp {w : World} (h : WF w) (i : Nat) (base : Str) (k : Kw) (o : Option Str)
    (value : Str) : WF (setOp w i base k o value) := by
  unfold setOp
  refine wf_updateOverrides (wf_modVar ?_ i base _ fun v hv => ?_) i base
  · refine wf_write (wf_new h _) _ _ (.inl fun ns e => ?_)
    rw [get_new_last] at e
    cases e
  · refine ok_setKw hv _ ?_ k
    show w.objs.length < ((w.objs ++ [_]).set _ _).length
    rw [List.length_set, List.length_append, List.length_singleton]
    omega

theorem ok_sub {objs : List Obj} {v v' : VarD} (h : v.Ok objs)
    (hk : ∀ k, v'.kw k = none ∨ v'.kw k = v.kw k) (he : v'.exports = v.exports) : v'.Ok objs := by
  refine ⟨fun k l e => ?_, fun l e => ?_⟩
  · rcases hk k with x | x
    · rw [x] at e; cases e
    · rw [x] at e; exact h.1 k l e
  · rw [he] at e; exact h.2 l e

theorem wf_clearVar {w : World} (h : WF w) (ov : List Str) (i : Nat) (var : Str) :
    WF (clearVar w ov i var) := by
  unfold clearVar
  have h1 : WF (w.modVar i var fun v => { v with app := none, pre := none, rem := none }) :=
    wf_modVar h i var _ fun v hv => ok_sub hv (fun k => .inl (by cases k <;> rfl)) rfl
  revert h1
  generalize (w.modVar i var fun v => { v with app := none, pre := none, rem := none }) = w1
  intro h1
  dsimp only
  cases (w1.od i).lookup var with
  | none => exact h1
  | some l => exact wf_delOd (wf_foldl (fun _ a hw => wf_delVar hw i a) _ h1) i var

theorem wf_setVar {w w' : World} (h : WF w) (ov : List Str) (i : Nat) (var value : Str) (p : Bool)
    (e : setVar w ov i var value p = some w') : WF w' := by
  unfold setVar at e
  by_cases c : oldSyntax var
  · rw [if_pos c] at e; cases e
  · rw [if_neg c] at e
    cases hp : parseKey var with
    | some r =>
      obtain ⟨base, k, o⟩ := r
      rw [hp] at e
      cases e
      exact wf_setOp h i base k o value
    | none =>
      rw [hp] at e
      dsimp only at e
      cases e
      have h1 := wf_shadow h i var
      have h2 : WF (if p = true then w.shadow i var else clearVar (w.shadow i var) ov i var) := by
        cases p with
        | true => exact h1
        | false => exact wf_clearVar h1 ov i var
      revert h2
      generalize (if p = true then w.shadow i var else clearVar (w.shadow i var) ov i var) = w2
      intro h2
      have h3 : WF (if ':' ∈ var then updateOverrides w2 i var else w2) := by
        by_cases c : ':' ∈ var
        · rw [if_pos c]; exact wf_updateOverrides h2 i var
        · rw [if_neg c]; exact h2
      exact wf_modVar h3 i var _ fun v hv => ok_sub hv (fun k => .inr (by cases k <;> rfl)) rfl

theorem ok_exports {objs : List Obj} {v : VarD} (h : v.Ok objs) (l : Nat)
    (hl : ∃ ns, objs[l]? = some (.names ns)) : VarD.Ok objs { v with exports := some l } := by
  refine ⟨fun k l' e => ?_, fun l' e => ?_⟩
  · exact h.1 k l' (by cases k <;> exact e)
  · cases e; exact hl

/-! ### What is not touched -/

/-- The objects that are there stay as they are; `b` says that sets of names may change. -/
def Keeps (b : Bool) (w w' : World) : Prop :=
  w.objs.length ≤ w'.objs.length ∧ ∀ l, l < w.objs.length →
    w'.objs[l]? = w.objs[l]? ∨
      (b = true ∧ (∃ ns, w.objs[l]? = some (.names ns)) ∧ ∃ ns, w'.objs[l]? = some (.names ns))

/-- Everything but datastore `c` and the new objects is the same. -/
structure Frame (b : Bool) (c : Nat) (w w' : World) : Prop where
  len : w'.stores.length = w.stores.length
  line : ∀ j, w'.line j = w.line j
  store : ∀ j, j ≠ c → w'.stores[j]? = w.stores[j]?
  objs : Keeps b w w'

theorem Keeps.refl (b : Bool) (w : World) : Keeps b w w := ⟨Nat.le_refl _, fun _ _ => .inl rfl⟩

theorem Keeps.trans {b : Bool} {w1 w2 w3 : World} (h1 : Keeps b w1 w2) (h2 : Keeps b w2 w3) :
    Keeps b w1 w3 := by
  refine ⟨Nat.le_trans h1.1 h2.1, fun l hl => ?_⟩
  have hl2 : l < w2.objs.length := Nat.lt_of_lt_of_le hl h1.1
  rcases h1.2 l hl with e1 | ⟨hb, n1, n2⟩
  · rcases h2.2 l hl2 with e2 | ⟨hb, n3, n4⟩
    · exact .inl (e2.trans e1)
    · rw [e1] at n3; exact .inr ⟨hb, n3, n4⟩
  · rcases h2.2 l hl2 with e2 | ⟨_, _, n4⟩
    · rw [← e2] at n2; exact .inr ⟨hb, n1, n2⟩
    · exact .inr ⟨hb, n1, n4⟩

theorem Frame.refl (b : Bool) (c : Nat) (w : World) : Frame b c w w :=
  ⟨rfl, fun _ => rfl, fun _ _ => rfl, Keeps.refl b w⟩

theorem Frame.trans {b : Bool} {c : Nat} {w1 w2 w3 : World} (h1 : Frame b c w1 w2)
    (h2 : Frame b c w2 w3) : Frame b c w1 w3 :=
  ⟨h2.len.trans h1.len, fun j => (h2.line j).trans (h1.line j),
    fun j hj => (h2.store j hj).trans (h1.store j hj), h1.objs.trans h2.objs⟩

theorem Frame.weaken {c : Nat} {w w' : World} (b : Bool) (h : Frame false c w w') :
    Frame b c w w' := by
  refine ⟨h.len, h.line, h.store, h.objs.1, fun l hl => ?_⟩
  rcases h.objs.2 l hl with e | ⟨hb, _⟩
  · exact .inl e
  · cases hb

theorem store_modify (w : World) (c : Nat) (f : Store → Store) (j : Nat) (hj : j ≠ c) :
    (w.stores.modify c f)[j]? = w.stores[j]? := by
  rw [List.getElem?_modify]
  have : ¬ c = j := fun x => hj x.symm
  simp [this]

theorem frame_setDict (w : World) (c : Nat) (var : Str) (x : VarD) :
    Frame false c w (w.setDict c var x) :=
  ⟨len_setDict w c var x, line_setDict w c var x, store_modify w c _, Keeps.refl _ _⟩

theorem frame_delDict (w : World) (c : Nat) (var : Str) : Frame false c w (w.delDict c var) :=
  ⟨len_delDict w c var, line_delDict w c var, store_modify w c _, Keeps.refl _ _⟩

theorem frame_setOd (w : World) (c : Nat) (var : Str) (x : Nat) :
    Frame false c w (w.setOd c var x) :=
  ⟨len_setOd w c var x, line_setOd w c var x, store_modify w c _, Keeps.refl _ _⟩

theorem frame_delOd (w : World) (c : Nat) (var : Str) : Frame false c w (w.delOd c var) :=
  ⟨len_delOd w c var, line_delOd w c var, store_modify w c _, Keeps.refl _ _⟩

theorem frame_new (w : World) (c : Nat) (o : Obj) : Frame false c w (w.new o) := by
  refine ⟨rfl, fun _ => rfl, fun _ _ => rfl, by rw [len_new]; omega, fun l hl => .inl ?_⟩
  exact List.getElem?_append_left hl

/-- A change in place of an object that was not there before. -/
theorem frame_write {b : Bool} {c : Nat} {w w' : World} (h : Frame b c w w') (l : Nat) (o : Obj)
    (hl : w.objs.length ≤ l) : Frame b c w (w'.write l o) := by
  refine ⟨h.len, h.line, h.store, ?_, fun l' hl' => ?_⟩
  · show _ ≤ (w'.objs.set l o).length
    rw [List.length_set]
    exact h.objs.1
  · have : (w'.write l o).objs[l']? = w'.objs[l']? :=
      List.getElem?_set_ne (by omega)
    rw [this]
    exact h.objs.2 l' hl'

/-- A change in place of a set of names. -/
theorem frame_write_names (w : World) (c l : Nat) (ns : List Str)
    (hn : ∃ ns, w.objs[l]? = some (.names ns)) : Frame true c w (w.write l (.names ns)) := by
  refine ⟨rfl, fun _ => rfl, fun _ _ => rfl, ?_, fun l' hl' => ?_⟩
  · show _ ≤ (w.objs.set l _).length
    rw [List.length_set]
    exact Nat.le_refl _
  · show (w.objs.set l _)[l']? = _ ∨ _ ∧ _ ∧ ∃ ns', (w.objs.set l _)[l']? = _
    by_cases e : l = l'
    · subst e
      exact .inr ⟨rfl, hn, ns, List.getElem?_set_self hl'⟩
    · exact .inl (List.getElem?_set_ne e)

theorem frame_shadow (w : World) (c : Nat) (var : Str) : Frame false c w (w.shadow c var) := by
  unfold World.shadow
  by_cases e : ((w.dict c).lookup var).isSome
  · rw [if_pos e]; exact Frame.refl _ _ _
  · rw [if_neg e]; exact frame_setDict w c var _

theorem frame_modVar (w : World) (c : Nat) (var : Str) (f : VarD → VarD) :
    Frame false c w (w.modVar c var f) :=
  (frame_shadow w c var).trans (frame_setDict _ c var _)

theorem frame_setPairs (w : World) (c : Nat) (var : Str) (a b : List (Str × Str)) :
    Frame false c w (w.setPairs c var a b) :=
  frame_write ((frame_new w c _).trans (frame_setOd _ c var _)) _ _ (Nat.le_refl _)

theorem frame_addOverride (w : World) (i : Nat) (var : Str) (c : Str × Str) :
    Frame false i w (addOverride i var w c) := by
  unfold addOverride
  have h1 : Frame false i w (if ((w.od i).lookup c.1).isSome then w else
      (w.new (.pairs [])).setOd i c.1 w.objs.length) := by
    by_cases e : ((w.od i).lookup c.1).isSome
    · rw [if_pos e]; exact Frame.refl _ _ _
    · rw [if_neg e]
      exact (frame_new w i _).trans (frame_setOd _ i _ _)
  revert h1
  generalize (if ((w.od i).lookup c.1).isSome then w else
      (w.new (.pairs [])).setOd i c.1 w.objs.length) = w1
  intro h1
  dsimp only
  by_cases e : (var, c.2) ∈ w1.pairs (((w1.od i).lookup c.1).getD 0)
  · rw [if_pos e]; exact h1
  · rw [if_neg e]; exact h1.trans (frame_setPairs w1 i c.1 _ _)

theorem frame_foldl {α : Type} {b : Bool} {i : Nat} {f : World → α → World}
    (hf : ∀ w a, Frame b i w (f w a)) (l : List α) (w : World) : Frame b i w (l.foldl f w) := by
  induction l generalizing w with
  | nil => exact Frame.refl _ _ _
  | cons a l ih => exact (hf w a).trans (ih (f w a))

theorem frame_updateOverrides (w : World) (i : Nat) (var : Str) :
    Frame false i w (updateOverrides w i var) :=
  frame_foldl (fun w c => frame_addOverride w i var c) _ w

theorem frame_dropOverride (w : World) (i : Nat) (var : Str) (c : Str × Str) :
    Frame false i w (dropOverride i var w c) := by
  unfold dropOverride
  cases (w.od i).lookup c.1 with
  | none => exact Frame.refl _ _ _
  | some l => exact frame_setPairs w i c.1 _ _

theorem frame_delVar (w : World) (i : Nat) (var : Str) : Frame false i w (delVar w i var) := by
  unfold delVar
  have h1 := frame_setDict w i var {}
  have h2 : Frame false i w (if (((w.setDict i var {}).od i).lookup var).isSome then
      (w.setDict i var {}).delOd i var else w.setDict i var {}) := by
    by_cases e : (((w.setDict i var {}).od i).lookup var).isSome
    · rw [if_pos e]; exact h1.trans (frame_delOd _ i var)
    · rw [if_neg e]; exact h1
  dsimp only
  by_cases e : ':' ∈ var
  · rw [if_pos e]
    exact h2.trans (frame_foldl (fun w c => frame_dropOverride w i var c) _ _)
  · rw [if_neg e]; exact h2

theorem frame_setOp (w : World) (i : Nat) (base : Str) (k : Kw) (o : Option Str) (value : Str) :
    Frame false i w (setOp w i base k o value) := by
  unfold setOp
  exact ((frame_write (frame_new w i _) _ _ (Nat.le_refl _)).trans (frame_modVar _ i base _)).trans
    (frame_updateOverrides _ i base)

theorem frame_clearVar (w : World) (ov : List Str) (i : Nat) (var : Str) :
    Frame false i w (clearVar w ov i var) := by
  unfold clearVar
  have h1 := frame_modVar w i var fun v => { v with app := none, pre := none, rem := none }
  revert h1
  generalize (w.modVar i var fun v => { v with app := none, pre := none, rem := none }) = w1
  intro h1
  dsimp only
  cases (w1.od i).lookup var with
  | none => exact h1
  | some l =>
    exact (h1.trans (frame_foldl (fun w a => frame_delVar w i a) _ _)).trans (frame_delOd _ i var)

theorem frame_setVar {w w' : World} (ov : List Str) (i : Nat) (var value : Str) (p : Bool)
    (e : setVar w ov i var value p = some w') : Frame false i w w' := by
  unfold setVar at e
  by_cases c : oldSyntax var
  · rw [if_pos c] at e; cases e
  · rw [if_neg c] at e
    cases hp : parseKey var with
    | some r =>
      obtain ⟨base, k, o⟩ := r
      rw [hp] at e
      cases e
      exact frame_setOp w i base k o value
    | none =>
      rw [hp] at e
      dsimp only at e
      cases e
      have h1 := frame_shadow w i var
      have h2 : Frame false i w
          (if p = true then w.shadow i var else clearVar (w.shadow i var) ov i var) := by
        cases p with
        | true => exact h1
        | false => exact h1.trans (frame_clearVar _ ov i var)
      revert h2
      generalize (if p = true then w.shadow i var else clearVar (w.shadow i var) ov i var) = w2
      intro h2
      have h3 : Frame false i w (if ':' ∈ var then updateOverrides w2 i var else w2) := by
        by_cases c : ':' ∈ var
        · rw [if_pos c]; exact h2.trans (frame_updateOverrides _ i var)
        · rw [if_neg c]; exact h2
      exact h3.trans (frame_modVar _ i var _)

/-- `addExport` up to the change in place: the set is there. -/
theorem addExport_eq {w : World} (h : WF w) (i : Nat) (var : Str) (hi : i < w.stores.length) :
    ∃ w1 l, WF w1 ∧ Frame false i w w1 ∧
    addExport w i var = w1.write l (.names (w1.names l ++ [var])) ∧
    (((w1.dict i).lookup "__exportlist".toList).getD {}).exports = some l := by
  unfold addExport
  generalize "__exportlist".toList = el
  dsimp only
  have h1 := wf_shadow h i el
  have f1 := frame_shadow w i el
  generalize w.shadow i el = w1 at h1 f1 ⊢
  cases e : (((w1.dict i).lookup el).getD {}).exports with
  | some l => exact ⟨w1, l, h1, f1, by dsimp only; rw [e]; rfl, e⟩
  | none =>
    dsimp only
    have h2 : WF ((w1.new (.names [])).modVar i el fun v => { v with exports := some w1.objs.length }) :=
      wf_modVar (wf_new h1 _) i el _ fun v hv => ok_exports hv _ ⟨[], get_new_last _ _⟩
    have f2 : Frame false i w
        ((w1.new (.names [])).modVar i el fun v => { v with exports := some w1.objs.length }) :=
      (f1.trans (frame_new _ i _)).trans (frame_modVar _ i _ _)
    have hx : (((((w1.new (.names [])).modVar i el fun v =>
        { v with exports := some w1.objs.length }).dict i).lookup el).getD {}).exports =
        some w1.objs.length := by
      unfold World.modVar
      rw [dict_setDict, if_pos ⟨rfl, by
        rw [(frame_shadow (w1.new (.names [])) i el).len]
        show i < w1.stores.length
        rw [f1.len]; exact hi⟩, Dict.lookup_set, if_pos rfl]
      rfl
    exact ⟨_, w1.objs.length, h2, f2, by rw [hx]; rfl, hx⟩

theorem wf_addExport {w : World} (h : WF w) (i : Nat) (var : Str) (hi : i < w.stores.length) :
    WF (addExport w i var) := by
  obtain ⟨w1, l, h1, _, e, _⟩ := addExport_eq h i var hi
  rw [e]
  exact wf_write h1 l _ (.inr ⟨_, rfl⟩)

theorem frame_addExport {w : World} (h : WF w) (i : Nat) (var : Str) (hi : i < w.stores.length) :
    Frame true i w (addExport w i var) := by
  obtain ⟨w1, l, h1, f1, e, hl⟩ := addExport_eq h i var hi
  rw [e]
  exact (f1.weaken true).trans (frame_write_names w1 i l _ ((ok_lookup h1 i _).2 l hl))

theorem wf_setVarFlag {w : World} (h : WF w) (i : Nat) (var flag value : Str)
    (hi : i < w.stores.length) :
    WF (setVarFlag w i var flag value) := by
  unfold setVarFlag
  have h1 : WF (w.modVar i var fun v => { v with flags := Dict.set v.flags flag value }) :=
    wf_modVar h i var _ fun v hv => ok_sub hv (fun k => .inr (by cases k <;> rfl)) rfl
  dsimp only
  by_cases c : flag = "export".toList ∨ flag = "unexport".toList
  · rw [if_pos c]; exact wf_addExport h1 i var (by rw [(frame_modVar w i var _).len]; exact hi)
  · rw [if_neg c]; exact h1

theorem wf_setDefault {w : World} (h : WF w) (i : Nat) (var value : Str) :
    WF (setDefault w i var value) := by
  unfold setDefault
  have h1 : WF (w.modVar i var fun v => { v with default := some value }) :=
    wf_modVar h i var _ fun v hv => ok_sub hv (fun k => .inr (by cases k <;> rfl)) rfl
  dsimp only
  by_cases c : ':' ∈ var
  · rw [if_pos c]; exact wf_updateOverrides h1 i var
  · rw [if_neg c]; exact h1

theorem wf_delVarFlag {w : World} (h : WF w) (i : Nat) (var flag : Str) :
    WF (delVarFlag w i var flag) := by
  unfold delVarFlag
  cases w.findVar i var with
  | none => exact h
  | some v =>
    dsimp only
    by_cases c : v = {}
    · rw [if_pos c]; exact h
    · rw [if_neg c]
      exact wf_modVar h i var _ fun v hv => ok_sub hv (fun k => .inr (by cases k <;> rfl)) rfl

theorem wf_delVarFlags {w : World} (h : WF w) (i : Nat) (var : Str) :
    WF (delVarFlags w i var) := by
  unfold delVarFlags
  have h1 := wf_shadow h i var
  dsimp only
  generalize w.shadow i var = w1 at h1 ⊢
  by_cases c : ((((w1.dict i).lookup var).getD {}).content.isSome ∨
      (((w1.dict i).lookup var).getD {}).exports.isSome)
  · rw [if_pos c]
    exact wf_setDict h1 i var _
      (ok_sub (ok_lookup h1 i var) (fun k => .inl (by cases k <;> rfl)) rfl)
  · rw [if_neg c]; exact wf_delDict h1 i var

theorem wf_act {w : World} (h : WF w) (op : Op)
    (hi : ∀ i, op.target = some i → i < w.stores.length) : WF (op.act w) := by
  cases op with
  | copy i => exact wf_copy h i
  | set ov i var value p =>
    show WF ((setVar w ov i var value p).getD w)
    cases e : setVar w ov i var value p with
    | none => exact h
    | some w' => exact wf_setVar h ov i var value p e
  | del i var => exact wf_delVar h i var
  | setFlag i var flag value => exact wf_setVarFlag h i var flag value (hi i rfl)
  | setWeakest i var value => exact wf_setDefault h i var value
  | delFlag i var flag => exact wf_delVarFlag h i var flag
  | delFlags i var => exact wf_delVarFlags h i var

/-- The datastore that is written exists. -/
def Spec.Op.Valid (w : World) (op : Op) : Prop := ∀ i, op.target = some i → i < w.stores.length

theorem run_cases (w : World) (op : Op) :
    (op.Valid w ∧ op.run w = op.act w) ∨ op.run w = w := by
  unfold Op.run
  by_cases c : (op.target.all fun i => decide (i < w.stores.length)) = true
  · rw [if_pos c]
    refine .inl ⟨fun i hi => ?_, rfl⟩
    rw [hi] at c
    simpa using c
  · rw [if_neg c]; exact .inr rfl

theorem wf_run {w : World} (h : WF w) (op : Op) : WF (op.run w) := by
  rcases run_cases w op with ⟨hv, e⟩ | e <;> rw [e]
  · exact wf_act h op hv
  · exact h

theorem wf_runAll {w : World} (h : WF w) (ops : List Op) : WF (runAll w ops) :=
  wf_foldl (fun _ op hw => wf_run hw op) ops h


theorem frame_act {w : World} (h : WF w) (op : Op) (c : Nat) (hc : op.target = some c)
    (hi : c < w.stores.length) : Frame true c w (op.act w) := by
  cases op with
  | copy i => cases hc
  | set ov i var value p =>
    cases hc
    show Frame true c w ((setVar w ov c var value p).getD w)
    cases e : setVar w ov c var value p with
    | none => exact Frame.refl _ _ _
    | some w' => exact (frame_setVar ov c var value p e).weaken true
  | del i var => cases hc; exact (frame_delVar w c var).weaken true
  | setFlag i var flag value =>
    cases hc
    show Frame true c w (setVarFlag w c var flag value)
    unfold setVarFlag
    have f1 := frame_modVar w c var fun v => { v with flags := Dict.set v.flags flag value }
    have h1 : WF (w.modVar c var fun v => { v with flags := Dict.set v.flags flag value }) :=
      wf_modVar h c var _ fun v hv => ok_sub hv (fun k => .inr (by cases k <;> rfl)) rfl
    dsimp only
    by_cases e : flag = "export".toList ∨ flag = "unexport".toList
    · rw [if_pos e]
      exact (f1.weaken true).trans (frame_addExport h1 c var (by rw [f1.len]; exact hi))
    · rw [if_neg e]; exact f1.weaken true
  | setWeakest i var value =>
    cases hc
    show Frame true c w (setDefault w c var value)
    unfold setDefault
    have f1 := frame_modVar w c var fun v => { v with default := some value }
    dsimp only
    by_cases e : ':' ∈ var
    · rw [if_pos e]; exact (f1.trans (frame_updateOverrides _ c var)).weaken true
    · rw [if_neg e]; exact f1.weaken true
  | delFlag i var flag =>
    cases hc
    show Frame true c w (delVarFlag w c var flag)
    unfold delVarFlag
    cases w.findVar c var with
    | none => exact Frame.refl _ _ _
    | some v =>
      dsimp only
      by_cases e : v = {}
      · rw [if_pos e]; exact Frame.refl _ _ _
      · rw [if_neg e]; exact (frame_modVar w c var _).weaken true
  | delFlags i var =>
    cases hc
    show Frame true c w (delVarFlags w c var)
    unfold delVarFlags
    have f1 := frame_shadow w c var
    dsimp only
    generalize w.shadow c var = w1 at f1 ⊢
    by_cases e : ((((w1.dict c).lookup var).getD {}).content.isSome ∨
        (((w1.dict c).lookup var).getD {}).exports.isSome)
    · rw [if_pos e]; exact (f1.trans (frame_setDict w1 c var _)).weaken true
    · rw [if_neg e]; exact (f1.trans (frame_delDict w1 c var)).weaken true

/-- Only `export` and `unexport` change an object that is there. -/
theorem frame_act_false {w : World} (op : Op) (c : Nat) (hc : op.target = some c)
    (hx : ¬ op.exports) : Frame false c w (op.act w) := by
  cases op with
  | copy i => cases hc
  | set ov i var value p =>
    cases hc
    show Frame false c w ((setVar w ov c var value p).getD w)
    cases e : setVar w ov c var value p with
    | none => exact Frame.refl _ _ _
    | some w' => exact frame_setVar ov c var value p e
  | del i var => cases hc; exact frame_delVar w c var
  | setFlag i var flag value =>
    cases hc
    show Frame false c w (setVarFlag w c var flag value)
    unfold setVarFlag
    dsimp only
    rw [if_neg (show ¬ (flag = "export".toList ∨ flag = "unexport".toList) from hx)]
    exact frame_modVar w c var _
  | setWeakest i var value =>
    cases hc
    show Frame false c w (setDefault w c var value)
    unfold setDefault
    have f1 := frame_modVar w c var fun v => { v with default := some value }
    dsimp only
    by_cases e : ':' ∈ var
    · rw [if_pos e]; exact f1.trans (frame_updateOverrides _ c var)
    · rw [if_neg e]; exact f1
  | delFlag i var flag =>
    cases hc
    show Frame false c w (delVarFlag w c var flag)
    unfold delVarFlag
    cases w.findVar c var with
    | none => exact Frame.refl _ _ _
    | some v =>
      dsimp only
      by_cases e : v = {}
      · rw [if_pos e]; exact Frame.refl _ _ _
      · rw [if_neg e]; exact frame_modVar w c var _
  | delFlags i var =>
    cases hc
    show Frame false c w (delVarFlags w c var)
    unfold delVarFlags
    have f1 := frame_shadow w c var
    dsimp only
    generalize w.shadow c var = w1 at f1 ⊢
    by_cases e : ((((w1.dict c).lookup var).getD {}).content.isSome ∨
        (((w1.dict c).lookup var).getD {}).exports.isSome)
    · rw [if_pos e]; exact f1.trans (frame_setDict w1 c var _)
    · rw [if_neg e]; exact f1.trans (frame_delDict w1 c var)

/-! ### Reading depends on little -/

/-- All that is read through datastore `p`. -/
structure Same (b : Bool) (p : Nat) (w w' : World) : Prop where
  line : w'.line p = w.line p
  dict : ∀ j ∈ w.line p, w'.dict j = w.dict j
  od : w'.od p = w.od p
  objs : Keeps b w w'

theorem ops_keeps {b : Bool} {w w' : World} (h : Keeps b w w') {l : Nat} (hl : l < w.objs.length) :
    w'.ops l = w.ops l := by
  unfold World.ops
  rcases h.2 l hl with e | ⟨_, ⟨n, e1⟩, ⟨m, e2⟩⟩
  · rw [e]
  · rw [e1, e2]

theorem pairs_keeps {b : Bool} {w w' : World} (h : Keeps b w w') {l : Nat}
    (hl : l < w.objs.length) : w'.pairs l = w.pairs l := by
  unfold World.pairs
  rcases h.2 l hl with e | ⟨_, ⟨n, e1⟩, ⟨m, e2⟩⟩
  · rw [e]
  · rw [e1, e2]

theorem findSome_congr {α β : Type} {f g : α → Option β} {l : List α} (h : ∀ a ∈ l, f a = g a) :
    l.findSome? f = l.findSome? g := by
  induction l with
  | nil => rfl
  | cons a l ih =>
    rw [List.findSome?_cons, List.findSome?_cons, h a List.mem_cons_self,
      ih fun x hx => h x (List.mem_cons_of_mem _ hx)]

theorem Same.findVar {b : Bool} {p : Nat} {w w' : World} (s : Same b p w w') (var : Str) :
    w'.findVar p var = w.findVar p var := by
  unfold World.findVar
  rw [s.line]
  exact findSome_congr fun j hj => by rw [s.dict j hj]

theorem Same.activeOps {b : Bool} {p : Nat} {w w' : World} (s : Same b p w w') (h : WF w)
    (ov : List Str) (var : Str) (k : Kw) :
    Data.activeOps w' ov (w.findVar p var) k = Data.activeOps w ov (w.findVar p var) k := by
  unfold Data.activeOps
  cases e : w.findVar p var with
  | none => rfl
  | some v =>
    have hv := ok_findVar h p var
    rw [e] at hv
    show (((((some v).bind (·.kw k)).map w'.ops).getD []).filter _).map _ = _
    cases e2 : v.kw k with
    | none => show ((((v.kw k).map w'.ops).getD []).filter _).map _ = ((((v.kw k).map w.ops).getD []).filter _).map _; rw [e2]; rfl
    | some l =>
      show ((((v.kw k).map w'.ops).getD []).filter _).map _ = ((((v.kw k).map w.ops).getD []).filter _).map _
      rw [e2]
      show ((w'.ops l).filter _).map _ = ((w.ops l).filter _).map _
      rw [ops_keeps s.objs (hv.1 k l e2)]

theorem Same.override {b : Bool} {p : Nat} {w w' : World} (s : Same b p w w') (h : WF w)
    (ov : List Str) (var : Str) :
    (((w'.od p).lookup var).bind fun l => selectOverride ov (w'.pairs l)) =
      (((w.od p).lookup var).bind fun l => selectOverride ov (w.pairs l)) := by
  rw [s.od]
  cases e : (w.od p).lookup var with
  | none => rfl
  | some l =>
    show selectOverride ov (w'.pairs l) = selectOverride ov (w.pairs l)
    rw [pairs_keeps s.objs (h.od p var l e)]

theorem Same.rawVar {b : Bool} {p : Nat} {w w' : World} (s : Same b p w w') (h : WF w)
    (ov : List Str) (E : Expand) (n : Nat) (var : Str) :
    Data.rawVar w' ov E p n var = Data.rawVar w ov E p n var := by
  induction n generalizing var with
  | zero => rfl
  | succ n ih =>
    unfold Data.rawVar
    rw [s.findVar, s.override h]
    dsimp only
    rw [s.activeOps h, s.activeOps h, s.activeOps h]
    cases (((w.od p).lookup var).bind fun l => selectOverride ov (w.pairs l)) with
    | none => rfl
    | some m => dsimp only; rw [ih m]

theorem Same.getVar {b : Bool} {p : Nat} {w w' : World} (s : Same b p w w') (h : WF w)
    (ov : List Str) (E : Expand) (var : Str) :
    Data.getVar w' ov E p var = Data.getVar w ov E p var := by
  unfold Data.getVar Data.rawFuel
  rw [s.od, s.rawVar h]

theorem Same.getRaw {b : Bool} {p : Nat} {w w' : World} (s : Same b p w w') (h : WF w)
    (ov : List Str) (E : Expand) (var : Str) :
    Data.getRaw w' ov E p var = Data.getRaw w ov E p var := by
  unfold Data.getRaw Data.rawFuel
  rw [s.od, s.rawVar h]

theorem Same.getVarFlag {b : Bool} {p : Nat} {w w' : World} (s : Same b p w w')
    (var flag : Str) : Data.getVarFlag w' p var flag = Data.getVarFlag w p var flag := by
  unfold Data.getVarFlag
  rw [s.findVar]

theorem Same.exportList {p : Nat} {w w' : World} (s : Same false p w w') (h : WF w) :
    Data.exportList w' p = Data.exportList w p := by
  unfold Data.exportList
  rw [s.findVar]
  generalize "__exportlist".toList = el
  have hv := ok_findVar h p el
  cases e : w.findVar p el with
  | none => rfl
  | some v =>
    rw [e] at hv
    show v.exports.map w'.names = v.exports.map w.names
    cases e2 : v.exports with
    | none => rfl
    | some l =>
      show some (w'.names l) = some (w.names l)
      obtain ⟨ns, hn⟩ := hv.2 l e2
      have hl : l < w.objs.length := by
        rcases Nat.lt_or_ge l w.objs.length with hl | hl
        · exact hl
        · rw [List.getElem?_eq_none hl] at hn; cases hn
      rcases s.objs.2 l hl with x | ⟨x, _⟩
      · unfold World.names; rw [x]
      · cases x

theorem Frame.same {b : Bool} {c : Nat} {w w' : World} (f : Frame b c w w') (h : WF w) (p : Nat)
    (hp : p < w.stores.length) (hc : c ∉ w.line p) : Same b p w w' := by
  have hd : ∀ j, j ≠ c → w'.dict j = w.dict j := by
    intro j hj
    unfold World.dict
    rw [f.store j hj]
  have hpc : p ≠ c := by
    rintro rfl
    obtain ⟨t, ht⟩ := h.head p hp
    exact hc (ht ▸ List.mem_cons_self)
  refine ⟨f.line p, fun j hj => hd j fun x => hc (x ▸ hj), ?_, f.objs⟩
  unfold World.od
  rw [f.store p hpc]

theorem copy_same (w : World) (i p : Nat) (h : WF w) (hp : p < w.stores.length) (b : Bool) :
    Same b p w (createCopy w i) := by
  have hget : ∀ j, j < w.stores.length → (createCopy w i).stores[j]? = w.stores[j]? :=
    fun j hj => List.getElem?_append_left hj
  refine ⟨?_, fun j hj => ?_, ?_, Keeps.refl _ _⟩
  · unfold World.line; rw [hget p hp]
  · unfold World.dict; rw [hget j (h.below p j hj)]
  · unfold World.od; rw [hget p hp]

theorem run_same {w : World} (h : WF w) (op : Op) (p : Nat) (hp : p < w.stores.length)
    (hc : ∀ c, op.target = some c → c ∉ w.line p) :
    Same true p w (op.run w) ∧ (¬ op.exports → Same false p w (op.run w)) ∧
      p < (op.run w).stores.length := by
  rcases run_cases w op with ⟨hv, e⟩ | e <;> rw [e]
  · cases ht : op.target with
    | none =>
      cases op with
      | copy i =>
        refine ⟨copy_same w i p h hp _, fun _ => copy_same w i p h hp _, ?_⟩
        show p < (w.stores ++ [_]).length
        rw [List.length_append]
        omega
      | _ => cases ht
    | some c =>
      have f1 := frame_act h op c ht (hv c ht)
      refine ⟨f1.same h p hp (hc c ht), fun hx => ?_, by rw [f1.len]; exact hp⟩
      exact (frame_act_false op c ht hx).same h p hp (hc c ht)
  · exact ⟨⟨rfl, fun _ _ => rfl, rfl, Keeps.refl _ _⟩, fun _ => ⟨rfl, fun _ _ => rfl, rfl, Keeps.refl _ _⟩,
      hp⟩

end Bb.Data
