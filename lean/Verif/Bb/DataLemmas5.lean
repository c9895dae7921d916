import Verif.Bb.DataLemmas4
/-!
# Lemmas: the bounds of the loops are enough
-/

namespace Bb.Data
open Py Spec

/-! ### Overrides are of shorter names -/

/-- Each variable in a list of overrides has a longer name. -/
def Ordered (w : World) : Prop := ∀ i var p, p ∈ w.overrides i var → var.length < p.1.length

theorem candidates_lt (var : Str) : ∀ c ∈ candidates var, c.1.length < var.length := by
  intro c hc
  have hv : var ≠ [] := by
    rintro rfl
    cases hc
  unfold candidates at hc
  by_cases h : ':' ∈ var
  · rw [if_pos h] at hc
    exact candGo_lt var _ _ _ (beforeColon_lt hv) c hc
  · rw [if_neg h] at hc
    refine candGo_lt var _ _ _ ?_ c hc
    rw [List.length_dropLast]
    have : 0 < var.length := List.length_pos_iff.2 hv
    omega

theorem overrides_keep {b : Bool} {w w' : World} (h : WF w) (k : Keeps b w w') {i j : Nat}
    {var : Str} (e : (w'.od i).lookup var = (w.od j).lookup var) :
    w'.overrides i var = w.overrides j var := by
  unfold World.overrides
  rw [e]
  cases hl : (w.od j).lookup var with
  | none => rfl
  | some l =>
    show w'.pairs l = w.pairs l
    exact pairs_keeps k (h.od j var l hl)

/-- A step that keeps the order. -/
def OrdStep (w w' : World) : Prop := WF w → Ordered w → WF w' ∧ Ordered w'

theorem OrdStep.refl (w : World) : OrdStep w w := fun h o => ⟨h, o⟩

theorem OrdStep.trans {a b c : World} (h1 : OrdStep a b) (h2 : OrdStep b c) : OrdStep a c :=
  fun h o => h2 (h1 h o).1 (h1 h o).2

theorem ordStep_od {b : Bool} {w w' : World} (hw : WF w → WF w') (k : Keeps b w w')
    (e : ∀ i, w'.od i = w.od i) : OrdStep w w' := by
  intro h o
  refine ⟨hw h, fun i var p hp => ?_⟩
  rw [overrides_keep h k (congrArg (fun d => List.lookup var d) (e i))] at hp
  exact o i var p hp

theorem ord_shadow (w : World) (i : Nat) (var : Str) : OrdStep w (w.shadow i var) :=
  ordStep_od (fun h => wf_shadow h i var) (frame_shadow w i var).objs (fun j => od_shadow w i var j)

theorem ord_modVar (w : World) (i : Nat) (var : Str) (f : VarD → VarD)
    (hf : ∀ v, v.Ok w.objs → (f v).Ok w.objs) : OrdStep w (w.modVar i var f) :=
  ordStep_od (fun h => wf_modVar h i var f hf) (frame_modVar w i var f).objs
    (fun j => od_modVar w i var f j)

theorem ord_delOd (w : World) (i : Nat) (var : Str) : OrdStep w (w.delOd i var) := by
  intro h o
  refine ⟨wf_delOd h i var, fun j y p hp => ?_⟩
  by_cases c : j = i ∧ i < w.stores.length
  · obtain ⟨rfl, hj⟩ := c
    by_cases e : y = var
    · unfold World.overrides at hp
      rw [od_delOd, if_pos ⟨rfl, hj⟩, Dict.lookup_del, if_pos e] at hp
      cases hp
    · rw [overrides_keep h (frame_delOd w j var).objs (by
        rw [od_delOd, if_pos ⟨rfl, hj⟩, Dict.lookup_del, if_neg e])] at hp
      exact o j y p hp
  · rw [overrides_keep h (frame_delOd w i var).objs (by rw [od_delOd, if_neg c])] at hp
    exact o j y p hp

theorem ord_setPairs (w : World) (i : Nat) (var : Str) (a b : List (Str × Str))
    (hb : i < w.stores.length → Ordered w → ∀ p ∈ b, var.length < p.1.length) :
    OrdStep w (w.setPairs i var a b) := by
  intro h o
  refine ⟨wf_setPairs h i var a b, fun j y p hp => ?_⟩
  by_cases c : j = i ∧ i < w.stores.length ∧ y = var
  · obtain ⟨rfl, hj, rfl⟩ := c
    rw [overrides_setPairs hj] at hp
    exact hb hj o p hp
  · have e : ((w.setPairs i var a b).od j).lookup y = (w.od j).lookup y := by
      show (((w.new (.pairs a)).setOd i var w.objs.length).od j).lookup y = _
      rw [od_setOd]
      by_cases c2 : j = i ∧ i < (w.new (.pairs a)).stores.length
      · rw [if_pos c2, Dict.lookup_set, if_neg fun e => c ⟨c2.1, c2.2, e⟩, c2.1]
        rfl
      · rw [if_neg c2]; rfl
    rw [overrides_keep h (frame_setPairs w i var a b).objs e] at hp
    exact o j y p hp

theorem ord_addOverride (w : World) (i : Nat) (var : Str) (c : Str × Str)
    (hc : c.1.length < var.length) : OrdStep w (addOverride i var w c) := by
  unfold addOverride
  have h1 : OrdStep w (if ((w.od i).lookup c.1).isSome then w else
      (w.new (.pairs [])).setOd i c.1 w.objs.length) := by
    by_cases e : ((w.od i).lookup c.1).isSome
    · rw [if_pos e]; exact OrdStep.refl w
    · rw [if_neg e]
      have := ord_setPairs w i c.1 [] [] (fun _ _ p hp => by cases hp)
      unfold World.setPairs at this
      have e2 : (((w.new (.pairs [])).setOd i c.1 w.objs.length).write w.objs.length (.pairs [])) =
          (w.new (.pairs [])).setOd i c.1 w.objs.length := by
        unfold World.write World.setOd World.new
        dsimp only
        rw [List.set_append_right _ _ (Nat.le_refl _), Nat.sub_self]
        rfl
      rwa [e2] at this
  have h2 : i < (if ((w.od i).lookup c.1).isSome then w else
      (w.new (.pairs [])).setOd i c.1 w.objs.length).stores.length →
      ((if ((w.od i).lookup c.1).isSome then w else
      (w.new (.pairs [])).setOd i c.1 w.objs.length).od i).lookup c.1 ≠ none := by
    by_cases e : ((w.od i).lookup c.1).isSome
    · rw [if_pos e]
      intro _ hn
      rw [hn] at e
      cases e
    · rw [if_neg e, len_setOd]
      intro hi
      rw [od_setOd, if_pos ⟨rfl, hi⟩, Dict.lookup_set, if_pos rfl]
      exact Option.some_ne_none _
  revert h1 h2
  generalize (if ((w.od i).lookup c.1).isSome then w else
      (w.new (.pairs [])).setOd i c.1 w.objs.length) = w1
  intro h1 h2
  dsimp only
  by_cases e : (var, c.2) ∈ w1.pairs (((w1.od i).lookup c.1).getD 0)
  · rw [if_pos e]; exact h1
  · rw [if_neg e]
    refine h1.trans (ord_setPairs w1 i c.1 _ _ fun hi o p hp => ?_)
    rcases List.mem_append.1 hp with hp | hp
    · refine o i c.1 p ?_
      unfold World.overrides
      cases hl : (w1.od i).lookup c.1 with
      | none => exact absurd hl (h2 hi)
      | some l =>
        rw [hl] at hp
        exact hp
    · rw [List.mem_singleton.1 hp]; exact hc

theorem ord_foldl {α : Type} {f : World → α → World} (l : List α) (P : α → Prop)
    (hf : ∀ w a, P a → OrdStep w (f w a)) (hl : ∀ a ∈ l, P a) (w : World) :
    OrdStep w (l.foldl f w) := by
  induction l generalizing w with
  | nil => exact OrdStep.refl w
  | cons a l ih =>
    exact (hf w a (hl a List.mem_cons_self)).trans
      (ih (fun b hb => hl b (List.mem_cons_of_mem _ hb)) (f w a))

theorem ord_updateOverrides (w : World) (i : Nat) (var : Str) :
    OrdStep w (updateOverrides w i var) :=
  ord_foldl _ (fun c => c.1.length < var.length) (fun w c hc => ord_addOverride w i var c hc)
    (candidates_lt var) w

theorem ord_dropOverride (w : World) (i : Nat) (var : Str) (c : Str × Str) :
    OrdStep w (dropOverride i var w c) := by
  unfold dropOverride
  cases e : (w.od i).lookup c.1 with
  | none => exact OrdStep.refl w
  | some l =>
    refine ord_setPairs w i c.1 _ _ fun _ o p hp => o i c.1 p ?_
    unfold World.overrides
    rw [e]
    exact List.mem_of_mem_erase hp

theorem ord_setDict (w : World) (i : Nat) (var : Str) (x : VarD) (hx : WF w → x.Ok w.objs) :
    OrdStep w (w.setDict i var x) :=
  ordStep_od (fun h => wf_setDict h i var x (hx h)) (frame_setDict w i var x).objs
    (fun j => od_setDict w i var x j)

theorem ord_delDict (w : World) (i : Nat) (var : Str) : OrdStep w (w.delDict i var) :=
  ordStep_od (fun h => wf_delDict h i var) (frame_delDict w i var).objs
    (fun j => od_delDict w i var j)

theorem ord_delVar (w : World) (i : Nat) (var : Str) : OrdStep w (delVar w i var) := by
  unfold delVar
  have h1 := ord_setDict w i var {} (fun _ => ok_empty _)
  have h2 : OrdStep w (if (((w.setDict i var {}).od i).lookup var).isSome then
      (w.setDict i var {}).delOd i var else w.setDict i var {}) := by
    by_cases e : (((w.setDict i var {}).od i).lookup var).isSome
    · rw [if_pos e]; exact h1.trans (ord_delOd _ i var)
    · rw [if_neg e]; exact h1
  dsimp only
  by_cases e : ':' ∈ var
  · rw [if_pos e]
    exact h2.trans (ord_foldl _ (fun _ => True) (fun w c _ => ord_dropOverride w i var c)
      (fun _ _ => trivial) _)
  · rw [if_neg e]; exact h2

theorem ord_new (w : World) (o : Obj) : OrdStep w (w.new o) :=
  ordStep_od (fun h => wf_new h o) (frame_new w 0 o).objs (fun _ => rfl)

theorem ord_setOp (w : World) (i : Nat) (base : Str) (k : Kw) (o : Option Str) (value : Str) :
    OrdStep w (setOp w i base k o value) := by
  unfold setOp
  dsimp only
  refine OrdStep.trans ?_ (ord_updateOverrides _ i base)
  have h1 : OrdStep w ((w.new (.ops ((((w.findVar i base).bind (·.kw k)).map w.ops).getD []))).write
      w.objs.length (.ops ((((w.findVar i base).bind (·.kw k)).map w.ops).getD [] ++
        [(value, o)]))) :=
    ordStep_od (b := false) (fun h => wf_write (wf_new h _) _ _ (.inl fun ns hn => by
      rw [get_new_last] at hn; cases hn))
      (frame_write (frame_new w i _) _ _ (Nat.le_refl _)).objs (fun _ => rfl)
  refine h1.trans (ord_modVar _ i base _ fun v hv => ok_setKw hv _ ?_ k)
  unfold World.write
  rw [List.length_set, len_new]
  omega

theorem ord_clearVar (w : World) (ov : List Str) (i : Nat) (var : Str) :
    OrdStep w (clearVar w ov i var) := by
  unfold clearVar
  have h1 : OrdStep w (w.modVar i var fun v => { v with app := none, pre := none, rem := none }) :=
    ord_modVar w i var _ fun v hv => ok_sub hv (fun k => .inl (by cases k <;> rfl)) rfl
  revert h1
  generalize (w.modVar i var fun v => { v with app := none, pre := none, rem := none }) = w1
  intro h1
  dsimp only
  cases (w1.od i).lookup var with
  | none => exact h1
  | some l =>
    exact h1.trans ((ord_foldl _ (fun _ => True) (fun w a _ => ord_delVar w i a)
      (fun _ _ => trivial) w1).trans (ord_delOd _ i var))

theorem ord_setVar {w w' : World} (ov : List Str) (i : Nat) (var value : Str) (p : Bool)
    (e : setVar w ov i var value p = some w') : OrdStep w w' := by
  unfold setVar at e
  by_cases h1 : oldSyntax var
  · rw [if_pos h1] at e; cases e
  · rw [if_neg h1] at e
    cases hk : parseKey var with
    | some r =>
      rw [hk] at e
      rw [← Option.some.inj e]
      exact ord_setOp w i _ _ _ value
    | none =>
      rw [hk] at e
      dsimp only at e
      have em := Option.some.inj e
      have h2 := ord_shadow w i var
      have h3 : OrdStep w (if p then w.shadow i var else clearVar (w.shadow i var) ov i var) := by
        cases p with
        | true => rw [if_pos rfl]; exact h2
        | false => rw [if_neg Bool.false_ne_true]; exact h2.trans (ord_clearVar _ ov i var)
      revert em h3
      generalize (if p then w.shadow i var else clearVar (w.shadow i var) ov i var) = w2
      intro em h3
      have h4 : OrdStep w (if ':' ∈ var then updateOverrides w2 i var else w2) := by
        by_cases hc : ':' ∈ var
        · rw [if_pos hc]; exact h3.trans (ord_updateOverrides w2 i var)
        · rw [if_neg hc]; exact h3
      rw [← em]
      exact h4.trans (ord_modVar _ i var _ fun v hv => ok_sub hv
        (fun k => .inr (by cases k <;> rfl)) rfl)

theorem od_addExport (w : World) (i : Nat) (var : Str) (j : Nat) :
    (addExport w i var).od j = w.od j := by
  unfold addExport
  generalize "__exportlist".toList = el
  dsimp only
  have h1 := od_shadow w i el j
  generalize w.shadow i el = w1 at h1 ⊢
  have h2 : ∀ (w2 : World) l o, (w2.write l o).od j = w2.od j := fun _ _ _ => rfl
  rw [h2]
  cases (((w1.dict i).lookup el).getD {}).exports with
  | some l => exact h1
  | none =>
    dsimp only
    rw [od_modVar]
    exact h1

theorem ord_act (w : World) (op : Op) (hv : op.Valid w) : OrdStep w (op.act w) := by
  cases op with
  | copy i =>
    intro h o
    refine ⟨wf_copy h i, fun j y p hp => ?_⟩
    have hk : Keeps false w (createCopy w i) := Keeps.refl _ _
    have hod : (createCopy w i).od j = if j = w.stores.length then w.od i else w.od j := by
      unfold World.od
      show ((((w.stores ++ [_])[j]?).map (·.overridedata)).getD []) = _
      by_cases e : j = w.stores.length
      · rw [if_pos e, e, List.getElem?_append_right (Nat.le_refl _), Nat.sub_self]
        rfl
      · rw [if_neg e]
        by_cases e2 : j < w.stores.length
        · rw [List.getElem?_append_left e2]
        · rw [List.getElem?_eq_none (by rw [List.length_append, List.length_singleton]; omega),
            List.getElem?_eq_none (by omega)]
    by_cases e : j = w.stores.length
    · rw [if_pos e] at hod
      rw [show (Op.copy i).act w = createCopy w i from rfl,
        overrides_keep (j := i) h hk (by rw [hod])] at hp
      exact o i y p hp
    · rw [if_neg e] at hod
      rw [show (Op.copy i).act w = createCopy w i from rfl,
        overrides_keep (j := j) h hk (by rw [hod])] at hp
      exact o j y p hp
  | set ov i var value p =>
    show OrdStep w ((setVar w ov i var value p).getD w)
    cases e : setVar w ov i var value p with
    | none => exact OrdStep.refl w
    | some w' => exact ord_setVar ov i var value p e
  | del i var => exact ord_delVar w i var
  | setFlag i var flag value =>
    have hi : i < w.stores.length := hv i rfl
    intro h
    refine ordStep_od (fun h => wf_act h _ hv) (frame_act h (.setFlag i var flag value) i rfl hi).objs
      (fun j => ?_) h
    show (setVarFlag w i var flag value).od j = w.od j
    unfold setVarFlag
    dsimp only
    by_cases c : flag = "export".toList ∨ flag = "unexport".toList
    · rw [if_pos c]
      rw [od_addExport, od_modVar]
    · rw [if_neg c, od_modVar]
  | setWeakest i var value =>
    show OrdStep w (setDefault w i var value)
    unfold setDefault
    have h1 : OrdStep w (w.modVar i var fun v => { v with default := some value }) :=
      ord_modVar w i var _ fun v hv => ok_sub hv (fun k => .inr (by cases k <;> rfl)) rfl
    dsimp only
    by_cases c : ':' ∈ var
    · rw [if_pos c]; exact h1.trans (ord_updateOverrides _ i var)
    · rw [if_neg c]; exact h1
  | delFlag i var flag =>
    show OrdStep w (delVarFlag w i var flag)
    unfold delVarFlag
    cases w.findVar i var with
    | none => exact OrdStep.refl w
    | some v =>
      dsimp only
      by_cases c : v = {}
      · rw [if_pos c]; exact OrdStep.refl w
      · rw [if_neg c]
        exact ord_modVar w i var _ fun v hv => ok_sub hv (fun k => .inr (by cases k <;> rfl)) rfl
  | delFlags i var =>
    intro h
    have hi : i < w.stores.length := hv i rfl
    refine ordStep_od (fun h => wf_act h _ hv) (frame_act h (.delFlags i var) i rfl hi).objs
      (fun j => ?_) h
    show (delVarFlags w i var).od j = w.od j
    unfold delVarFlags
    dsimp only
    by_cases c : (((w.shadow i var).dict i |>.lookup var).getD {}).content.isSome ∨
        (((w.shadow i var).dict i |>.lookup var).getD {}).exports.isSome
    · rw [if_pos c, od_setDict, od_shadow]
    · rw [if_neg c, od_delDict, od_shadow]

theorem ordered_runAll (ops : List Op) (w : World) (h : WF w) (o : Ordered w) :
    Ordered (runAll w ops) := by
  induction ops generalizing w with
  | nil => exact o
  | cons op ops ih =>
    refine ih (op.run w) (wf_run h op) ?_
    rcases run_cases w op with ⟨hv, e⟩ | e <;> rw [e]
    · exact (ord_act w op hv h o).2
    · exact o

theorem ordered_init : Ordered init := by
  intro i var p hp
  unfold World.overrides World.od init at hp
  cases i with
  | zero => cases hp
  | succ i => simp at hp

/-! ### The overriding variable is one of the list -/

theorem mem_set_snd {d : Dict Str} {k v : Str} {e : Str × Str} (h : e ∈ Dict.set d k v) :
    e.2 = v ∨ e ∈ d := by
  unfold Dict.set at h
  by_cases c : (d.lookup k).isSome
  · rw [if_pos c] at h
    obtain ⟨x, hx, he⟩ := List.mem_map.1 h
    by_cases c2 : x.1 = k
    · rw [if_pos c2] at he; rw [← he]; exact .inl rfl
    · rw [if_neg c2] at he; rw [← he]; exact .inr hx
  · rw [if_neg c] at h
    rcases List.mem_append.1 h with h | h
    · exact .inr h
    · rw [List.mem_singleton.1 h]; exact .inl rfl

theorem mem_of_lookup {α : Type} {d : Dict α} {k : Str} {v : α} (h : d.lookup k = some v) :
    (k, v) ∈ d := by
  induction d with
  | nil => cases h
  | cons x d ih =>
    rw [List.lookup_cons] at h
    cases e : k == x.1 with
    | true =>
      rw [e] at h
      have hk : k = x.1 := by simpa using e
      have hv : x.2 = v := Option.some.inj h
      rw [hk, ← hv]
      exact List.mem_cons_self
    | false =>
      rw [e] at h
      exact List.mem_cons_of_mem _ (ih h)

/-- All values and the hit are among these. -/
def Sel.In (S : List Str) (s : Sel) : Prop := (∀ e ∈ s.act, e.2 ∈ S) ∧ ∀ t, s.hit = some t → t ∈ S

theorem in_selStep {S : List Str} (o : Str) {s : Sel} (h : s.In S) (a : Str) :
    (selStep o s a).In S := by
  unfold selStep
  cases e : s.act.lookup a with
  | none => exact h
  | some t =>
    have ht : t ∈ S := h.1 _ (mem_of_lookup e)
    dsimp only
    by_cases c1 : endsWith a (':' :: o)
    · rw [if_pos c1]
      refine ⟨fun x hx => ?_, h.2⟩
      rcases mem_set_snd hx with hx | hx
      · rw [hx]; exact ht
      · exact h.1 x (List.mem_filter.1 hx).1
    · rw [if_neg c1]
      by_cases c2 : a = o
      · rw [if_pos c2]
        exact ⟨fun x hx => h.1 x (List.mem_filter.1 hx).1, fun t' e' => Option.some.inj e' ▸ ht⟩
      · rw [if_neg c2]; exact h

theorem in_foldl {α : Type} {S : List Str} {f : Sel → α → Sel} (hf : ∀ s a, s.In S → (f s a).In S)
    (l : List α) {s : Sel} (h : s.In S) : (l.foldl f s).In S := by
  induction l generalizing s with
  | nil => exact h
  | cons a l ih => exact ih (hf s a h)

theorem in_selRound {S : List Str} (ov : List Str) {s : Sel} (h : s.In S) :
    (selRound ov s).In S :=
  in_foldl (fun _ o hs => in_foldl (fun _ a hs => in_selStep o hs a) _ hs) ov
    (s := { s with mod := false }) h

theorem in_selGo {S : List Str} (ov : List Str) (n : Nat) {s : Sel} (h : s.In S) :
    (selGo ov n s).In S := by
  induction n generalizing s with
  | zero => exact h
  | succ n ih =>
    unfold selGo
    by_cases c : (selRound ov s).mod
    · rw [if_pos c]; exact ih (in_selRound ov h)
    · rw [if_neg c]; exact in_selRound ov h

theorem select_mem {ov : List Str} {ps : List (Str × Str)} {m : Str}
    (h : selectOverride ov ps = some m) : m ∈ ps.map (·.1) := by
  have h0 : Sel.In (ps.map (·.1)) { act := activeDict ov ps, hit := none, mod := true } := by
    refine ⟨?_, fun t e => by cases e⟩
    unfold activeDict
    have : ∀ (l : List (Str × Str)) (d : Dict Str), (∀ p ∈ l, p ∈ ps) →
        (∀ e ∈ d, e.2 ∈ ps.map (·.1)) →
        ∀ e ∈ l.foldl (fun d p => Dict.set d p.2 p.1) d, e.2 ∈ ps.map (·.1) := by
      intro l
      induction l with
      | nil => intro d _ hd; exact hd
      | cons p l ih =>
        intro d hl hd
        refine ih _ (fun q hq => hl q (List.mem_cons_of_mem _ hq)) fun e he => ?_
        rcases mem_set_snd he with he | he
        · rw [he]; exact List.mem_map.2 ⟨p, hl p List.mem_cons_self, rfl⟩
        · exact hd e he
    exact this _ [] (fun p hp => (List.mem_filter.1 hp).1) (fun e he => by cases he)
  exact (in_selGo ov _ h0).2 m h

/-! ### The depth of overrides -/

/-- The entries for names that are at least as long. -/
def room (w : World) (i : Nat) (var : Str) : Nat :=
  ((w.od i).filter fun e => decide (var.length ≤ e.1.length)).length

theorem filter_length_lt {α : Type} {p q : α → Bool} {l : List α} (h : ∀ a, p a = true → q a = true)
    {x : α} (hx : x ∈ l) (hq : q x = true) (hp : p x = false) :
    (l.filter p).length < (l.filter q).length := by
  induction l with
  | nil => cases hx
  | cons a l ih =>
    rcases List.mem_cons.1 hx with rfl | hx
    · rw [List.filter_cons_of_pos hq, List.filter_cons_of_neg (by rw [hp]; exact Bool.false_ne_true),
        List.length_cons]
      have : (l.filter p).length ≤ (l.filter q).length := by
        rw [← List.countP_eq_length_filter, ← List.countP_eq_length_filter]
        exact List.countP_mono_left fun a _ => h a
      omega
    · have := ih hx
      by_cases c : p a = true
      · rw [List.filter_cons_of_pos c, List.filter_cons_of_pos (h a c), List.length_cons,
          List.length_cons]
        omega
      · rw [List.filter_cons_of_neg c]
        by_cases c2 : q a = true
        · rw [List.filter_cons_of_pos c2, List.length_cons]; omega
        · rw [List.filter_cons_of_neg c2]; exact this

theorem rawVar_enough {w : World} (ho : Ordered w) (ov : List Str) (E : Expand) (i : Nat) :
    ∀ (k : Nat) (var : Str), room w i var ≤ k → ∀ n m, k + 1 ≤ n → k + 1 ≤ m →
      rawVar w ov E i n var = rawVar w ov E i m var := by
  intro k
  induction k with
  | zero =>
    intro var hr n m hn hm
    obtain ⟨n, rfl⟩ : ∃ n', n = n' + 1 := ⟨n - 1, by omega⟩
    obtain ⟨m, rfl⟩ : ∃ m', m = m' + 1 := ⟨m - 1, by omega⟩
    have hn : (w.od i).lookup var = none := by
      cases e : (w.od i).lookup var with
      | none => rfl
      | some l =>
        exfalso
        have hm := mem_of_lookup e
        have : (var, l) ∈ (w.od i).filter fun e => decide (var.length ≤ e.1.length) :=
          List.mem_filter.2 ⟨hm, by simp⟩
        have := List.length_pos_of_mem this
        unfold room at hr
        omega
    rw [raw_plain hn, raw_plain hn]
  | succ k ih =>
    intro var hr n m hn hm
    obtain ⟨n, rfl⟩ : ∃ n', n = n' + 1 := ⟨n - 1, by omega⟩
    obtain ⟨m, rfl⟩ : ∃ m', m = m' + 1 := ⟨m - 1, by omega⟩
    cases hsel : ((w.od i).lookup var).bind fun l => selectOverride ov (w.pairs l) with
    | none => unfold rawVar; rw [hsel]
    | some t =>
      have hlt : room w i t ≤ k := by
        cases e : (w.od i).lookup var with
        | none => rw [e] at hsel; cases hsel
        | some l =>
          rw [e] at hsel
          obtain ⟨p, hp, hpt⟩ := List.mem_map.1 (select_mem hsel)
          have hlen : var.length < t.length := by
            rw [← hpt]
            refine ho i var p ?_
            unfold World.overrides
            rw [e]
            exact hp
          have : room w i t < room w i var := by
            unfold room
            refine filter_length_lt (x := (var, l)) (fun e he => ?_) (mem_of_lookup e) (by simp)
              (by simpa using hlen)
            simp only [decide_eq_true_eq] at he ⊢
            omega
          omega
      have := ih t hlt n m (by omega) (by omega)
      unfold rawVar
      rw [hsel]
      dsimp only
      rw [this]

theorem room_le (w : World) (i : Nat) (var : Str) : room w i var ≤ (w.od i).length :=
  List.length_filter_le _ _

/-! ### The rounds of the selection -/

/-- The length of all keys. -/
def keyLen (d : Dict Str) : Nat := (d.map fun e => e.1.length).sum

theorem keyLen_set (d : Dict Str) (k v : Str) : keyLen (Dict.set d k v) ≤ keyLen d + k.length := by
  unfold Dict.set
  by_cases c : (d.lookup k).isSome
  · rw [if_pos c]
    have : ∀ d : Dict Str, keyLen (d.map fun e => if e.1 = k then (k, v) else e) = keyLen d := by
      intro d
      unfold keyLen
      rw [List.map_map]
      congr 1
      refine List.map_congr_left fun e _ => ?_
      show (if e.1 = k then (k, v) else e).1.length = e.1.length
      by_cases h : e.1 = k
      · rw [if_pos h, h]
      · rw [if_neg h]
    rw [this]
    omega
  · rw [if_neg c]
    unfold keyLen
    simp

theorem keyLen_del_le (d : Dict Str) (k : Str) : keyLen (Dict.del d k) ≤ keyLen d := by
  unfold keyLen Dict.del
  induction d with
  | nil => exact Nat.le_refl _
  | cons e d ih =>
    by_cases c : e.1 ≠ k
    · rw [List.filter_cons_of_pos (by simpa using c)]
      simp only [List.map_cons, List.sum_cons]
      omega
    · rw [List.filter_cons_of_neg (by simpa using c)]
      simp only [List.map_cons, List.sum_cons]
      omega

theorem keyLen_del (d : Dict Str) (k : Str) (h : (d.lookup k).isSome = true) :
    keyLen (Dict.del d k) + k.length ≤ keyLen d := by
  induction d with
  | nil => cases h
  | cons e d ih =>
    by_cases c : e.1 = k
    · have h1 : Dict.del (e :: d) k = Dict.del d k := by
        unfold Dict.del
        rw [List.filter_cons_of_neg (by simpa using c)]
      have h2 := keyLen_del_le d k
      rw [h1]
      unfold keyLen at h2 ⊢
      simp only [List.map_cons, List.sum_cons, c]
      omega
    · have h1 : Dict.del (e :: d) k = e :: Dict.del d k := by
        unfold Dict.del
        rw [List.filter_cons_of_pos (by simpa using c)]
      rw [List.lookup_cons] at h
      have : (k == e.1) = false := by simpa using fun x => c x.symm
      rw [this] at h
      have h2 := ih h
      rw [h1]
      unfold keyLen at h2 ⊢
      simp only [List.map_cons, List.sum_cons]
      omega

theorem replaceGo_le (p : Str) : ∀ (s : Str) (n : Nat), (replaceGo p n s).length ≤ s.length := by
  intro s
  induction s with
  | nil => intro n; cases n <;> exact Nat.le_refl _
  | cons c s ih =>
    intro n
    cases n with
    | succ n =>
      have := ih n
      show (replaceGo p n s).length ≤ s.length + 1
      omega
    | zero =>
      unfold replaceGo
      by_cases h : startsWith (c :: s) p
      · rw [if_pos h]
        have := ih (p.length - 1)
        rw [List.length_cons]
        omega
      · rw [if_neg h]
        have := ih 0
        rw [List.length_cons, List.length_cons]
        omega

theorem replaceGo_lt (p : Str) (hp : p ≠ []) : ∀ s : Str, isSub p s = true →
    (replaceGo p 0 s).length < s.length := by
  intro s
  induction s with
  | nil =>
    intro h
    cases p with
    | nil => exact absurd rfl hp
    | cons => cases h
  | cons c s ih =>
    intro h
    unfold replaceGo
    by_cases c1 : startsWith (c :: s) p
    · rw [if_pos c1]
      have := replaceGo_le p s (p.length - 1)
      rw [List.length_cons]
      omega
    · rw [if_neg c1]
      unfold isSub at h
      have h2 : startsWith (c :: s) p = false := by simpa using c1
      rw [h2, Bool.false_or] at h
      have := ih h
      rw [List.length_cons, List.length_cons]
      omega

/-- The keys get shorter; strictly so if something was modified. -/
def Shrinks (s s' : Sel) : Prop :=
  keyLen s'.act ≤ keyLen s.act ∧ (s'.mod = true → s.mod = true ∨ keyLen s'.act < keyLen s.act)

theorem Shrinks.refl (s : Sel) : Shrinks s s := ⟨Nat.le_refl _, .inl⟩

theorem Shrinks.trans {a b c : Sel} (h1 : Shrinks a b) (h2 : Shrinks b c) : Shrinks a c := by
  refine ⟨Nat.le_trans h2.1 h1.1, fun h => ?_⟩
  rcases h2.2 h with h | h
  · rcases h1.2 h with h | h
    · exact .inl h
    · exact .inr (Nat.lt_of_le_of_lt h2.1 h)
  · exact .inr (Nat.lt_of_lt_of_le h h1.1)

theorem shrinks_step (o : Str) (s : Sel) (a : Str) : Shrinks s (selStep o s a) := by
  unfold selStep
  cases e : s.act.lookup a with
  | none => exact Shrinks.refl s
  | some t =>
    have hs : (s.act.lookup a).isSome = true := by rw [e]; rfl
    have hd := keyLen_del s.act a hs
    dsimp only
    by_cases c1 : endsWith a (':' :: o)
    · rw [if_pos c1]
      have hl : (replaceGo (':' :: o) 0 a).length < a.length := by
        refine replaceGo_lt _ (List.cons_ne_nil _ _) a (isSub_iff.2 ?_)
        obtain ⟨t, ht⟩ := endsWith_iff.1 c1
        exact ⟨t, [], by rw [List.append_nil]; exact ht⟩
      have h1 := keyLen_set (Dict.del s.act a) (replaceGo (':' :: o) 0 a) t
      have : keyLen (Dict.set (Dict.del s.act a) (replaceGo (':' :: o) 0 a) t) < keyLen s.act := by
        omega
      exact ⟨Nat.le_of_lt this, fun _ => .inr this⟩
    · rw [if_neg c1]
      by_cases c2 : a = o
      · rw [if_pos c2]
        exact ⟨keyLen_del_le _ _, .inl⟩
      · rw [if_neg c2]; exact Shrinks.refl s

theorem shrinks_foldl {α : Type} {f : Sel → α → Sel} (hf : ∀ s a, Shrinks s (f s a)) (l : List α)
    (s : Sel) : Shrinks s (l.foldl f s) := by
  induction l generalizing s with
  | nil => exact Shrinks.refl s
  | cons a l ih => exact (hf s a).trans (ih (f s a))

theorem shrinks_round (ov : List Str) (s : Sel) :
    (selRound ov s).mod = true → keyLen (selRound ov s).act < keyLen s.act := by
  intro h
  have := shrinks_foldl (f := fun s o => (s.act.map (·.1)).foldl (selStep o) s)
    (fun s o => shrinks_foldl (shrinks_step o) _ s) ov { s with mod := false }
  rcases this.2 h with x | x
  · cases x
  · exact x

theorem selGo_enough (ov : List Str) : ∀ (k : Nat) (s : Sel), keyLen s.act ≤ k →
    ∀ n m, k + 1 ≤ n → k + 1 ≤ m → selGo ov n s = selGo ov m s := by
  intro k
  induction k with
  | zero =>
    intro s hs n m hn hm
    obtain ⟨n, rfl⟩ : ∃ n', n = n' + 1 := ⟨n - 1, by omega⟩
    obtain ⟨m, rfl⟩ : ∃ m', m = m' + 1 := ⟨m - 1, by omega⟩
    have h : ¬ (selRound ov s).mod = true := fun h => by
      have := shrinks_round ov s h
      omega
    unfold selGo
    rw [if_neg h, if_neg h]
  | succ k ih =>
    intro s hs n m hn hm
    obtain ⟨n, rfl⟩ : ∃ n', n = n' + 1 := ⟨n - 1, by omega⟩
    obtain ⟨m, rfl⟩ : ∃ m', m = m' + 1 := ⟨m - 1, by omega⟩
    unfold selGo
    by_cases h : (selRound ov s).mod = true
    · rw [if_pos h, if_pos h]
      have := shrinks_round ov s h
      exact ih _ (by omega) n m (by omega) (by omega)
    · rw [if_neg h, if_neg h]

/-! ### Words are pieces -/

theorem wordsGo_pieces (s : Str) : ∀ cur x, x ∈ wordsGo s cur → x ∈ wsSplit cur s := by
  induction s with
  | nil =>
    intro cur x h
    unfold wordsGo at h
    by_cases e : cur = []
    · rw [if_pos e] at h; cases h
    · rw [if_neg e] at h; exact h
  | cons c s ih =>
    intro cur x h
    unfold wordsGo at h
    unfold wsSplit
    by_cases e : isWs c
    · rw [if_pos e] at h ⊢
      by_cases e2 : cur = []
      · rw [if_pos e2] at h
        exact List.mem_cons_of_mem _ (List.mem_cons_of_mem _ (ih [] x h))
      · rw [if_neg e2] at h
        rcases List.mem_cons.1 h with h | h
        · rw [h]; exact List.mem_cons_self
        · exact List.mem_cons_of_mem _ (List.mem_cons_of_mem _ (ih [] x h))
    · rw [if_neg e] at h ⊢
      exact ih _ x h

theorem words_pieces {s x : Str} (h : x ∈ words s) : x ∈ wsSplit [] s := wordsGo_pieces s [] x h

end Bb.Data
