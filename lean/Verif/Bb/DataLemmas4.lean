import Verif.Bb.DataLemmas3
/-!
# Lemmas about overrides
-/

namespace Bb.Data
open Py Spec

theorem eq_of_append_colon {a b x y : Str} (ha : ':' ∉ x) (hb : ':' ∉ y)
    (e : a ++ ':' :: x = b ++ ':' :: y) : a = b ∧ x = y := by
  rcases List.append_eq_append_iff.1 e with ⟨u, h1, h2⟩ | ⟨u, h1, h2⟩
  · cases u with
    | nil => exact ⟨by simpa using h1.symm, (List.cons.inj h2).2⟩
    | cons c u =>
      exfalso
      rw [List.cons_append] at h2
      exact ha ((List.cons.inj h2).2 ▸ by simp)
  · cases u with
    | nil => exact ⟨by simpa using h1, (List.cons.inj h2).2.symm⟩
    | cons c u =>
      exfalso
      rw [List.cons_append] at h2
      exact hb ((List.cons.inj h2).2 ▸ by simp)

/-! ### Names -/

theorem Spec.Simple.isOverride {o : Str} (h : Simple o) : isOverride o = true := by
  obtain ⟨_, ⟨c, t, rfl, h⟩, _⟩ := h
  unfold Data.isOverride
  simpa using h

theorem noKw_of_no_colon {s : Str} (h : ':' ∉ s) : NoKw s := by
  intro k
  cases e : isSub k.text s with
  | false => rfl
  | true =>
    obtain ⟨a, b, hs⟩ := isSub_iff.1 e
    obtain ⟨t, ht, _⟩ := kw_text k
    exact absurd (by rw [hs, ht]; simp) h

theorem kwAt_ne_colon {c : Char} (hc : c ≠ ':') (s : Str) (k : Kw) : kwAt (c :: s) k = none := by
  refine kwAt_none ?_
  cases e : startsWith (c :: s) k.text with
  | false => rfl
  | true =>
    obtain ⟨t, ht⟩ := startsWith_iff.1 e
    obtain ⟨kt, hk, _⟩ := kw_text k
    rw [hk] at ht
    exact absurd (List.cons.inj ht).1 hc

theorem kwAt_simple {o : Str} (h : ':' ∉ o) (k : Kw) (hk : ':' :: o ≠ k.text) :
    kwAt (':' :: o) k = none := by
  unfold kwAt
  by_cases e : startsWith (':' :: o) k.text
  · rw [if_pos e]
    obtain ⟨t, ht⟩ := startsWith_iff.1 e
    obtain ⟨kt, hkt, _⟩ := kw_text k
    rw [ht, List.drop_left]
    cases t with
    | nil => rw [List.append_nil] at ht; exact absurd ht hk
    | cons c t =>
      have hc : c ≠ ':' := by
        rintro rfl
        rw [hkt, List.cons_append] at ht
        exact h ((List.cons.inj ht).2 ▸ by simp)
      split
      · next e => cases e
      · next e => exact absurd (List.cons.inj e).1 hc
      · rfl
  · rw [if_neg e]

theorem parseKey_simple {var o : Str} (hv : ':' ∉ var) (ho : Simple o) :
    parseKey (var ++ ':' :: o) = none := by
  induction var with
  | nil =>
    show parseKey (':' :: o) = none
    unfold parseKey
    rw [kwAt_simple ho.1 .app fun e => ho.2.2.1 (List.cons.inj e).2,
      kwAt_simple ho.1 .pre fun e => ho.2.2.2.1 (List.cons.inj e).2,
      kwAt_simple ho.1 .rem fun e => ho.2.2.2.2 (List.cons.inj e).2]
    show (parseKey o).map _ = none
    rw [parseKey_none (noKw_of_no_colon ho.1)]
    rfl
  | cons c s ih =>
    show parseKey (c :: (s ++ ':' :: o)) = none
    have hc : c ≠ ':' := fun e => hv (e ▸ List.mem_cons_self)
    unfold parseKey
    rw [kwAt_ne_colon hc, kwAt_ne_colon hc, kwAt_ne_colon hc]
    show (parseKey _).map _ = none
    rw [ih fun m => hv (List.mem_cons_of_mem _ m)]
    rfl

theorem beforeColon_simple (var o : Str) (ho : ':' ∉ o) : beforeColon (var ++ ':' :: o) = var := by
  unfold beforeColon
  have : (var ++ ':' :: o).reverse = o.reverse ++ ':' :: var.reverse := by simp
  rw [this, List.dropWhile_append_of_pos (by
    intro c hc
    rw [decide_eq_true_iff]
    rintro rfl
    exact ho (List.mem_reverse.1 hc))]
  simp

theorem candidates_simple {var o : Str} (hv : ':' ∉ var) (ho : Simple o) :
    candidates (var ++ ':' :: o) = [(var, o)] := by
  unfold candidates
  rw [if_pos (by simp), beforeColon_simple var o ho.1]
  have e1 : (var ++ ':' :: o).drop (var.length + 1) = o := by simp
  have e2 : (var ++ ':' :: o).length = (var.length + o.length) + 1 := by simp; omega
  rw [e1, e2]
  unfold candGo
  rw [if_pos ho.isOverride, if_neg hv]

/-! ### The list of overrides -/

/-- The overrides of a variable. -/
def World.overrides (w : World) (i : Nat) (var : Str) : List (Str × Str) :=
  (((w.od i).lookup var).map w.pairs).getD []

theorem pairs_write (w : World) (l : Nat) (x : List (Str × Str)) (hl : l < w.objs.length) :
    (w.write l (.pairs x)).pairs l = x := by
  unfold World.write World.pairs
  rw [List.getElem?_set_self hl]

theorem overrides_setPairs {w : World} {i : Nat} (hi : i < w.stores.length) (var : Str)
    (a b : List (Str × Str)) : (w.setPairs i var a b).overrides i var = b := by
  have h1 : ((w.setPairs i var a b).od i).lookup var = some w.objs.length := by
    show (((w.new (.pairs a)).setOd i var w.objs.length).od i).lookup var = _
    rw [od_setOd, if_pos ⟨rfl, hi⟩, Dict.lookup_set, if_pos rfl]
  unfold World.overrides
  rw [h1]
  show (w.setPairs i var a b).pairs w.objs.length = b
  unfold World.setPairs
  exact pairs_write _ _ _ (by
    show w.objs.length < (w.new (.pairs a)).objs.length
    rw [len_new]; omega)

theorem overrides_addOverride {w : World} (h : WF w) {i : Nat} (hi : i < w.stores.length)
    (var : Str) (c : Str × Str) : (addOverride i var w c).overrides i c.1 =
      if (var, c.2) ∈ w.overrides i c.1 then w.overrides i c.1
      else w.overrides i c.1 ++ [(var, c.2)] := by
  unfold addOverride
  have h1 : ∃ l, (((if ((w.od i).lookup c.1).isSome then w else
      (w.new (.pairs [])).setOd i c.1 w.objs.length).od i).lookup c.1) = some l ∧
      (if ((w.od i).lookup c.1).isSome then w else
      (w.new (.pairs [])).setOd i c.1 w.objs.length).pairs l = w.overrides i c.1 ∧
      i < (if ((w.od i).lookup c.1).isSome then w else
      (w.new (.pairs [])).setOd i c.1 w.objs.length).stores.length := by
    cases e : (w.od i).lookup c.1 with
    | some l =>
      rw [if_pos (by rfl : (some l).isSome = true)]
      refine ⟨l, e, ?_, hi⟩
      unfold World.overrides
      rw [e]
      rfl
    | none =>
      rw [if_neg (by simp)]
      refine ⟨w.objs.length, ?_, ?_, by rw [len_setOd]; exact hi⟩
      · rw [od_setOd, if_pos ⟨rfl, hi⟩, Dict.lookup_set, if_pos rfl]
      · unfold World.overrides
        rw [e]
        show World.pairs ((w.new (.pairs [])).setOd i c.1 w.objs.length) w.objs.length = []
        unfold World.pairs
        have : ((w.new (.pairs [])).setOd i c.1 w.objs.length).objs[w.objs.length]? =
          some (.pairs []) := get_new_last w _
        rw [this]
  revert h1
  generalize (if ((w.od i).lookup c.1).isSome then w else
      (w.new (.pairs [])).setOd i c.1 w.objs.length) = w1
  rintro ⟨l, hl, hp, hi1⟩
  dsimp only
  rw [hl]
  show World.overrides (if (var, c.2) ∈ w1.pairs l then w1 else
    w1.setPairs i c.1 (w1.pairs l) (w1.pairs l ++ [(var, c.2)])) i c.1 = _
  rw [← hp]
  by_cases e : (var, c.2) ∈ w1.pairs l
  · rw [if_pos e, if_pos e]
    unfold World.overrides
    rw [hl]
    rfl
  · rw [if_neg e, if_neg e, overrides_setPairs hi1]

/-! ### Selection -/

theorem lookup_isSome_iff {α : Type} (d : Dict α) (a : Str) :
    (d.lookup a).isSome = true ↔ a ∈ d.map (·.1) := by
  induction d with
  | nil => simp [List.lookup]
  | cons x d ih =>
    rw [List.lookup_cons]
    by_cases e : a = x.1
    · subst e; simp
    · have : (a == x.1) = false := by simpa using e
      rw [this]
      simp only [List.map_cons, List.mem_cons, e, false_or]
      exact ih

theorem keys_del {α : Type} (d : Dict α) (k a : Str) (h : a ∈ (Dict.del d k).map (·.1)) :
    a ∈ d.map (·.1) := by
  rw [← lookup_isSome_iff] at h ⊢
  rw [Dict.lookup_del] at h
  by_cases e : a = k
  · rw [if_pos e] at h; cases h
  · rwa [if_neg e] at h

/-- What a round does for one override if no override has several parts. -/
def sel1 (s : Sel) (o : Str) : Sel :=
  match s.act.lookup o with
  | none => s
  | some t => { s with act := Dict.del s.act o, hit := some t }

/-- No override has several parts. -/
def Flat (s : Sel) : Prop := ∀ a ∈ s.act.map (·.1), ':' ∉ a

theorem flat_sel1 {s : Sel} (h : Flat s) (o : Str) : Flat (sel1 s o) := by
  unfold sel1
  cases s.act.lookup o with
  | none => exact h
  | some t => exact fun a ha => h a (keys_del _ _ _ ha)

theorem lookup_sel1 (s : Sel) (o a : Str) :
    (sel1 s o).act.lookup a = if a = o then none else s.act.lookup a := by
  unfold sel1
  cases e : s.act.lookup o with
  | none =>
    by_cases h : a = o
    · rw [if_pos h, h]; exact e
    · rw [if_neg h]
  | some t =>
    show (Dict.del s.act o).lookup a = _
    rw [Dict.lookup_del]

theorem hit_sel1 (s : Sel) (o : Str) : (sel1 s o).hit = (s.act.lookup o).or s.hit := by
  unfold sel1
  cases s.act.lookup o <;> rfl

theorem mod_sel1 (s : Sel) (o : Str) : (sel1 s o).mod = s.mod := by
  unfold sel1
  cases s.act.lookup o <;> rfl

theorem selStep_flat {s : Sel} (o a : Str) (ha : ':' ∉ a) :
    selStep o s a = if a = o then sel1 s o else s := by
  have he : endsWith a (':' :: o) = false := by
    cases e : endsWith a (':' :: o) with
    | false => rfl
    | true =>
      obtain ⟨t, ht⟩ := endsWith_iff.1 e
      exact absurd (by rw [ht]; simp) ha
  unfold selStep
  rw [he]
  by_cases h : a = o
  · subst h
    unfold sel1
    cases s.act.lookup a with
    | none => rw [if_pos rfl]
    | some t =>
      rw [if_pos rfl]
      show (if a = a then _ else s) = _
      rw [if_pos rfl]
  · rw [if_neg h]
    cases s.act.lookup a with
    | none => rfl
    | some t =>
      show (if a = o then _ else s) = _
      rw [if_neg h]

theorem inner_flat (o : Str) (ks : List Str) (s : Sel) (hk : ∀ a ∈ ks, ':' ∉ a) :
    ks.foldl (selStep o) s = if o ∈ ks then sel1 s o else s := by
  induction ks generalizing s with
  | nil => rfl
  | cons a ks ih =>
    rw [List.foldl_cons, selStep_flat o a (hk a List.mem_cons_self),
      ih _ fun a ha => hk a (List.mem_cons_of_mem _ ha)]
    by_cases e : a = o
    · rw [if_pos e, if_pos (show o ∈ a :: ks by rw [e]; exact List.mem_cons_self)]
      have : sel1 (sel1 s o) o = sel1 s o := by
        have hn : (sel1 s o).act.lookup o = none := by rw [lookup_sel1, if_pos rfl]
        generalize sel1 s o = s' at hn
        unfold sel1
        rw [hn]
      rw [this]
      by_cases h : o ∈ ks
      · rw [if_pos h]
      · rw [if_neg h]
    · rw [if_neg e]
      by_cases h : o ∈ ks
      · rw [if_pos h, if_pos (List.mem_cons_of_mem _ h)]
      · rw [if_neg h, if_neg fun m => (List.mem_cons.1 m).elim (fun x => e x.symm) h]

theorem round_flat (ov : List Str) (s : Sel) (h : Flat s) :
    ov.foldl (fun s o => (s.act.map (·.1)).foldl (selStep o) s) s = ov.foldl sel1 s := by
  induction ov generalizing s with
  | nil => rfl
  | cons o ov ih =>
    rw [List.foldl_cons, List.foldl_cons]
    have : (s.act.map (·.1)).foldl (selStep o) s = sel1 s o := by
      rw [inner_flat o _ s h]
      by_cases e : o ∈ s.act.map (·.1)
      · rw [if_pos e]
      · rw [if_neg e]
        unfold sel1
        have : s.act.lookup o = none :=
          Option.not_isSome_iff_eq_none.1 fun x => e ((lookup_isSome_iff _ _).1 x)
        rw [this]
    rw [this]
    exact ih _ (flat_sel1 h o)

theorem mod_fold (ov : List Str) (s : Sel) : (ov.foldl sel1 s).mod = s.mod := by
  induction ov generalizing s with
  | nil => rfl
  | cons o ov ih => rw [List.foldl_cons, ih, mod_sel1]

theorem fold_skip (o : Str) (ov : List Str) (s : Sel) (h : s.act.lookup o = none) :
    ov.foldl sel1 s = (ov.filter fun b => !b == o).foldl sel1 s := by
  induction ov generalizing s with
  | nil => rfl
  | cons a ov ih =>
    by_cases e : a = o
    · subst e
      rw [List.filter_cons_of_neg (by simp), List.foldl_cons]
      have : sel1 s a = s := by unfold sel1; rw [h]
      rw [this]
      exact ih s h
    · rw [List.filter_cons_of_pos (by simpa using e), List.foldl_cons, List.foldl_cons]
      refine ih _ ?_
      rw [lookup_sel1]
      by_cases e2 : o = a
      · rw [if_pos e2]
      · rw [if_neg e2]; exact h

theorem mem_eraseDups_filter {o : Str} {l : List Str} {b : Str}
    (h : b ∈ (l.filter fun b => !b == o).eraseDups) : b ≠ o := by
  rw [List.mem_eraseDups] at h
  have := (List.mem_filter.1 h).2
  simpa using this

theorem find_congr {α : Type} {p q : α → Bool} {l : List α} (h : ∀ a ∈ l, p a = q a) :
    l.find? p = l.find? q := by
  induction l with
  | nil => rfl
  | cons a l ih =>
    rw [List.find?_cons, List.find?_cons, h a List.mem_cons_self,
      ih fun a ha => h a (List.mem_cons_of_mem _ ha)]

theorem hit_fold (n : Nat) : ∀ (ov : List Str) (s : Sel), ov.length ≤ n →
    (ov.foldl sel1 s).hit =
      ((ov.eraseDups.reverse.find? fun o => (s.act.lookup o).isSome).bind fun o => s.act.lookup o).or s.hit := by
  induction n with
  | zero =>
    intro ov s h
    have : ov = [] := List.length_eq_zero_iff.1 (Nat.le_zero.1 h)
    subst this
    rfl
  | succ n ih =>
    intro ov s h
    cases ov with
    | nil => rfl
    | cons o ov =>
      rw [List.foldl_cons, fold_skip o ov (sel1 s o) (by rw [lookup_sel1, if_pos rfl]),
        ih _ _ (Nat.le_trans (List.length_filter_le _ _) (Nat.le_of_succ_le_succ h)),
        List.eraseDups_cons, List.reverse_cons, List.find?_append, hit_sel1]
      have e1 : ((ov.filter fun b => !b == o).eraseDups.reverse.find? fun a =>
          ((sel1 s o).act.lookup a).isSome) =
          (ov.filter fun b => !b == o).eraseDups.reverse.find? fun a => (s.act.lookup a).isSome := by
        refine find_congr fun a ha => ?_
        rw [lookup_sel1, if_neg (mem_eraseDups_filter (List.mem_reverse.1 ha))]
      rw [e1]
      cases e2 : (ov.filter fun b => !b == o).eraseDups.reverse.find? fun a =>
          (s.act.lookup a).isSome with
      | some a =>
        have ha := List.mem_of_find?_eq_some e2
        show ((sel1 s o).act.lookup a).or _ = (s.act.lookup a).or _
        rw [lookup_sel1, if_neg (mem_eraseDups_filter (List.mem_reverse.1 ha))]
        have := List.find?_some e2
        cases e3 : s.act.lookup a with
        | none => rw [e3] at this; cases this
        | some t => rfl
      | none =>
        show (s.act.lookup o).or s.hit =
          (([o].find? fun a => (s.act.lookup a).isSome).bind fun o => s.act.lookup o).or s.hit
        rw [List.find?_cons]
        cases e3 : s.act.lookup o with
        | none => rfl
        | some t =>
          show some t = ((some o).bind fun o => s.act.lookup o).or s.hit
          show some t = (s.act.lookup o).or s.hit
          rw [e3]
          rfl

theorem lookup_foldl_set (N : Str → Str) (os : List Str) (d : Dict Str) (a : Str) :
    ((os.map fun o => (N o, o)).foldl (fun d p => Dict.set d p.2 p.1) d).lookup a =
      if a ∈ os then some (N a) else d.lookup a := by
  induction os generalizing d with
  | nil => simp
  | cons o os ih =>
    rw [List.map_cons, List.foldl_cons, ih, Dict.lookup_set]
    by_cases h : a ∈ os
    · rw [if_pos h, if_pos (List.mem_cons_of_mem _ h)]
    · rw [if_neg h]
      by_cases e : a = o
      · rw [if_pos e, if_pos (show a ∈ o :: os by rw [e]; exact List.mem_cons_self), e]
      · rw [if_neg e, if_neg fun m => (List.mem_cons.1 m).elim e h]

theorem active_flat (ov : List Str) {o : Str} (h : ':' ∉ o) : active ov o = decide (o ∈ ov) := by
  unfold active
  rw [decide_eq_false h, Bool.false_and, Bool.or_false]

theorem filter_active_map (ov : List Str) (N : Str → Str) (os : List Str) (h : ∀ o ∈ os, ':' ∉ o) :
    (os.map fun o => (N o, o)).filter (fun p => active ov p.2) =
      (os.filter fun o => decide (o ∈ ov)).map fun o => (N o, o) := by
  rw [List.filter_map]
  congr 1
  refine List.filter_congr fun o ho => ?_
  exact active_flat ov (h o ho)

theorem select_flat (ov : List Str) (N : Str → Str) (os : List Str) (h : ∀ o ∈ os, ':' ∉ o) :
    selectOverride ov (os.map fun o => (N o, o)) =
      (ov.eraseDups.reverse.find? fun o => decide (o ∈ os)).map N := by
  have hl : ∀ a, (activeDict ov (os.map fun o => (N o, o))).lookup a =
      if a ∈ os ∧ a ∈ ov then some (N a) else none := by
    intro a
    unfold activeDict
    rw [filter_active_map ov N os h, lookup_foldl_set]
    have e : a ∈ os.filter (fun o => decide (o ∈ ov)) ↔ a ∈ os ∧ a ∈ ov := by
      rw [List.mem_filter, decide_eq_true_iff]
    by_cases c : a ∈ os ∧ a ∈ ov
    · rw [if_pos c, if_pos (e.2 c)]
    · rw [if_neg c, if_neg fun m => c (e.1 m)]; rfl
  unfold selectOverride
  dsimp only
  generalize activeDict ov (os.map fun o => (N o, o)) = d at hl
  have hf : Flat { act := d, hit := none, mod := false } := by
    intro a ha
    have := (lookup_isSome_iff d a).2 ha
    rw [hl] at this
    by_cases c : a ∈ os ∧ a ∈ ov
    · exact h a c.1
    · rw [if_neg c] at this; cases this
  have hr : selRound ov { act := d, hit := none, mod := true } =
      ov.foldl sel1 { act := d, hit := none, mod := false } := round_flat ov _ hf
  unfold selFuel selGo
  rw [hr, mod_fold]
  rw [if_neg (by simp), hit_fold ov.length ov _ (Nat.le_refl _)]
  show ((ov.eraseDups.reverse.find? fun o => (d.lookup o).isSome).bind fun o => d.lookup o).or none = _
  have e1 : (ov.eraseDups.reverse.find? fun o => (d.lookup o).isSome) =
      ov.eraseDups.reverse.find? fun o => decide (o ∈ os) := by
    refine find_congr fun a ha => ?_
    have ha' : a ∈ ov := List.mem_eraseDups.1 (List.mem_reverse.1 ha)
    rw [hl]
    by_cases c : a ∈ os
    · rw [if_pos ⟨c, ha'⟩, decide_eq_true c]; rfl
    · rw [if_neg fun x => c x.1, decide_eq_false c]; rfl
  rw [e1]
  cases e2 : ov.eraseDups.reverse.find? fun o => decide (o ∈ os) with
  | none => rfl
  | some a =>
    have h1 : a ∈ ov := List.mem_eraseDups.1 (List.mem_reverse.1 (List.mem_of_find?_eq_some e2))
    have h2 : a ∈ os := by simpa using List.find?_some e2
    show (d.lookup a).or none = some (N a)
    rw [hl, if_pos ⟨h2, h1⟩]
    rfl

/-! ### A history of assignments -/

/-- Nothing is known of the variable and its overrides. -/
def Fresh (w : World) (i : Nat) (var : Str) : Prop :=
  ∀ o, (∀ x, o = some x → Simple x) →
    w.findVar i (ovName var o) = none ∧ (w.od i).lookup (ovName var o) = none

/-- The invariant. -/
structure Hist (w : World) (i : Nat) (var : Str) (as : List (Option Str × Str)) : Prop where
  wf : WF w
  hi : i < w.stores.length
  value : ∀ o, (∀ x, o = some x → Simple x) →
    ((w.findVar i (ovName var o)).bind fun v => v.content.or v.default) = lastOf o as ∧
    NoOps ((w.findVar i (ovName var o)).getD {}) ∧
    ((w.findVar i (ovName var o)).getD {}).default = none
  sub : ∀ o, Simple o → (w.od i).lookup (ovName var (some o)) = none
  ovs : ∃ os : List Str, w.overrides i var = os.map (fun o => (ovName var (some o), o)) ∧
    (∀ o ∈ os, Simple o) ∧ ∀ o, o ∈ os ↔ (lastOf (some o) as).isSome = true

theorem lastOf_append (o : Option Str) (as : List (Option Str × Str)) (a : Option Str × Str) :
    lastOf o (as ++ [a]) = if a.1 = o then some a.2 else lastOf o as := by
  unfold lastOf
  rw [List.filter_append]
  by_cases h : a.1 = o
  · rw [if_pos h, List.filter_cons_of_pos (by simpa using h)]
    simp
  · rw [if_neg h, List.filter_cons_of_neg (by simpa using h)]
    simp

theorem ovName_inj {var : Str} (hv : ':' ∉ var) {o o' : Option Str}
    (h : ∀ x, o = some x → ':' ∉ x) (h' : ∀ x, o' = some x → ':' ∉ x)
    (e : ovName var o = ovName var o') : o = o' := by
  cases o with
  | none =>
    cases o' with
    | none => rfl
    | some y =>
      exfalso
      have e' : var = var ++ ':' :: y := e
      exact hv (e'.symm ▸ by simp)
  | some x =>
    cases o' with
    | none =>
      exfalso
      have e' : var ++ ':' :: x = var := e
      exact hv (e' ▸ by simp)
    | some y => rw [(eq_of_append_colon (h x rfl) (h' y rfl) e).2]

theorem Hist.start {w : World} (h : WF w) {i : Nat} (hi : i < w.stores.length) {var : Str}
    (hf : Fresh w i var) : Hist w i var [] := by
  refine ⟨h, hi, fun o ho => ?_, fun o ho => (hf (some o) fun x e => by cases e; exact ho).2, [], ?_,
    fun o ho => (by cases ho), fun o => ⟨fun h => (by cases h), fun h => (by cases h)⟩⟩
  · rw [(hf o ho).1]
    exact ⟨rfl, noOps_empty, rfl⟩
  · have hn : (w.od i).lookup var = none := (hf none fun x e => by cases e).2
    unfold World.overrides
    rw [hn]
    rfl

theorem Hist.step {w w' : World} {i : Nat} {var : Str} {as : List (Option Str × Str)}
    (h : Hist w i var as) (hv : ':' ∉ var) (a : Option Str × Str)
    (ha : ∀ x, a.1 = some x → Simple x)
    (e : setVar w [] i (ovName var a.1) a.2 true = some w') : Hist w' i var (as ++ [a]) := by
  have hw' : WF w' := wf_setVar h.wf _ _ _ _ _ e
  have hlen : i < w'.stores.length := by
    rw [(frame_setVar _ _ _ _ _ e).len]; exact h.hi
  have hkey : parseKey (ovName var a.1) = none := by
    cases e1 : a.1 with
    | none => exact parseKey_none (noKw_of_no_colon hv)
    | some o => exact parseKey_simple hv (ha o e1)
  unfold setVar at e
  by_cases h1 : oldSyntax (ovName var a.1)
  · rw [if_pos h1] at e; cases e
  · rw [if_neg h1, hkey] at e
    dsimp only at e
    rw [if_pos rfl] at e
    -- the dictionaries
    have key : ∀ w2, WF w2 → i < w2.stores.length →
        (∀ y, w2.findVar i y = (w.shadow i (ovName var a.1)).findVar i y) →
        (w2.modVar i (ovName var a.1) fun v => { v with content := some a.2 }) = w' →
        ∀ o, (∀ x, o = some x → Simple x) →
          ((w'.findVar i (ovName var o)).bind fun v => v.content.or v.default) =
            lastOf o (as ++ [a]) ∧
          NoOps ((w'.findVar i (ovName var o)).getD {}) ∧
          ((w'.findVar i (ovName var o)).getD {}).default = none := by
      intro w2 hw2 hi2 hf hm o ho
      rw [← hm, findVar_modVar hw2 hi2, hf, hf, findVar_shadow h.wf h.hi, findVar_shadow h.wf h.hi,
        lastOf_append, if_pos rfl]
      by_cases c : a.1 = o
      · subst c
        rw [if_pos rfl, if_pos rfl]
        obtain ⟨_, v2, v3⟩ := h.value a.1 ha
        exact ⟨rfl, fun k => by have := v2 k; cases k <;> exact this, v3⟩
      · have hne : ovName var o ≠ ovName var a.1 := fun x =>
          c (ovName_inj hv (fun x e => (ho x e).1) (fun x e => (ha x e).1) x).symm
        rw [if_neg c, if_neg hne, if_neg hne]
        exact h.value o ho
    cases e1 : a.1 with
    | none =>
      have hc : ':' ∉ ovName var a.1 := by rw [e1]; exact hv
      rw [if_neg hc] at e
      have em := Option.some.inj e
      refine ⟨hw', hlen, key _ (wf_shadow h.wf _ _) (by
        rw [(frame_shadow w i _).len]; exact h.hi) (fun _ => rfl) em, fun o ho => ?_, ?_⟩
      · rw [← em, od_modVar, od_shadow]; exact h.sub o ho
      · obtain ⟨os, h2, h3, h4⟩ := h.ovs
        refine ⟨os, ?_, h3, fun o => ?_⟩
        · rw [← h2]
          unfold World.overrides
          rw [← em, od_modVar, od_shadow]
          have : ∀ l, ((w.shadow i (ovName var a.1)).modVar i (ovName var a.1) fun v =>
              { v with content := some a.2 }).pairs l = w.pairs l := by
            intro l
            unfold World.pairs
            rw [objs_modVar, objs_shadow]
          rw [funext this]
        · rw [lastOf_append, if_neg (by rw [e1]; simp)]; exact h4 o
    | some o =>
      have ho := ha o e1
      have hn : ovName var a.1 = var ++ ':' :: o := by rw [e1]; rfl
      have hc : ':' ∈ ovName var a.1 := by rw [hn]; simp
      rw [if_pos hc] at e
      have em := Option.some.inj e
      have hwS := wf_shadow h.wf i (ovName var a.1)
      have hiS : i < (w.shadow i (ovName var a.1)).stores.length := by
        rw [(frame_shadow w i _).len]; exact h.hi
      have hcand : candidates (ovName var a.1) = [(var, o)] := by
        rw [hn]; exact candidates_simple hv ho
      have hup : updateOverrides (w.shadow i (ovName var a.1)) i (ovName var a.1) =
          addOverride i (ovName var a.1) (w.shadow i (ovName var a.1)) (var, o) := by
        unfold updateOverrides
        rw [hcand]
        rfl
      refine ⟨hw', hlen, key _ (wf_updateOverrides hwS _ _) (by
        rw [(frame_updateOverrides _ i _).len]; exact hiS)
        (fun y => (sd_updateOverrides _ i _).findVar i y) em, fun o' ho' => ?_, ?_⟩
      · rw [← em, od_modVar, hup, lookup_od_addOverride _ _ _ _ _ (by
          show var ++ ':' :: o' ≠ var
          intro x
          exact hv (x ▸ by simp)), od_shadow]
        exact h.sub o' ho'
      · obtain ⟨os, h2, h3, h4⟩ := h.ovs
        have e3 : w'.overrides i var = (addOverride i (ovName var a.1)
            (w.shadow i (ovName var a.1)) (var, o)).overrides i var := by
          unfold World.overrides
          rw [← em, od_modVar, hup]
          have : ∀ l, ((addOverride i (ovName var a.1) (w.shadow i (ovName var a.1)) (var, o)).modVar
              i (ovName var a.1) fun v => { v with content := some a.2 }).pairs l =
              (addOverride i (ovName var a.1) (w.shadow i (ovName var a.1)) (var, o)).pairs l := by
            intro l
            unfold World.pairs
            rw [objs_modVar]
          rw [funext this]
        have e4 : (w.shadow i (ovName var a.1)).overrides i var = w.overrides i var := by
          unfold World.overrides
          rw [od_shadow]
          have : ∀ l, (w.shadow i (ovName var a.1)).pairs l = w.pairs l := by
            intro l
            unfold World.pairs
            rw [objs_shadow]
          rw [funext this]
        have e5 := overrides_addOverride hwS hiS (ovName var a.1) (var, o)
        dsimp only at e5
        rw [e4] at e5
        have mem : (ovName var a.1, o) ∈ w.overrides i var ↔ o ∈ os := by
          rw [h2, List.mem_map]
          constructor
          · rintro ⟨x, hx, hx2⟩
            rw [← (Prod.mk.inj hx2).2]; exact hx
          · intro hx
            exact ⟨o, hx, by rw [e1]⟩
        by_cases c : o ∈ os
        · refine ⟨os, ?_, h3, fun o' => ?_⟩
          · rw [e3, e5, if_pos (mem.2 c), h2]
          · rw [lastOf_append]
            by_cases c2 : a.1 = some o'
            · rw [if_pos c2]
              have : o = o' := Option.some.inj (e1.symm.trans c2)
              exact ⟨fun _ => rfl, fun _ => this ▸ c⟩
            · rw [if_neg c2]; exact h4 o'
        · refine ⟨os ++ [o], ?_, fun x hx => ?_, fun o' => ?_⟩
          · rw [e3, e5, if_neg fun x => c (mem.1 x), h2, List.map_append, e1]
            rfl
          · rcases List.mem_append.1 hx with hx | hx
            · exact h3 x hx
            · rw [List.mem_singleton.1 hx]; exact ho
          · rw [lastOf_append, List.mem_append, List.mem_singleton]
            by_cases c2 : a.1 = some o'
            · rw [if_pos c2]
              have : o = o' := Option.some.inj (e1.symm.trans c2)
              exact ⟨fun _ => rfl, fun _ => .inr this.symm⟩
            · rw [if_neg c2, ← h4 o']
              exact ⟨fun x => x.elim id fun y => absurd (by rw [e1, y]) c2, .inl⟩

theorem Hist.run {w w' : World} {i : Nat} {var : Str} {pre : List (Option Str × Str)}
    (h : Hist w i var pre) (hv : ':' ∉ var) (as : List (Option Str × Str))
    (ha : ∀ a ∈ as, ∀ x, a.1 = some x → Simple x)
    (e : assignAll w i var as = some w') : Hist w' i var (pre ++ as) := by
  induction as generalizing w pre with
  | nil =>
    rw [← Option.some.inj e, List.append_nil]
    exact h
  | cons a as ih =>
    unfold assignAll at e
    cases e1 : setVar w [] i (ovName var a.1) a.2 true with
    | none => rw [e1] at e; cases e
    | some w1 =>
      rw [e1] at e
      have := ih (h.step hv a (ha a List.mem_cons_self) e1)
        (fun b hb => ha b (List.mem_cons_of_mem _ hb)) e
      rwa [List.append_assoc] at this

end Bb.Data
