import Verif.Bb.CowSpec
/-!
# Lemmas about copy-on-write dictionaries
-/

namespace Bb.Cow
open Py Spec

variable {I M : Type}

/-- An attribute of the class itself. -/
def Heap.slot (h : Heap I M) (n : Nat) (a : Str) : Option (Val I) := (h.own n).lookup a

theorem lookup_filter {α : Type} (l : List (Str × α)) (a b : Str) :
    (l.filter (fun e => e.1 ≠ a)).lookup b = if b = a then none else l.lookup b := by
  induction l with
  | nil => simp
  | cons e l ih =>
    obtain ⟨x, v⟩ := e
    by_cases hx : x = a
    · subst hx
      rw [List.filter_cons_of_neg (by simp), ih, List.lookup_cons]
      by_cases hb : b = x
      · rw [if_pos hb, if_pos hb]
      · rw [if_neg hb, if_neg hb]
        have : (b == x) = false := by simpa using hb
        rw [this]
    · rw [List.filter_cons_of_pos (by simpa using hx), List.lookup_cons, List.lookup_cons, ih]
      by_cases hb : b = x
      · subst hb
        simp [hx]
      · have : (b == x) = false := by simpa using hb
        rw [this]

theorem lookup_put (l : List (Str × Val I)) (a b : Str) (v : Val I) :
    (put l a v).lookup b = if b = a then some v else l.lookup b := by
  unfold put
  rw [List.lookup_cons, lookup_filter]
  by_cases hb : b = a
  · simp [hb]
  · have : (b == a) = false := by simpa using hb
    rw [this, if_neg hb, if_neg hb]

theorem own_modify (h : Heap I M) (n m : Nat) (g : List (Str × Val I) → List (Str × Val I))
    (o : List M) :
    Heap.own { nodes := h.nodes.modify n fun c => { c with own := g c.own }, objs := o } m =
      if m = n ∧ n < h.nodes.length then g (h.own n) else h.own m := by
  unfold Heap.own
  rw [List.getElem?_modify]
  by_cases hm : n = m
  · subst hm
    by_cases hl : n < h.nodes.length
    · rw [if_pos ⟨rfl, hl⟩]
      simp [List.getElem?_eq_getElem hl]
    · rw [if_neg (fun x => hl x.2)]
      rw [List.getElem?_eq_none (by omega)]
      rfl
  · rw [if_neg (fun x => hm x.1.symm)]
    simp [hm]

theorem mro_modify (h : Heap I M) (n m : Nat) (g : List (Str × Val I) → List (Str × Val I))
    (o : List M) :
    Heap.mro { nodes := h.nodes.modify n fun c => { c with own := g c.own }, objs := o } m =
      h.mro m := by
  unfold Heap.mro
  rw [List.getElem?_modify]
  by_cases hm : n = m
  · subst hm
    cases h.nodes[n]? <;> simp
  · simp [hm]

theorem mro_setattr (h : Heap I M) (n : Nat) (a : Str) (v : Val I) (m : Nat) :
    (h.setattr n a v).mro m = h.mro m := mro_modify h n m (fun o => put o a v) h.objs

theorem len_setattr (h : Heap I M) (n : Nat) (a : Str) (v : Val I) :
    (h.setattr n a v).nodes.length = h.nodes.length := by
  unfold Heap.setattr
  rw [List.length_modify]

theorem objs_setattr (h : Heap I M) (n : Nat) (a : Str) (v : Val I) :
    (h.setattr n a v).objs = h.objs := rfl

theorem slot_setattr (h : Heap I M) (n : Nat) (a : Str) (v : Val I) (m : Nat) (b : Str) :
    (h.setattr n a v).slot m b =
      if m = n ∧ b = a ∧ n < h.nodes.length then some v else h.slot m b := by
  unfold Heap.slot Heap.setattr
  rw [own_modify h n m (fun o => put o a v) h.objs]
  by_cases hm : m = n ∧ n < h.nodes.length
  · rw [if_pos hm, lookup_put]
    obtain ⟨rfl, hl⟩ := hm
    by_cases hb : b = a
    · rw [if_pos hb, if_pos ⟨rfl, hb, hl⟩]
    · rw [if_neg hb, if_neg (fun x => hb x.2.1)]
  · rw [if_neg hm, if_neg (fun x => hm ⟨x.1, x.2.2⟩)]

theorem slot_delattr (h h' : Heap I M) (n : Nat) (a : Str) (e : h.delattr n a = some h')
    (m : Nat) (b : Str) : h'.slot m b = if m = n ∧ b = a then none else h.slot m b := by
  unfold Heap.delattr at e
  by_cases hs : ((h.own n).lookup a).isSome
  · rw [if_pos hs] at e
    cases e
    unfold Heap.slot
    rw [own_modify h n m (fun o => o.filter (fun e => e.1 ≠ a)) h.objs]
    by_cases hm : m = n ∧ n < h.nodes.length
    · rw [if_pos hm, lookup_filter]
      obtain ⟨rfl, hl⟩ := hm
      by_cases hb : b = a
      · rw [if_pos hb, if_pos ⟨rfl, hb⟩]
      · rw [if_neg hb, if_neg (fun x => hb x.2)]
    · rw [if_neg hm]
      by_cases hx : m = n ∧ b = a
      · rw [if_pos hx]
        obtain ⟨rfl, rfl⟩ := hx
        have : ¬ m < h.nodes.length := fun x => hm ⟨rfl, x⟩
        unfold Heap.own
        rw [List.getElem?_eq_none (by omega)]
        rfl
      · rw [if_neg hx]
  · rw [if_neg hs] at e
    cases e

theorem delattr_rest (h h' : Heap I M) (n : Nat) (a : Str) (e : h.delattr n a = some h') :
    (∀ m, h'.mro m = h.mro m) ∧ h'.objs = h.objs ∧ h'.nodes.length = h.nodes.length := by
  unfold Heap.delattr at e
  by_cases hs : ((h.own n).lookup a).isSome
  · rw [if_pos hs] at e
    cases e
    exact ⟨fun m => mro_modify h n m (fun o => o.filter (fun e => e.1 ≠ a)) h.objs, rfl,
      List.length_modify _ _ _⟩
  · rw [if_neg hs] at e
    cases e

theorem slot_none {h : Heap I M} {n : Nat} (hn : ¬ n < h.nodes.length) (a : Str) :
    h.slot n a = none := by
  unfold Heap.slot Heap.own
  rw [List.getElem?_eq_none (by omega)]
  rfl

theorem mro_none {h : Heap I M} {n : Nat} (hn : ¬ n < h.nodes.length) : h.mro n = [] := by
  unfold Heap.mro
  rw [List.getElem?_eq_none (by omega)]
  rfl

theorem slot_copy (h : Heap I M) (n m : Nat) (a : Str) : (h.copy n).slot m a = h.slot m a := by
  unfold Heap.slot Heap.own Heap.copy
  dsimp only
  by_cases hm : m < h.nodes.length
  · rw [List.getElem?_append_left hm]
  · rw [List.getElem?_eq_none (l := h.nodes) (by omega), List.getElem?_append_right (by omega)]
    by_cases e : m - h.nodes.length = 0
    · rw [e]; rfl
    · rw [List.getElem?_eq_none (by simp; omega)]

theorem mro_copy (h : Heap I M) (n m : Nat) : (h.copy n).mro m =
    if m = h.nodes.length then h.nodes.length :: h.mro n else h.mro m := by
  show ((((h.nodes ++ [_])[m]?).map Node.mro).getD []) = _
  by_cases hm : m < h.nodes.length
  · rw [List.getElem?_append_left hm, if_neg (by omega)]
    rfl
  · by_cases e : m = h.nodes.length
    · rw [if_pos e, List.getElem?_append_right (by omega), e, Nat.sub_self]
      rfl
    · rw [if_neg e, List.getElem?_eq_none (by simp; omega), mro_none hm]
      rfl

theorem len_copy (h : Heap I M) (n : Nat) : (h.copy n).nodes.length = h.nodes.length + 1 := by
  unfold Heap.copy
  simp

/-- What holds of all heaps that the program makes. -/
structure WF (h : Heap I M) : Prop where
  head : ∀ n, n < h.nodes.length → ∃ t, h.mro n = n :: t
  below : ∀ n m, m ∈ h.mro n → m < h.nodes.length
  refs : ∀ n a l, h.slot n a = some (.ref l) → endsWith a MUTABLE = true ∧ l < h.objs.length
  inj : ∀ n a n' a' l, h.slot n a = some (.ref l) → h.slot n' a' = some (.ref l) → n = n' ∧ a = a'

theorem endsWith_mut (k : Str) : endsWith (k ++ MUTABLE) MUTABLE = true := endsWith_iff.2 ⟨k, rfl⟩

theorem wf_base : WF (base : Heap I M) := by
  have hs : ∀ n a, (base : Heap I M).slot n a = none := by
    intro n a
    cases n with
    | zero => rfl
    | succ n => exact slot_none (show ¬ n + 1 < 1 by omega) a
  refine ⟨fun n hn => ?_, fun n m hm => ?_, fun n a l e => ?_, fun n a n' a' l e _ => ?_⟩
  · have : n = 0 := by have : n < 1 := hn; omega
    subst this
    exact ⟨[], rfl⟩
  · cases n with
    | zero =>
      have : m ∈ [0] := hm
      have : m = 0 := by simpa using this
      subst this
      exact Nat.one_pos
    | succ n => rw [mro_none (show ¬ n + 1 < 1 by omega)] at hm; cases hm
  · rw [hs] at e; cases e
  · rw [hs] at e; cases e

/-- Setting an attribute to something that is not a mutable object. -/
theorem wf_setattr {h : Heap I M} (w : WF h) (n : Nat) (a : Str) (v : Val I)
    (hv : ∀ l, v ≠ .ref l) : WF (h.setattr n a v) := by
  refine ⟨fun m hm => ?_, fun m x hx => ?_, fun m b l e => ?_, fun m b m' b' l e e' => ?_⟩
  · rw [len_setattr] at hm; rw [mro_setattr]; exact w.head m hm
  · rw [mro_setattr] at hx; rw [len_setattr]; exact w.below m x hx
  · rw [slot_setattr] at e
    by_cases c : m = n ∧ b = a ∧ n < h.nodes.length
    · rw [if_pos c] at e; exact absurd (Option.some.inj e) (hv l)
    · rw [if_neg c] at e; exact w.refs m b l e
  · rw [slot_setattr] at e e'
    by_cases c : m = n ∧ b = a ∧ n < h.nodes.length
    · rw [if_pos c] at e; exact absurd (Option.some.inj e) (hv l)
    · by_cases c' : m' = n ∧ b' = a ∧ n < h.nodes.length
      · rw [if_pos c'] at e'; exact absurd (Option.some.inj e') (hv l)
      · rw [if_neg c] at e; rw [if_neg c'] at e'; exact w.inj m b m' b' l e e'

/-- A new object as an attribute. -/
def Heap.setNew (h : Heap I M) (n : Nat) (a : Str) (m : M) : Heap I M :=
  ({ h with objs := h.objs ++ [m] }).setattr n a (.ref h.objs.length)

theorem slot_setNew (h : Heap I M) (n : Nat) (a : Str) (c : M) (m : Nat) (b : Str) :
    (h.setNew n a c).slot m b =
      if m = n ∧ b = a ∧ n < h.nodes.length then some (.ref h.objs.length) else h.slot m b :=
  slot_setattr { h with objs := h.objs ++ [c] } n a (.ref h.objs.length) m b

theorem mro_setNew (h : Heap I M) (n : Nat) (a : Str) (c : M) (m : Nat) :
    (h.setNew n a c).mro m = h.mro m :=
  mro_setattr { h with objs := h.objs ++ [c] } n a (.ref h.objs.length) m

theorem len_setNew (h : Heap I M) (n : Nat) (a : Str) (c : M) :
    (h.setNew n a c).nodes.length = h.nodes.length :=
  len_setattr { h with objs := h.objs ++ [c] } n a (.ref h.objs.length)

theorem objs_setNew (h : Heap I M) (n : Nat) (a : Str) (c : M) :
    (h.setNew n a c).objs = h.objs ++ [c] := rfl

theorem wf_setNew {h : Heap I M} (w : WF h) (n : Nat) (a : Str) (c : M)
    (ha : endsWith a MUTABLE = true) : WF (h.setNew n a c) := by
  refine ⟨fun m hm => ?_, fun m x hx => ?_, fun m b l e => ?_, fun m b m' b' l e e' => ?_⟩
  · rw [len_setNew] at hm; rw [mro_setNew]; exact w.head m hm
  · rw [mro_setNew] at hx; rw [len_setNew]; exact w.below m x hx
  · rw [slot_setNew] at e
    rw [objs_setNew, List.length_append, List.length_singleton]
    by_cases c : m = n ∧ b = a ∧ n < h.nodes.length
    · rw [if_pos c] at e
      cases e
      exact ⟨c.2.1 ▸ ha, by omega⟩
    · rw [if_neg c] at e
      have := w.refs m b l e
      exact ⟨this.1, by omega⟩
  · rw [slot_setNew] at e e'
    by_cases c : m = n ∧ b = a ∧ n < h.nodes.length
    · rw [if_pos c] at e
      by_cases c' : m' = n ∧ b' = a ∧ n < h.nodes.length
      · exact ⟨c.1.trans c'.1.symm, c.2.1.trans c'.2.1.symm⟩
      · rw [if_neg c'] at e'
        cases e
        have := (w.refs _ _ _ e').2
        omega
    · rw [if_neg c] at e
      by_cases c' : m' = n ∧ b' = a ∧ n < h.nodes.length
      · rw [if_pos c'] at e'
        cases e'
        have := (w.refs _ _ _ e).2
        omega
      · rw [if_neg c'] at e'; exact w.inj m b m' b' l e e'

theorem wf_copy {h : Heap I M} (w : WF h) (n : Nat) : WF (h.copy n) := by
  refine ⟨fun m hm => ?_, fun m x hx => ?_, fun m b l e => ?_, fun m b m' b' l e e' => ?_⟩
  · rw [len_copy] at hm
    rw [mro_copy]
    by_cases c : m = h.nodes.length
    · subst c; rw [if_pos rfl]; exact ⟨_, rfl⟩
    · rw [if_neg c]; exact w.head m (by omega)
  · rw [len_copy]
    rw [mro_copy] at hx
    by_cases c : m = h.nodes.length
    · rw [if_pos c] at hx
      rcases List.mem_cons.1 hx with rfl | hx
      · omega
      · have := w.below n x hx; omega
    · rw [if_neg c] at hx
      have := w.below m x hx; omega
  · rw [slot_copy] at e; exact w.refs m b l e
  · rw [slot_copy] at e e'; exact w.inj m b m' b' l e e'

theorem wf_delattr {h h' : Heap I M} (w : WF h) (n : Nat) (a : Str)
    (e : h.delattr n a = some h') : WF h' := by
  obtain ⟨h1, h2, h3⟩ := delattr_rest h h' n a e
  have hs := slot_delattr h h' n a e
  refine ⟨fun m hm => ?_, fun m x hx => ?_, fun m b l e => ?_, fun m b m' b' l e e' => ?_⟩
  · rw [h3] at hm; rw [h1]; exact w.head m hm
  · rw [h1] at hx; rw [h3]; exact w.below m x hx
  · rw [hs] at e
    by_cases c : m = n ∧ b = a
    · rw [if_pos c] at e; cases e
    · rw [if_neg c] at e; rw [h2]; exact w.refs m b l e
  · rw [hs] at e e'
    by_cases c : m = n ∧ b = a
    · rw [if_pos c] at e; cases e
    · by_cases c' : m' = n ∧ b' = a
      · rw [if_pos c'] at e'; cases e'
      · rw [if_neg c] at e; rw [if_neg c'] at e'; exact w.inj m b m' b' l e e'

/-- A change of the content of an object. -/
def Heap.touch (h : Heap I M) (l : Nat) (f : M → M) : Heap I M :=
  { h with objs := h.objs.modify l f }

theorem wf_touch {h : Heap I M} (w : WF h) (l : Nat) (f : M → M) : WF (h.touch l f) := by
  refine ⟨w.head, w.below, fun m b l' e => ?_, w.inj⟩
  have := w.refs m b l' e
  refine ⟨this.1, ?_⟩
  show l' < (h.objs.modify l f).length
  rw [List.length_modify]
  exact this.2

/-! ### Reading -/

theorem find_nil (h : Heap I M) (a : Str) : h.find [] a = none := rfl

theorem find_cons (h : Heap I M) (n : Nat) (ns : List Nat) (a : Str) :
    h.find (n :: ns) a = (h.slot n a).or (h.find ns a) := by
  show List.findSome? _ (n :: ns) = _
  rw [List.findSome?_cons]
  unfold Heap.slot
  cases (h.own n).lookup a <;> rfl

theorem find_slot {h : Heap I M} {ns : List Nat} {a : Str} {v : Val I} (e : h.find ns a = some v) :
    ∃ n ∈ ns, h.slot n a = some v := by
  induction ns with
  | nil => cases e
  | cons n ns ih =>
    rw [find_cons] at e
    cases hs : h.slot n a with
    | some x => rw [hs] at e; exact ⟨n, List.mem_cons_self, by rw [hs]; exact e⟩
    | none =>
      rw [hs] at e
      obtain ⟨m, hm, hv⟩ := ih e
      exact ⟨m, List.mem_cons_of_mem _ hm, hv⟩

theorem find_congr {h h' : Heap I M} {ns : List Nat} {a : Str}
    (e : ∀ n ∈ ns, h'.slot n a = h.slot n a) : h'.find ns a = h.find ns a := by
  induction ns with
  | nil => rfl
  | cons n ns ih =>
    rw [find_cons, find_cons, e n List.mem_cons_self, ih fun m hm => e m (List.mem_cons_of_mem _ hm)]

theorem getattr_ref {h : Heap I M} {n : Nat} {a : Str} {l : Nat}
    (e : h.getattr n a = some (.ref l)) : ∃ m ∈ h.mro n, h.slot m a = some (.ref l) := by
  unfold Heap.getattr at e
  cases hf : h.find (h.mro n) a with
  | some v => rw [hf] at e; cases e; exact find_slot hf
  | none =>
    rw [hf] at e
    by_cases hr : a ∈ reserved
    · rw [if_pos hr] at e; cases e
    · rw [if_neg hr] at e; cases e

/-- The value of the own class comes first. -/
theorem getattr_own {h : Heap I M} (w : WF h) {n : Nat} {a : Str} {v : Val I}
    (e : h.slot n a = some v) : h.getattr n a = some v := by
  have hn : n < h.nodes.length := by
    rcases Nat.lt_or_ge n h.nodes.length with hn | hn
    · exact hn
    · rw [slot_none (by omega)] at e; cases e
  obtain ⟨t, ht⟩ := w.head n hn
  unfold Heap.getattr
  rw [ht, find_cons, e]
  rfl

/-- Reading without the right to change. -/
theorem getitem_ro {h : Heap I M} (w : WF h) (n : Nat) (k : Str) :
    h.getitem n k true = (h, unmark ((h.getattr n k).or (h.getattr n (k ++ MUTABLE)))) := by
  unfold Heap.getitem
  cases h.getattr n k with
  | some v => rfl
  | none =>
    unfold Heap.getmutable
    cases hs : (h.own n).lookup (k ++ MUTABLE) with
    | some v =>
      have := getattr_own w (show h.slot n (k ++ MUTABLE) = some v from hs)
      rw [this]
      rfl
    | none =>
      cases h.getattr n (k ++ MUTABLE) <;> rfl

theorem view_eq {h : Heap I M} (w : WF h) (n : Nat) (k : Str) :
    view h n k = ((h.getattr n k).or (h.getattr n (k ++ MUTABLE))).bind (see h) := by
  unfold view
  rw [getitem_ro w]
  cases e : (h.getattr n k).or (h.getattr n (k ++ MUTABLE)) with
  | none => rfl
  | some v => cases v <;> rfl

/-! ### Reading with the right to change, and changing -/

theorem copyIn_ref {h : Heap I M} (n : Nat) (a : Str) (l : Nat) (hl : l < h.objs.length) :
    h.copyIn n a (.ref l) = (h.setNew n a h.objs[l], .ref h.objs.length) := by
  unfold Heap.copyIn
  dsimp only
  rw [List.getElem?_eq_getElem hl]
  rfl

/-- The four things that reading with the right to change can do. -/
theorem getitem_rw {h : Heap I M} (w : WF h) (n : Nat) (k : Str) :
    (∃ v, h.getattr n k = some v ∧ h.getitem n k false = (h, unmark (some v))) ∨
    (h.getattr n k = none ∧ h.getattr n (k ++ MUTABLE) = none ∧ h.getitem n k false = (h, none)) ∨
    (∃ v, h.getattr n k = none ∧ h.getattr n (k ++ MUTABLE) = some v ∧
      h.slot n (k ++ MUTABLE) = some v ∧ h.getitem n k false = (h, unmark (some v))) ∨
    (∃ l, ∃ hl : l < h.objs.length, h.getattr n k = none ∧
      h.getattr n (k ++ MUTABLE) = some (.ref l) ∧ h.slot n (k ++ MUTABLE) = none ∧
      h.getitem n k false = (h.setNew n (k ++ MUTABLE) h.objs[l], some (.ref h.objs.length))) ∨
    (∃ v, (∀ l, v ≠ .ref l) ∧ h.getattr n k = none ∧ h.getattr n (k ++ MUTABLE) = some v ∧
      h.slot n (k ++ MUTABLE) = none ∧
      h.getitem n k false = (h.setattr n (k ++ MUTABLE) v, unmark (some v))) := by
  unfold Heap.getitem
  cases h1 : h.getattr n k with
  | some v => exact .inl ⟨v, rfl, rfl⟩
  | none =>
    refine .inr ?_
    unfold Heap.getmutable
    cases hs : (h.own n).lookup (k ++ MUTABLE) with
    | some v =>
      exact .inr (.inl ⟨v, rfl, getattr_own w (show h.slot n (k ++ MUTABLE) = some v from hs), hs,
        rfl⟩)
    | none =>
      cases h2 : h.getattr n (k ++ MUTABLE) with
      | none => exact .inl ⟨rfl, rfl, rfl⟩
      | some v =>
        refine .inr (.inr ?_)
        by_cases hv : ∃ l, v = .ref l
        · obtain ⟨l, rfl⟩ := hv
          obtain ⟨m, _, hm⟩ := getattr_ref h2
          have hl := (w.refs _ _ _ hm).2
          refine .inl ⟨l, hl, rfl, rfl, hs, ?_⟩
          dsimp only
          rw [copyIn_ref n _ l hl]
          rfl
        · refine .inr ⟨v, fun l e => hv ⟨l, e⟩, rfl, rfl, hs, ?_⟩
          cases v with
          | ref l => exact absurd ⟨l, rfl⟩ hv
          | _ => rfl

theorem wf_read {h : Heap I M} (w : WF h) (n : Nat) (k : Str) : WF (h.getitem n k false).1 := by
  rcases getitem_rw w n k with ⟨v, _, e⟩ | ⟨_, _, e⟩ | ⟨v, _, _, _, e⟩ | ⟨l, hl, _, _, _, e⟩ |
    ⟨v, hv, _, _, _, e⟩ <;> rw [e]
  · exact w
  · exact w
  · exact w
  · exact wf_setNew w _ _ _ (endsWith_mut k)
  · exact wf_setattr w _ _ _ hv

theorem update_eq (h : Heap I M) (n : Nat) (k : Str) (f : M → M) :
    (∃ l, (h.getitem n k false).2 = some (.ref l) ∧
      h.update n k f = (h.getitem n k false).1.touch l f) ∨
    ((∀ l, (h.getitem n k false).2 ≠ some (.ref l)) ∧
      h.update n k f = (h.getitem n k false).1) := by
  unfold Heap.update
  dsimp only
  cases e : (h.getitem n k false).2 with
  | none => exact .inr ⟨fun l x => (by cases x), rfl⟩
  | some v =>
    cases v with
    | ref l => exact .inl ⟨l, rfl, rfl⟩
    | _ => exact .inr ⟨fun l x => (by cases x), rfl⟩

theorem wf_update {h : Heap I M} (w : WF h) (n : Nat) (k : Str) (f : M → M) :
    WF (h.update n k f) := by
  rcases update_eq h n k f with ⟨l, _, e⟩ | ⟨_, e⟩ <;> rw [e]
  · exact wf_touch (wf_read w n k) l f
  · exact wf_read w n k

theorem wf_run {h : Heap I M} (w : WF h) (op : Op I M) : WF (op.run h) := by
  cases op with
  | copy n => exact wf_copy w n
  | set n k v =>
    cases v with
    | imm i => exact wf_setattr w n k _ fun l x => (by cases x)
    | empty => exact wf_setattr w n k _ fun l x => (by cases x)
    | obj m => exact wf_setNew w n _ m (endsWith_mut k)
  | del n k => exact wf_setattr w n k _ fun l x => (by cases x)
  | read n k => exact wf_read w n k
  | update n k f => exact wf_update w n k f
  | revert n k =>
    show WF ((h.revertitem n k).getD h)
    cases e : h.revertitem n k with
    | none => exact w
    | some h' => exact wf_delattr w n _ e

theorem wf_runAll {h : Heap I M} (w : WF h) (ops : List (Op I M)) : WF (runAll h ops) := by
  induction ops generalizing h with
  | nil => exact w
  | cons op ops ih => exact ih (wf_run w op)

/-! ### What is not touched -/

/-- Everything but dictionary `c` is the same. -/
structure Frame (c : Nat) (h h' : Heap I M) : Prop where
  mro : ∀ n, n < h.nodes.length → h'.mro n = h.mro n
  len : h.nodes.length ≤ h'.nodes.length
  slot : ∀ n a, n ≠ c → h'.slot n a = h.slot n a
  obj : ∀ n a l, n ≠ c → h.slot n a = some (.ref l) → h'.objs[l]? = h.objs[l]?

theorem Frame.refl (c : Nat) (h : Heap I M) : Frame c h h :=
  ⟨fun _ _ => rfl, Nat.le_refl _, fun _ _ _ => rfl, fun _ _ _ _ _ => rfl⟩

theorem frame_setattr (h : Heap I M) (c : Nat) (a : Str) (v : Val I) :
    Frame c h (h.setattr c a v) := by
  refine ⟨fun n _ => mro_setattr h c a v n, by rw [len_setattr]; exact Nat.le_refl _,
    fun n b hn => ?_, fun _ _ _ _ _ => rfl⟩
  rw [slot_setattr, if_neg (fun x => hn x.1)]

theorem frame_setNew {h : Heap I M} (w : WF h) (c : Nat) (a : Str) (m : M) :
    Frame c h (h.setNew c a m) := by
  refine ⟨fun n _ => mro_setNew h c a m n, by rw [len_setNew]; exact Nat.le_refl _,
    fun n b hn => ?_, fun n b l hn e => ?_⟩
  · rw [slot_setNew, if_neg (fun x => hn x.1)]
  · rw [objs_setNew, List.getElem?_append_left (w.refs _ _ _ e).2]

theorem frame_delattr {h h' : Heap I M} (c : Nat) (a : Str) (e : h.delattr c a = some h') :
    Frame c h h' := by
  obtain ⟨h1, h2, h3⟩ := delattr_rest h h' c a e
  refine ⟨fun n _ => h1 n, by rw [h3]; exact Nat.le_refl _, fun n b hn => ?_,
    fun n b l hn e => by rw [h2]⟩
  rw [slot_delattr h h' c a e, if_neg (fun x => hn x.1)]

theorem frame_read {h : Heap I M} (w : WF h) (n : Nat) (k : Str) :
    Frame n h (h.getitem n k false).1 := by
  rcases getitem_rw w n k with ⟨v, _, e⟩ | ⟨_, _, e⟩ | ⟨v, _, _, _, e⟩ | ⟨l, hl, _, _, _, e⟩ |
    ⟨v, hv, _, _, _, e⟩ <;> rw [e]
  · exact Frame.refl n h
  · exact Frame.refl n h
  · exact Frame.refl n h
  · exact frame_setNew w n _ _
  · exact frame_setattr h n _ _

/-- An object that is read with the right to change belongs to the dictionary it is read from,
if the dictionary exists and the key does not look like a name made for a mutable value. -/
theorem read_owned {h : Heap I M} (w : WF h) (n : Nat) (k : Str) (hk : ¬ endsWith k MUTABLE = true)
    (l : Nat) (e : (h.getitem n k false).2 = some (.ref l)) (hn : n < h.nodes.length) :
    (h.getitem n k false).1.slot n (k ++ MUTABLE) = some (.ref l) := by
  rcases getitem_rw w n k with ⟨v, hv, e'⟩ | ⟨_, _, e'⟩ | ⟨v, _, _, hs, e'⟩ |
    ⟨l', hl, _, _, _, e'⟩ | ⟨v, hv, _, _, _, e'⟩ <;> rw [e'] at e ⊢
  · cases v with
    | ref l' =>
      obtain ⟨m, _, hm⟩ := getattr_ref hv
      exact absurd (w.refs _ _ _ hm).1 hk
    | _ => cases e
  · cases e
  · cases v with
    | ref l' => cases e; exact hs
    | _ => cases e
  · cases e
    rw [slot_setNew, if_pos ⟨rfl, rfl, hn⟩]
  · cases v with
    | ref l' => exact absurd rfl (hv l')
    | _ => cases e

/-- A dictionary that does not exist has no mutable values. -/
theorem read_missing {h : Heap I M} (w : WF h) (n : Nat) (k : Str) (l : Nat)
    (hn : ¬ n < h.nodes.length) : (h.getitem n k false).2 ≠ some (.ref l) := by
  intro e
  have hg : ∀ a l, h.getattr n a ≠ some (.ref l) := by
    intro a l x
    obtain ⟨m, hm, _⟩ := getattr_ref x
    rw [mro_none hn] at hm
    cases hm
  rcases getitem_rw w n k with ⟨v, hv, e'⟩ | ⟨_, _, e'⟩ | ⟨v, _, hv, _, e'⟩ |
    ⟨l', hl, _, hv, _, e'⟩ | ⟨v, hv, _, _, _, e'⟩ <;> rw [e'] at e
  · cases v with
    | ref l' => exact hg _ _ hv
    | _ => cases e
  · cases e
  · cases v with
    | ref l' => exact hg _ _ hv
    | _ => cases e
  · exact hg _ _ hv
  · cases v with
    | ref l' => exact hv l' rfl
    | _ => cases e

theorem getElem?_touch {α : Type} (l : List α) (i j : Nat) (f : α → α) (h : i ≠ j) :
    (l.modify i f)[j]? = l[j]? := by
  rw [List.getElem?_modify]
  simp [h]

theorem frame_update {h : Heap I M} (w : WF h) (n : Nat) (k : Str)
    (hk : ¬ endsWith k MUTABLE = true) (f : M → M) : Frame n h (h.update n k f) := by
  have hf := frame_read w n k
  rcases update_eq h n k f with ⟨l, hl, e⟩ | ⟨_, e⟩ <;> rw [e]
  · refine ⟨hf.mro, hf.len, hf.slot, fun m b l' hm hs => ?_⟩
    have hn : n < h.nodes.length := by
      rcases Nat.lt_or_ge n h.nodes.length with hn | hn
      · exact hn
      · exact absurd hl (read_missing w n k l (by omega))
    have ho := read_owned w n k hk l hl hn
    have hs' : (h.getitem n k false).1.slot m b = some (.ref l') := by
      rw [hf.slot m b hm, hs]
    have hne : l ≠ l' := by
      intro x
      subst x
      exact hm ((wf_read w n k).inj _ _ _ _ _ hs' ho).1
    show ((h.getitem n k false).1.objs.modify l f)[l']? = _
    rw [getElem?_touch _ _ _ _ hne, hf.obj m b l' hm hs]
  · exact hf

theorem frame_view {h h' : Heap I M} (w : WF h) (w' : WF h') (c n : Nat) (fr : Frame c h h')
    (hn : n < h.nodes.length) (hc : c ∉ h.mro n) (k : Str) : view h' n k = view h n k := by
  have hg : ∀ a, h'.getattr n a = h.getattr n a := by
    intro a
    unfold Heap.getattr
    rw [fr.mro n hn, find_congr fun m hm => fr.slot m a fun x => hc (x ▸ hm)]
  rw [view_eq w, view_eq w', hg, hg]
  have hsee : ∀ a v, h.getattr n a = some v → see h' v = see h v := by
    intro a v hv
    cases v with
    | ref l =>
      obtain ⟨m, hm, hs⟩ := getattr_ref hv
      show (h'.objs[l]?).map _ = _
      rw [fr.obj m a l (fun x => hc (x ▸ hm)) hs]
      rfl
    | _ => rfl
  cases e1 : h.getattr n k with
  | some v => exact hsee _ _ e1
  | none =>
    cases e2 : h.getattr n (k ++ MUTABLE) with
    | some v => exact hsee _ _ e2
    | none => rfl

end Bb.Cow
