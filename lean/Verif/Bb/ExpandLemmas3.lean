import Verif.Bb.ExpandLemmas2
/-! # Lemmas about expansion: texts with nested references -/

namespace Bb.Expand
open Py Spec

def Text.append : Text → Text → Text
  | .nil, b => b
  | .ch c r, b => .ch c (append r b)
  | .ref n r, b => .ref n (append r b)

theorem render_append : ∀ a b : Text, (Text.append a b).render = a.render ++ b.render
  | .nil, _ => rfl
  | .ch c r, b => by show c :: (Text.append r b).render = _; rw [render_append r b]; rfl
  | .ref n r, b => by
    show '$' :: '{' :: (n.render ++ '}' :: (Text.append r b).render) = '$' :: '{' :: (n.render ++ '}' :: r.render) ++ b.render
    rw [render_append r b, List.cons_append, List.cons_append, List.append_assoc]; rfl

theorem append_assoc : ∀ a b c : Text, Text.append (Text.append a b) c = Text.append a (Text.append b c)
  | .nil, _, _ => rfl
  | .ch x r, b, c => by show Text.ch x _ = Text.ch x _; rw [append_assoc r b c]
  | .ref n r, b, c => by show Text.ref n _ = Text.ref n _; rw [append_assoc r b c]

/-- One layer of evaluation: the values of variables are given.  The number counts the references that are
replaced. -/
inductive EvL (V : Str → Option Text → Prop) : Text → Text → Nat → Prop where
  | nil : EvL V .nil .nil 0
  | ch {c r r' m} : EvL V r r' m → EvL V (.ch c r) (.ch c r') m
  | set {n n' a u r r' b} : EvL V n n' a → isName n'.render = true → V n'.render (some u) → EvL V r r' b →
      EvL V (.ref n r) (Text.append u r') (a + b + 1)
  | unset {n n' a r r' b} : EvL V n n' a → isName n'.render = true → V n'.render none → EvL V r r' b →
      EvL V (.ref n r) (.ref n' r') (a + b)
  | noName {n n' a r r' b} : EvL V n n' a → NoName n'.render → EvL V r r' b → EvL V (.ref n r) (.ref n' r') (a + b)

theorem EvL.mono {V V' : Str → Option Text → Prop} (h : ∀ k o, V k o → V' k o) {t u : Text} {m : Nat}
    (he : EvL V t u m) : EvL V' t u m := by
  induction he with
  | nil => exact .nil
  | ch _ ih => exact .ch ih
  | set _ hn hv _ ih1 ih2 => exact .set ih1 hn (h _ _ hv) ih2
  | unset _ hn hv _ ih1 ih2 => exact .unset ih1 hn (h _ _ hv) ih2
  | noName _ hn _ ih1 ih2 => exact .noName ih1 hn ih2

theorem EvL.append {V : Str → Option Text → Prop} {a a' b b' : Text} {m m' : Nat} (ha : EvL V a a' m)
    (hb : EvL V b b' m') : EvL V (Text.append a b) (Text.append a' b') (m + m') := by
  induction ha with
  | nil => rw [Nat.zero_add]; exact hb
  | ch _ ih => exact .ch ih
  | @set n n' x u r r' y h1 hn hv _ _ ih2 =>
    have := EvL.set h1 hn hv ih2
    rw [show x + (y + m') + 1 = x + y + 1 + m' by omega] at this
    rwa [append_assoc]
  | unset h1 hn hv _ _ ih2 =>
    have := EvL.unset h1 hn hv ih2
    rwa [← Nat.add_assoc] at this
  | noName h1 hn _ _ ih2 =>
    have := EvL.noName h1 hn ih2
    rwa [← Nat.add_assoc] at this

theorem EvL.zero {V : Str → Option Text → Prop} {t u : Text} {m : Nat} (h : EvL V t u m) (hm : m = 0) : t = u := by
  induction h with
  | nil => rfl
  | ch _ ih => rw [ih hm]
  | set => cases hm
  | unset _ _ _ _ ih1 ih2 => rw [ih1 (by omega), ih2 (by omega)]
  | noName _ _ _ ih1 ih2 => rw [ih1 (by omega), ih2 (by omega)]

theorem EvL.mono_zero {V V' : Str → Option Text → Prop} (h : ∀ k, V k none → V' k none) {t u : Text} {m : Nat}
    (he : EvL V t u m) (hm : m = 0) : EvL V' t u m := by
  induction he with
  | nil => exact .nil
  | ch _ ih => exact .ch (ih hm)
  | set => cases hm
  | unset _ hn hv _ ih1 ih2 => exact .unset (ih1 (by omega)) hn (h _ hv) (ih2 (by omega))
  | noName _ hn _ ih1 ih2 => exact .noName (ih1 (by omega)) hn (ih2 (by omega))

/-- The result is settled. -/
theorem EvL.result {V : Str → Option Text → Prop} (hV : ∀ k u, V k (some u) → EvL V u u 0) {t u : Text} {m : Nat}
    (h : EvL V t u m) : EvL V u u 0 := by
  induction h with
  | nil => exact .nil
  | ch _ ih => exact .ch ih
  | set _ _ hv _ _ ih2 => exact (hV _ _ hv).append ih2
  | unset _ hn hv _ ih1 ih2 => exact .unset ih1 hn hv ih2
  | noName _ hn _ ih1 ih2 => exact .noName ih1 hn ih2

theorem EvL.functional {V V' : Str → Option Text → Prop} (hV : ∀ k o o', V k o → V' k o' → o = o') {t u : Text} {m : Nat}
    (h : EvL V t u m) : ∀ {u' m'}, EvL V' t u' m' → u = u' := by
  have hno : ∀ {k : Str}, isName k = true → ¬ NoName k := by
    intro k hk hn
    obtain ⟨h1, h2⟩ := isName_iff.1 hk
    rcases hn with rfl | ⟨a, c, b, rfl, _, hc, _⟩
    · exact h1 rfl
    · exact hc (nameChar_spec.1 (h2 c (List.mem_append_right _ List.mem_cons_self)))
  induction h with
  | nil => intro u' m' h; cases h; rfl
  | ch _ ih => intro u' m' h; cases h with | ch h => rw [ih h]
  | set h1 hn hv _ ih1 ih2 =>
    intro u' m' h
    cases h with
    | set g1 gn gv g2 =>
      rw [ih1 g1] at hv hn
      have := Option.some.inj (hV _ _ _ hv gv)
      rw [this, ih2 g2]
    | unset g1 gn gv g2 =>
      rw [ih1 g1] at hv
      cases hV _ _ _ hv gv
    | noName g1 gn g2 => rw [ih1 g1] at hn; exact absurd gn (hno hn)
  | unset h1 hn hv _ ih1 ih2 =>
    intro u' m' h
    cases h with
    | set g1 gn gv g2 =>
      rw [ih1 g1] at hv
      cases hV _ _ _ hv gv
    | unset g1 gn gv g2 => rw [ih1 g1, ih2 g2]
    | noName g1 gn g2 => rw [ih1 g1] at hn; exact absurd gn (hno hn)
  | noName h1 hn _ ih1 ih2 =>
    intro u' m' h
    cases h with
    | set g1 gn gv g2 => rw [ih1 g1] at hn; exact absurd hn (hno gn)
    | unset g1 gn gv g2 => rw [ih1 g1] at hn; exact absurd hn (hno gn)
    | noName g1 gn g2 => rw [ih1 g1, ih2 g2]

theorem name_not_noName {k : Str} (hk : isName k = true) : ¬ NoName k := by
  intro hn
  obtain ⟨h1, h2⟩ := isName_iff.1 hk
  rcases hn with rfl | ⟨a, c, b, rfl, _, hc, _⟩
  · exact h1 rfl
  · exact hc (nameChar_spec.1 (h2 c (List.mem_append_right _ List.mem_cons_self)))

/-! ## The pieces of a written text -/

/-- Does not begin with a name and a brace. -/
def Stops (k : Str) : Prop := ∃ a c b, k = a ++ c :: b ∧ (∀ x, x ∈ a → nameChar x = true) ∧ nameChar c = false ∧ c ≠ '}'

theorem refAt_stops {k y : Str} (h : Stops k) : refAt ('{' :: (k ++ y)) = none := by
  obtain ⟨a, c, b, rfl, ha, hc, hne⟩ := h
  show (if (a ++ c :: b ++ y).takeWhile nameChar ≠ [] ∧ ((a ++ c :: b ++ y).dropWhile nameChar).head? = some '}' then
    some ((a ++ c :: b ++ y).takeWhile nameChar) else none) = none
  rw [List.append_assoc, List.cons_append]
  have h1 := takeWhile_stop (b := b ++ y) ha hc
  have h3 : (a ++ c :: (b ++ y)).dropWhile nameChar = c :: (b ++ y) := by
    have := List.takeWhile_append_dropWhile (p := nameChar) (l := a ++ c :: (b ++ y))
    rw [h1] at this
    exact List.append_cancel_left this
  rw [h3]
  exact if_neg fun h => hne (Option.some.inj h.2)

theorem refAt_empty (y : Str) : refAt ('{' :: '}' :: y) = none := rfl

theorem noName_iff {k : Str} : NoName k ↔ k = [] ∨ Stops k := by
  unfold NoName Stops
  constructor
  · rintro (h | ⟨a, c, b, h1, h2, h3, h4⟩)
    · exact Or.inl h
    · refine Or.inr ⟨a, c, b, h1, fun x hx => nameChar_spec.2 (h2 x hx), ?_, h4⟩
      cases hc : nameChar c with
      | false => rfl
      | true => exact absurd (nameChar_spec.1 hc) h3
  · rintro (h | ⟨a, c, b, h1, h2, h3, h4⟩)
    · exact Or.inl h
    · refine Or.inr ⟨a, c, b, h1, fun x hx => nameChar_spec.1 (h2 x hx), fun hc => ?_, h4⟩
      rw [nameChar_spec.2 hc] at h3; cases h3

/-- A name, or something that does not end a reference too early. -/
def Good (k : Str) : Prop := isName k = true ∨ NoName k

theorem good_lead {V : Str → Option Text → Prop} {n n' : Text} {a : Nat} (h : EvL V n n' a) :
    ∀ l : Str, (∀ c, c ∈ l → nameChar c = true) → Good (l ++ n'.render) → Good (l ++ n.render) := by
  have dollar : ∀ (l s : Str), (∀ c, c ∈ l → nameChar c = true) → Good (l ++ '$' :: s) := fun l s hl =>
    Or.inr (noName_iff.2 (Or.inr ⟨l, '$', s, rfl, hl, by decide, by decide⟩))
  induction h with
  | nil => intro l _ h; exact h
  | @ch c r r' m _ ih =>
    intro l hl hg
    show Good (l ++ c :: r.render)
    replace hg : Good (l ++ c :: r'.render) := hg
    cases hc : nameChar c with
    | true =>
      have := ih (l ++ [c]) (fun x hx => by
        rcases List.mem_append.1 hx with hx | hx
        · exact hl x hx
        · rw [List.mem_singleton.1 hx]; exact hc) (by rw [List.append_assoc]; exact hg)
      rw [List.append_assoc] at this
      exact this
    | false =>
      refine Or.inr (noName_iff.2 (Or.inr ⟨l, c, r.render, rfl, hl, hc, ?_⟩))
      rcases hg with hg | hg
      · have := (isName_iff.1 hg).2 c (List.mem_append_right _ List.mem_cons_self)
        rw [hc] at this; cases this
      · rcases noName_iff.1 hg with hg | ⟨a, d, b, h1, h2, h3, h4⟩
        · exact absurd hg (by simp)
        · -- the first character that is not in names is the same
          have e1 := takeWhile_stop (b := r'.render) hl hc
          rw [h1, takeWhile_stop h2 h3] at e1
          subst e1
          have := List.append_cancel_left h1
          rw [(List.cons.inj this).1]
          exact h4
  | set => intro l hl _; exact dollar l _ hl
  | unset => intro l hl _; exact dollar l _ hl
  | noName => intro l hl _; exact dollar l _ hl

/-- All names in the text are such. -/
def AllGood : Text → Prop
  | .nil => True
  | .ch _ r => AllGood r
  | .ref n r => Good n.render ∧ AllGood n ∧ AllGood r

theorem EvL.good {V : Str → Option Text → Prop} {t u : Text} {m : Nat} (h : EvL V t u m) : AllGood t := by
  induction h with
  | nil => trivial
  | ch _ ih => exact ih
  | set h1 hn _ _ ih1 ih2 => exact ⟨good_lead h1 [] (fun _ h => (nomatch h)) (Or.inl hn), ih1, ih2⟩
  | unset h1 hn _ _ ih1 ih2 => exact ⟨good_lead h1 [] (fun _ h => (nomatch h)) (Or.inl hn), ih1, ih2⟩
  | noName h1 hn _ ih1 ih2 => exact ⟨good_lead h1 [] (fun _ h => (nomatch h)) (Or.inr hn), ih1, ih2⟩

def segs : Text → List Seg
  | .nil => []
  | .ch c r => .lit c :: segs r
  | .ref n r =>
    if isName n.render then .ref n.render :: segs r
    else .lit '$' :: .lit '{' :: (segs n ++ .lit '}' :: segs r)

theorem cut_stops : ∀ {t : Text}, Cut t → Stops t.render
  | .nil, h => h.elim
  | .ref _ _, h => h.elim
  | .ch c r, h => by
    unfold Cut at h
    split at h
    · rename_i hc
      obtain ⟨a, d, b, h1, h2, h3, h4⟩ := cut_stops h
      refine ⟨c :: a, d, b, by show c :: r.render = _; rw [h1]; rfl, fun x hx => ?_, h3, h4⟩
      rcases List.mem_cons.1 hx with rfl | hx
      · exact nameChar_spec.2 hc
      · exact h2 x hx
    · rename_i hc
      refine ⟨[], c, r.render, rfl, fun _ h => (nomatch h), ?_, h⟩
      cases hn : nameChar c with
      | false => rfl
      | true => exact absurd (nameChar_spec.1 hn) hc

/-- The pieces of a written text are those of its tree. -/
theorem scan_render : ∀ (t : Text), Plain t → AllGood t → ∀ w, scan 0 (t.render ++ w) = segs t ++ scan 0 w
  | .nil, _, _, w => rfl
  | .ch c r, hp, hg, w => by
    have ih := scan_render r hp.2 hg w
    show scan 0 (c :: (r.render ++ w)) = .lit c :: (segs r ++ scan 0 w)
    by_cases hc : c = '$'
    · subst hc
      rw [scan_dollar, ih]
      obtain ⟨c', r', rfl, h⟩ := hp.1 rfl
      by_cases hb : c' = '{'
      · subst hb
        exact refAt_stops (cut_stops (h rfl).1)
      · show refAt (c' :: (r'.render ++ w)) = none
        unfold refAt
        split
        · rename_i h; exact absurd (List.cons.inj h).1 hb
        · rfl
    · rw [scan_lit hc, ih]
  | .ref n r, hp, hg, w => by
    have ih2 := scan_render r hp.2 hg.2.2 w
    have e : (Text.ref n r).render ++ w = '$' :: '{' :: (n.render ++ '}' :: (r.render ++ w)) := by
      show '$' :: '{' :: (n.render ++ '}' :: r.render) ++ w = _
      rw [List.cons_append, List.cons_append, List.append_assoc]; rfl
    rw [e, segs]
    cases hn : isName n.render with
    | true => rw [scan_ref hn, ih2]; rfl
    | false =>
      have hno : refAt ('{' :: (n.render ++ '}' :: (r.render ++ w))) = none := by
        rcases hg.1 with h | h
        · rw [hn] at h; cases h
        · rcases noName_iff.1 h with h | h
          · rw [h]; exact refAt_empty _
          · exact refAt_stops h
      rw [scan_dollar hno, scan_lit (by decide), scan_render n hp.1 hg.2.1, scan_lit (by decide), ih2]
      show _ = (Seg.lit '$' :: Seg.lit '{' :: (segs n ++ Seg.lit '}' :: segs r)) ++ scan 0 w
      rw [List.cons_append, List.cons_append, List.append_assoc]; rfl

theorem EvL.no_dollar {V : Str → Option Text → Prop} {n n' : Text} {a : Nat} (h : EvL V n n' a) :
    '$' ∉ n.render → n = n' ∧ a = 0 := by
  have ref : ∀ {n r : Text}, '$' ∈ (Text.ref n r).render := List.mem_cons_self
  induction h with
  | nil => intro _; exact ⟨rfl, rfl⟩
  | ch _ ih =>
    intro hd
    obtain ⟨h1, h2⟩ := ih fun hm => hd (List.mem_cons_of_mem _ hm)
    exact ⟨by rw [h1], h2⟩
  | set => intro hd; exact absurd ref hd
  | unset => intro hd; exact absurd ref hd
  | noName => intro hd; exact absurd ref hd

/-- Something is replaced in the next pass. -/
theorem EvL.live {V : Str → Option Text → Prop} {t u : Text} {m : Nat} (h : EvL V t u m) (hm : 0 < m) :
    ∃ k v, Seg.ref k ∈ segs t ∧ V k (some v) := by
  induction h with
  | nil => cases hm
  | ch _ ih =>
    obtain ⟨k, v, h1, h2⟩ := ih hm
    exact ⟨k, v, List.mem_cons_of_mem _ h1, h2⟩
  | @set n n' a u r r' b h1 hn hv _ ih1 ih2 =>
    rw [segs]
    cases hn' : isName n.render with
    | true =>
      rw [if_pos rfl]
      have := (h1.no_dollar (dollar_not_name hn')).1
      subst this
      exact ⟨_, u, List.mem_cons_self, hv⟩
    | false =>
      rw [if_neg (by simp)]
      have ha : 0 < a := Nat.pos_of_ne_zero fun h0 => by
        rw [← h1.zero h0, hn'] at hn; cases hn
      obtain ⟨k, v, g1, g2⟩ := ih1 ha
      exact ⟨k, v, List.mem_cons_of_mem _ (List.mem_cons_of_mem _ (List.mem_append_left _ g1)), g2⟩
  | @unset n n' a r r' b h1 hn hv _ ih1 ih2 =>
    rw [segs]
    cases hn' : isName n.render with
    | true =>
      rw [if_pos rfl]
      have := (h1.no_dollar (dollar_not_name hn')).2
      obtain ⟨k, v, g1, g2⟩ := ih2 (by omega)
      exact ⟨k, v, List.mem_cons_of_mem _ g1, g2⟩
    | false =>
      rw [if_neg (by simp)]
      by_cases ha : 0 < a
      · obtain ⟨k, v, g1, g2⟩ := ih1 ha
        exact ⟨k, v, List.mem_cons_of_mem _ (List.mem_cons_of_mem _ (List.mem_append_left _ g1)), g2⟩
      · obtain ⟨k, v, g1, g2⟩ := ih2 (by omega)
        exact ⟨k, v, List.mem_cons_of_mem _ (List.mem_cons_of_mem _ (List.mem_append_right _
          (List.mem_cons_of_mem _ g1))), g2⟩
  | @noName n n' a r r' b h1 hn _ ih1 ih2 =>
    rw [segs]
    cases hn' : isName n.render with
    | true =>
      have := (h1.no_dollar (dollar_not_name hn')).1
      subst this
      exact absurd hn (name_not_noName hn')
    | false =>
      rw [if_neg (by simp)]
      by_cases ha : 0 < a
      · obtain ⟨k, v, g1, g2⟩ := ih1 ha
        exact ⟨k, v, List.mem_cons_of_mem _ (List.mem_cons_of_mem _ (List.mem_append_left _ g1)), g2⟩
      · obtain ⟨k, v, g1, g2⟩ := ih2 (by omega)
        exact ⟨k, v, List.mem_cons_of_mem _ (List.mem_cons_of_mem _ (List.mem_append_right _
          (List.mem_cons_of_mem _ g1))), g2⟩

/-! ## One pass -/

/-- The second text begins with the same characters, up to the first reference. -/
def Heads : Text → Text → Prop
  | .ch c r, t => ∃ t', t = .ch c t' ∧ Heads r t'
  | _, _ => True

theorem cut_heads : ∀ {r t : Text}, Cut r → Heads r t → Cut t
  | .nil, _, h, _ => h.elim
  | .ref _ _, _, h, _ => h.elim
  | .ch c r, t, h, hh => by
    obtain ⟨t', rfl, hh⟩ := hh
    unfold Cut at h ⊢
    split
    · rename_i hc
      rw [if_pos hc] at h
      exact cut_heads h hh
    · rename_i hc
      rw [if_neg hc] at h
      exact h

theorem plain_heads {c : Char} {r t : Text} (hp : Plain (.ch c r)) (hh : Heads r t) (ht : Plain t) : Plain (.ch c t) := by
  refine ⟨fun hc => ?_, ht⟩
  obtain ⟨c', r', rfl, h⟩ := hp.1 hc
  obtain ⟨t', rfl, hh⟩ := hh
  refine ⟨c', t', rfl, fun hb => ?_⟩
  obtain ⟨h1, h2⟩ := h hb
  refine ⟨cut_heads h1 hh, fun x hx => ?_⟩
  cases r' with
  | nil => exact h1.elim
  | ref _ _ => exact h1.elim
  | ch d r'' =>
    obtain ⟨t'', rfl, _⟩ := hh
    cases hx
    exact h2 r'' rfl

theorem heads_append : ∀ {a b : Text}, Plain a → Heads a (Text.append a b)
  | .nil, _, _ => trivial
  | .ref _ _, _, _ => trivial
  | .ch c r, b, h => ⟨_, rfl, heads_append h.2⟩

theorem plain_append : ∀ {a b : Text}, Plain a → Plain b → Plain (Text.append a b)
  | .nil, _, _, hb => hb
  | .ref _ _, _, ha, hb => ⟨ha.1, plain_append ha.2 hb⟩
  | .ch c r, b, ha, hb => plain_heads ha (heads_append ha.2) (plain_append ha.2 hb)

theorem substP_append {get : Str → Except Err (Option Str)} {self : Option Str} : ∀ {a b : List Seg} {x y : Str},
    substP get self a = .ok x → substP get self b = .ok y → substP get self (a ++ b) = .ok (x ++ y)
  | [], b, x, y, ha, hb => by cases ha; exact hb
  | .lit c :: a, b, x, y, ha, hb => by
    obtain ⟨x', h1, rfl⟩ := substP_lit.1 ha
    exact substP_lit.2 ⟨x' ++ y, substP_append h1 hb, rfl⟩
  | .ref k :: a, b, x, y, ha, hb => by
    obtain ⟨hs, v, x', h1, h2, rfl⟩ := substP_ref.1 ha
    exact substP_ref.2 ⟨hs, v, x' ++ y, h1, substP_append h2 hb, List.append_assoc _ _ _⟩

theorem pass_render {V : Str → Option Text → Prop} {get : Str → Except Err (Option Str)} {self : Option Str}
    (hV : ∀ k o, V k o → get k = .ok (o.map Text.render) ∧ self ≠ some k ∧ ∀ u, o = some u → Plain u ∧ EvL V u u 0)
    {t u : Text} {m : Nat} (h : EvL V t u m) : Plain t →
    ∃ t' m', substP get self (segs t) = .ok t'.render ∧ EvL V t' u m' ∧ Plain t' ∧ Heads t t' ∧ m' ≤ m ∧
      (0 < m → m' < m) := by
  have lits : ∀ {n r : List Seg} {x y : Str}, substP get self n = .ok x → substP get self r = .ok y →
      substP get self (.lit '$' :: .lit '{' :: (n ++ .lit '}' :: r)) = .ok ('$' :: '{' :: (x ++ '}' :: y)) :=
    fun hn hr => substP_lit.2 ⟨_, substP_lit.2 ⟨_, substP_append hn (substP_lit.2 ⟨_, hr, rfl⟩), rfl⟩, rfl⟩
  induction h with
  | nil => intro _; exact ⟨.nil, 0, rfl, .nil, trivial, trivial, Nat.le_refl _, fun h => h⟩
  | @ch c r r' m _ ih =>
    intro hp
    obtain ⟨t', m', h1, h2, h3, h4, h5, h6⟩ := ih hp.2
    exact ⟨.ch c t', m', substP_lit.2 ⟨_, h1, rfl⟩, .ch h2, plain_heads hp h4 h3, ⟨t', rfl, h4⟩, h5, h6⟩
  | @set n n' a u r r' b h1 hn hv _ ih1 ih2 =>
    intro hp
    obtain ⟨tr, mr, r1, r2, r3, _, r5, _⟩ := ih2 hp.2
    obtain ⟨tn, mn, n1, n2, n3, _, n5, n6⟩ := ih1 hp.1
    rw [segs]
    cases hn' : isName n.render with
    | true =>
      rw [if_pos rfl]
      have := (h1.no_dollar (dollar_not_name hn')).1
      subst this
      obtain ⟨g1, g2, g3⟩ := hV _ _ hv
      obtain ⟨g3, g4⟩ := g3 u rfl
      refine ⟨Text.append u tr, 0 + mr, substP_ref.2 ⟨g2, _, _, g1, r1, ?_⟩, g4.append r2, plain_append g3 r3, trivial,
        by omega, fun _ => by omega⟩
      rw [render_append]; rfl
    | false =>
      rw [if_neg (by simp)]
      have ha : 0 < a := Nat.pos_of_ne_zero fun h0 => by
        rw [← h1.zero h0, hn'] at hn; cases hn
      have := n6 ha
      exact ⟨.ref tn tr, mn + mr + 1, lits n1 r1, .set n2 hn hv r2, ⟨n3, r3⟩, trivial, by omega, fun _ => by omega⟩
  | @unset n n' a r r' b h1 hn hv _ ih1 ih2 =>
    intro hp
    obtain ⟨tr, mr, r1, r2, r3, _, r5, r6⟩ := ih2 hp.2
    obtain ⟨tn, mn, n1, n2, n3, _, n5, n6⟩ := ih1 hp.1
    rw [segs]
    cases hn' : isName n.render with
    | true =>
      rw [if_pos rfl]
      obtain ⟨e1, e2⟩ := h1.no_dollar (dollar_not_name hn')
      subst e1 e2
      obtain ⟨g1, g2, _⟩ := hV _ _ hv
      refine ⟨.ref n tr, 0 + mr, substP_ref.2 ⟨g2, _, _, g1, r1, ?_⟩, .unset h1 hn hv r2, ⟨hp.1, r3⟩, trivial,
        by omega, fun _ => ?_⟩
      · show _ = refText n.render ++ tr.render
        rw [refText_append]; rfl
      · have := r6 (by omega)
        omega
    | false =>
      rw [if_neg (by simp)]
      refine ⟨.ref tn tr, mn + mr, lits n1 r1, .unset n2 hn hv r2, ⟨n3, r3⟩, trivial, by omega, fun hm => ?_⟩
      by_cases ha : 0 < a
      · have := n6 ha; omega
      · have := r6 (by omega); omega
  | @noName n n' a r r' b h1 hn _ ih1 ih2 =>
    intro hp
    obtain ⟨tr, mr, r1, r2, r3, _, r5, r6⟩ := ih2 hp.2
    obtain ⟨tn, mn, n1, n2, n3, _, n5, n6⟩ := ih1 hp.1
    rw [segs]
    cases hn' : isName n.render with
    | true =>
      have := (h1.no_dollar (dollar_not_name hn')).1
      subst this
      exact absurd hn (name_not_noName hn')
    | false =>
      rw [if_neg (by simp)]
      refine ⟨.ref tn tr, mn + mr, lits n1 r1, .noName n2 hn r2, ⟨n3, r3⟩, trivial, by omega, fun hm => ?_⟩
      by_cases ha : 0 < a
      · have := n6 ha; omega
      · have := r6 (by omega); omega

theorem EvL.no_refs {V : Str → Option Text → Prop} {t u : Text} {m : Nat} (h : EvL V t u m) :
    isSub ['$', '{'] t.render = false → t = u := by
  have ref : ∀ {n r : Text}, isSub ['$', '{'] (Text.ref n r).render = true := fun {n r} =>
    isSub_iff.2 ⟨[], n.render ++ '}' :: r.render, rfl⟩
  induction h with
  | nil => intro _; rfl
  | ch _ ih =>
    intro hd
    rw [ih]
    unfold Text.render isSub at hd
    exact (Bool.or_eq_false_iff.1 hd).2
  | set => intro hd; rw [ref] at hd; cases hd
  | unset => intro hd; rw [ref] at hd; cases hd
  | noName => intro hd; rw [ref] at hd; cases hd

/-- The loop on a written text. -/
theorem loop_render {V : Str → Option Text → Prop} {get : Str → Except Err (Option Str)} {self : Option Str}
    (hV : ∀ k o, V k o → get k = .ok (o.map Text.render) ∧ self ≠ some k ∧ ∀ u, o = some u → Plain u ∧ EvL V u u 0)
    (hg : ∀ k v, isName k = true → get k = .ok (some v) → ∀ a b, v ≠ a ++ refText k ++ b) :
    ∀ (n : Nat) {t u : Text} {m : Nat}, EvL V t u m → Plain t → m < n → loopP get self n t.render = .ok u.render
  | 0, _, _, _, _, _, hm => absurd hm (Nat.not_lt_zero _)
  | n + 1, t, u, m, h, hp, hm => by
    cases hi : isSub ['$', '{'] t.render with
    | false => rw [← h.no_refs hi]; exact loopP_ok.2 (Or.inl ⟨hi, rfl⟩)
    | true =>
      obtain ⟨t', m', h1, h2, h3, _, h5, h6⟩ := pass_render hV h hp
      have hs : scan 0 t.render = segs t := by
        have := scan_render t hp h.good []
        rwa [List.append_nil, show scan 0 [] = [] from rfl, List.append_nil] at this
      rw [← hs] at h1
      by_cases he : t'.render = t.render
      · rw [he] at h1
        have hm0 : m = 0 := Nat.eq_zero_of_not_pos fun hpos => by
          obtain ⟨k, v, g1, g2⟩ := h.live hpos
          have := pass_same h1 hg k (hs ▸ g1)
          rw [(hV _ _ g2).1] at this
          cases this
        rw [← h.zero hm0]
        exact loopP_ok.2 (Or.inr (Or.inl ⟨hi, h1, rfl⟩))
      · have hm0 : 0 < m := Nat.pos_of_ne_zero fun h0 => he (by rw [h2.zero (by omega), h.zero h0])
        have := h6 hm0
        exact loopP_ok.2 (Or.inr (Or.inr ⟨hi, _, h1, he, loop_render hV hg n h2 h3 (by omega)⟩))

/-! ## All layers -/

def Vh (prog : Str → Option Text) : Nat → Str → Option Text → Prop
  | 0, k, o => prog k = none ∧ o = none
  | h + 1, k, o => (prog k = none ∧ o = none) ∨ ∃ p u, prog k = some p ∧ o = some u ∧ ∃ m, EvL (Vh prog h) p u m

theorem Vh.succ {prog : Str → Option Text} : ∀ {h : Nat} {k : Str} {o : Option Text}, Vh prog h k o → Vh prog (h + 1) k o
  | 0, _, _, hv => Or.inl hv
  | _ + 1, _, _, Or.inl hv => Or.inl hv
  | _ + 1, _, _, Or.inr ⟨p, u, h1, h2, m, h3⟩ => Or.inr ⟨p, u, h1, h2, m, h3.mono fun _ _ hv => hv.succ⟩

theorem Vh.mono {prog : Str → Option Text} {h h' : Nat} (hh : h ≤ h') {k : Str} {o : Option Text}
    (hv : Vh prog h k o) : Vh prog h' k o := by
  induction hh with
  | refl => exact hv
  | step _ ih => exact ih.succ

theorem Vh.functional {prog : Str → Option Text} : ∀ {h h' : Nat} {k : Str} {o o' : Option Text}, Vh prog h k o →
    Vh prog h' k o' → o = o' := by
  intro h
  induction h with
  | zero =>
    intro h' k o o' h1 h2
    cases h' with
    | zero => rw [h1.2, h2.2]
    | succ h' =>
      rcases h2 with h2 | ⟨p, u, h2, _⟩
      · rw [h1.2, h2.2]
      · rw [h1.1] at h2; cases h2
  | succ h ih =>
    intro h' k o o' h1 h2
    cases h' with
    | zero =>
      rcases h1 with h1 | ⟨p, u, h1, _⟩
      · rw [h1.2, h2.2]
      · rw [h2.1] at h1; cases h1
    | succ h' =>
      rcases h1 with h1 | ⟨p, u, h1, h3, m, h4⟩
      · rcases h2 with h2 | ⟨p, u, h2, _⟩
        · rw [h1.2, h2.2]
        · rw [h1.1] at h2; cases h2
      · rcases h2 with h2 | ⟨p', u', h2, h5, m', h6⟩
        · rw [h2.1] at h1; cases h1
        · rw [h1] at h2
          cases h2
          rw [h3, h5, h4.functional (V' := Vh prog h') (fun k o o' a b => ih a b) h6]

theorem means_layers {prog : Str → Option Text} {t : Text} {s : Str} (hm : Means prog t s) :
    ∃ h u m, EvL (Vh prog h) t u m ∧ u.render = s := by
  induction hm with
  | nil => exact ⟨0, .nil, 0, .nil, rfl⟩
  | @ch c _ _ _ ih =>
    obtain ⟨h, u, m, h1, h2⟩ := ih
    exact ⟨h, .ch c u, m, .ch h1, by show c :: u.render = _; rw [h2]⟩
  | set _ hn hp _ _ ih1 ih2 ih3 =>
    obtain ⟨a, n', x, a1, a2⟩ := ih1
    obtain ⟨b, v', y, b1, b2⟩ := ih2
    obtain ⟨c, r', z, c1, c2⟩ := ih3
    refine ⟨max a (max (b + 1) c), Text.append v' r', x + z + 1,
      .set (a1.mono fun _ _ h => h.mono (Nat.le_max_left _ _)) (by rw [a2]; exact isName_spec.2 hn) ?_
        (c1.mono fun _ _ h => h.mono (Nat.le_trans (Nat.le_max_right _ _) (Nat.le_max_right _ _))), ?_⟩
    · rw [a2]
      have : Vh prog (b + 1) _ (some v') := Or.inr ⟨_, v', hp, rfl, y, b1⟩
      exact this.mono (Nat.le_trans (Nat.le_max_left _ _) (Nat.le_max_right _ _))
    · rw [render_append, b2, c2]
  | unset _ hn hp _ ih1 ih2 =>
    obtain ⟨a, n', x, a1, a2⟩ := ih1
    obtain ⟨c, r', z, c1, c2⟩ := ih2
    refine ⟨max a c, .ref n' r', x + z,
      .unset (a1.mono fun _ _ h => h.mono (Nat.le_max_left _ _)) (by rw [a2]; exact isName_spec.2 hn) ?_
        (c1.mono fun _ _ h => h.mono (Nat.le_max_right _ _)), ?_⟩
    · rw [a2]
      have : Vh prog 0 _ none := ⟨hp, rfl⟩
      exact this.mono (Nat.zero_le _)
    · show '$' :: '{' :: (n'.render ++ '}' :: r'.render) = _
      rw [a2, c2]
  | noName _ hn _ ih1 ih2 =>
    obtain ⟨a, n', x, a1, a2⟩ := ih1
    obtain ⟨c, r', z, c1, c2⟩ := ih2
    refine ⟨max a c, .ref n' r', x + z,
      .noName (a1.mono fun _ _ h => h.mono (Nat.le_max_left _ _)) (by rw [a2]; exact hn)
        (c1.mono fun _ _ h => h.mono (Nat.le_max_right _ _)), ?_⟩
    show '$' :: '{' :: (n'.render ++ '}' :: r'.render) = _
    rw [a2, c2]

/-- A bound for the values that are used. -/
theorem EvL.bound {V : Str → Option Text → Prop} {W : Str → Option Text → Nat → Prop}
    (hW : ∀ k o D D', D ≤ D' → W k o D → W k o D') (hV : ∀ k o, V k o → ∃ D, W k o D) {t u : Text} {m : Nat}
    (h : EvL V t u m) : ∃ D, EvL (fun k o => V k o ∧ W k o D) t u m := by
  have up : ∀ {D D' : Nat} {t u m}, D ≤ D' → EvL (fun k o => V k o ∧ W k o D) t u m →
      EvL (fun k o => V k o ∧ W k o D') t u m := fun hd h => h.mono fun k o hv => ⟨hv.1, hW k o _ _ hd hv.2⟩
  induction h with
  | nil => exact ⟨0, .nil⟩
  | ch _ ih => obtain ⟨D, h⟩ := ih; exact ⟨D, .ch h⟩
  | set _ hn hv _ ih1 ih2 =>
    obtain ⟨a, h1⟩ := ih1
    obtain ⟨b, h2⟩ := ih2
    obtain ⟨c, h3⟩ := hV _ _ hv
    exact ⟨max a (max b c), .set (up (by omega) h1) hn ⟨hv, hW _ _ c _ (by omega) h3⟩ (up (by omega) h2)⟩
  | unset _ hn hv _ ih1 ih2 =>
    obtain ⟨a, h1⟩ := ih1
    obtain ⟨b, h2⟩ := ih2
    obtain ⟨c, h3⟩ := hV _ _ hv
    exact ⟨max a (max b c), .unset (up (by omega) h1) hn ⟨hv, hW _ _ c _ (by omega) h3⟩ (up (by omega) h2)⟩
  | noName _ hn _ ih1 ih2 =>
    obtain ⟨a, h1⟩ := ih1
    obtain ⟨b, h2⟩ := ih2
    exact ⟨max a b, .noName (up (by omega) h1) hn (up (by omega) h2)⟩

theorem EvL.plain {V : Str → Option Text → Prop} (hV : ∀ k u, V k (some u) → Plain u) {t u : Text} {m : Nat}
    (h : EvL V t u m) : Plain t → Plain u ∧ Heads t u := by
  induction h with
  | nil => intro _; exact ⟨trivial, trivial⟩
  | ch _ ih =>
    intro hp
    obtain ⟨h1, h2⟩ := ih hp.2
    exact ⟨plain_heads hp h2 h1, _, rfl, h2⟩
  | set _ _ hv _ ih1 ih2 => intro hp; exact ⟨plain_append (hV _ _ hv) (ih2 hp.2).1, trivial⟩
  | unset _ _ _ _ ih1 ih2 => intro hp; exact ⟨⟨(ih1 hp.1).1, (ih2 hp.2).1⟩, trivial⟩
  | noName _ _ _ ih1 ih2 => intro hp; exact ⟨⟨(ih1 hp.1).1, (ih2 hp.2).1⟩, trivial⟩

theorem Vh.normal {prog : Str → Option Text} (hp : ∀ k p, prog k = some p → Plain p) :
    ∀ (h : Nat) {k : Str} {u : Text}, Vh prog h k (some u) → Plain u ∧ EvL (Vh prog h) u u 0
  | 0, _, _, hv => nomatch hv.2
  | h + 1, k, u, hv => by
    rcases hv with ⟨_, hv⟩ | ⟨p, u', h1, h2, m, h3⟩
    · cases hv
    · cases h2
      exact ⟨(h3.plain (fun k u hv => (Vh.normal hp h hv).1) (hp k p h1)).1,
        (h3.result fun k u hv => (Vh.normal hp h hv).2).mono fun _ _ hv => hv.succ⟩

/-- Layers of evaluation are what the program computes. -/
theorem layers_loop {prog : Str → Option Text} {env : Str → Option Str} (henv : ∀ k, env k = (prog k).map Text.render)
    (hp : ∀ k p, prog k = some p → Plain p) (self : Option Str) (h : Nat)
    (hself : ∀ k o, Vh prog h k o → self ≠ some k)
    (hval : ∀ k o, Vh prog h k o → ∃ D, ∀ f d, D ≤ f → D ≤ d → valueP env f d k = .ok (o.map Text.render))
    {t u : Text} {m : Nat} (he : EvL (Vh prog h) t u m) (ht : Plain t) :
    ∃ D, ∀ f d, D ≤ f → D ≤ d → loopP (valueP env f d) self f t.render = .ok u.render := by
  have none_of : ∀ {k}, Vh prog h k none → prog k = none := by
    intro k hv
    cases h with
    | zero => exact hv.1
    | succ h =>
      rcases hv with hv | ⟨_, _, _, h2, _⟩
      · exact hv.1
      · cases h2
  obtain ⟨D, hb⟩ := he.bound (W := fun k o D => ∀ f d, D ≤ f → D ≤ d → valueP env f d k = .ok (o.map Text.render))
    (fun k o D D' hd h f d hf hd' => h f d (Nat.le_trans hd hf) (Nat.le_trans hd hd')) hval
  refine ⟨max D (m + 1), fun f d hf hd => ?_⟩
  refine loop_render (V := fun k o => Vh prog h k o ∧ valueP env f d k = .ok (o.map Text.render)) ?_ ?_ f
    (hb.mono fun k o hv => ⟨hv.1, hv.2 f d (by omega) (by omega)⟩) ht (by omega)
  · rintro k o ⟨hv, h1⟩
    refine ⟨h1, hself k o hv, fun v hv' => ?_⟩
    subst hv'
    obtain ⟨n1, n2⟩ := Vh.normal hp h hv
    refine ⟨n1, n2.mono_zero (fun j hj => ⟨hj, ?_⟩) rfl⟩
    obtain ⟨d, rfl⟩ : ∃ d', d = d' + 1 := ⟨d - 1, by omega⟩
    exact valueP_ok.2 (Or.inl ⟨by rw [henv, none_of hj]; rfl, rfl⟩)
  · intro k v hk hv a b
    obtain ⟨h1, h2⟩ := valueP_settled.2 v hv
    exact settled_iff.1 h2 k (isName_spec.1 hk) h1 a b

theorem layers_value {prog : Str → Option Text} {env : Str → Option Str} (henv : ∀ k, env k = (prog k).map Text.render)
    (hp : ∀ k p, prog k = some p → Plain p) : ∀ (h : Nat) (k : Str) (o : Option Text), Vh prog h k o →
    ∃ D, ∀ f d, D ≤ f → D ≤ d → valueP env f d k = .ok (o.map Text.render) := by
  have unset : ∀ k, prog k = none → ∃ D, ∀ f d, D ≤ f → D ≤ d → valueP env f d k = .ok none := by
    intro k hk
    refine ⟨1, fun f d _ hd => ?_⟩
    obtain ⟨d, rfl⟩ : ∃ d', d = d' + 1 := ⟨d - 1, by omega⟩
    exact valueP_ok.2 (Or.inl ⟨by rw [henv, hk]; rfl, rfl⟩)
  intro h
  induction h with
  | zero => rintro k o ⟨hk, rfl⟩; exact unset k hk
  | succ h ih =>
    rintro k o (⟨hk, rfl⟩ | ⟨p, u, hk, rfl, m, he⟩)
    · exact unset k hk
    · by_cases hex : ∃ o', Vh prog h k o'
      · obtain ⟨o', ho'⟩ := hex
        rw [show (some u : Option Text) = o' from
          Vh.functional (h := h + 1) (Or.inr ⟨p, u, hk, rfl, m, he⟩) ho']
        exact ih k o' ho'
      · obtain ⟨D, hD⟩ := layers_loop henv hp (some k) h (fun j o hj he => hex ⟨o, by cases he; exact hj⟩) ih he (hp k p hk)
        refine ⟨D + 1, fun f d hf hd => ?_⟩
        obtain ⟨d, rfl⟩ : ∃ d', d = d' + 1 := ⟨d - 1, by omega⟩
        exact valueP_ok.2 (Or.inr ⟨p.render, u.render, by rw [henv, hk]; rfl, hD f d (by omega) (by omega), rfl⟩)

/-- What a text means is what the program computes, with enough time and depth. -/
theorem means_loop {prog : Str → Option Text} {env : Str → Option Str} (henv : ∀ k, env k = (prog k).map Text.render)
    (hp : ∀ k p, prog k = some p → Plain p) {t : Text} {s : Str} (hm : Means prog t s) (ht : Plain t) :
    ∃ D, ∀ f d, D ≤ f → D ≤ d → loopP (valueP env f d) none f t.render = .ok s := by
  obtain ⟨h, u, m, he, rfl⟩ := means_layers hm
  exact layers_loop henv hp none h (fun _ _ _ => (nomatch ·)) (layers_value henv hp h) he ht

theorem means_value {prog : Str → Option Text} {env : Str → Option Str} (henv : ∀ k, env k = (prog k).map Text.render)
    (hp : ∀ k p, prog k = some p → Plain p) {k : Str} {p : Text} {s : Str} (hk : prog k = some p) (hm : Means prog p s) :
    ∃ D, ∀ f d, D ≤ f → D ≤ d → valueP env f d k = .ok (some s) := by
  obtain ⟨h, u, m, he, rfl⟩ := means_layers hm
  exact layers_value henv hp (h + 1) k (some u) (Or.inr ⟨p, u, hk, rfl, m, he⟩)

end Bb.Expand
