import Verif.Meta.ImageTypesSpec
/-!
# Lemmas about image types
-/

namespace Isar.ImageTypes
open Py

/-! ## Base types -/

theorem take_suffix (p c : Str) :
    (p ++ '.' :: c).take ((p ++ '.' :: c).length - (c.length + 1)) = p := by
  have : (p ++ '.' :: c).length - (c.length + 1) = p.length := by
    simp only [List.length_append, List.length_cons]; omega
  rw [this, List.take_left]

theorem stripOne_some {convs : List Str} {t bt : Str} (h : stripOne convs t = some bt) :
    ∃ c ∈ convs, t = bt ++ '.' :: c := by
  induction convs with
  | nil => simp [stripOne] at h
  | cons c cs ih =>
    unfold stripOne at h
    split at h
    · rename_i he
      obtain ⟨p, rfl⟩ := endsWith_iff.mp he
      rw [take_suffix] at h
      cases h
      exact ⟨c, List.mem_cons_self, rfl⟩
    · obtain ⟨c', hc', ht⟩ := ih h
      exact ⟨c', List.mem_cons_of_mem _ hc', ht⟩

theorem stripOne_none {convs : List Str} {t : Str} (h : stripOne convs t = none) :
    ∀ c ∈ convs, ¬ ∃ p, t = p ++ '.' :: c := by
  induction convs with
  | nil => simp
  | cons c cs ih =>
    unfold stripOne at h
    split at h
    · simp at h
    · rename_i he
      intro c' hc'
      rcases List.mem_cons.mp hc' with rfl | hc'
      · intro hp; exact he (endsWith_iff.mpr hp)
      · exact ih h c' hc'

theorem stripOne_eq_none {convs : List Str} {t : Str}
    (h : ∀ c ∈ convs, ¬ ∃ p, t = p ++ '.' :: c) : stripOne convs t = none := by
  cases hs : stripOne convs t with
  | none => rfl
  | some bt =>
    obtain ⟨c, hc, ht⟩ := stripOne_some hs
    exact absurd ⟨bt, ht⟩ (h c hc)

theorem baseGo_isBase (convs : List Str) : ∀ n t, t.length ≤ n →
    IsBase convs t (baseGo convs n t) := by
  intro n
  induction n with
  | zero =>
    intro t ht
    have : t = [] := List.length_eq_zero_iff.mp (by omega)
    subst this
    refine ⟨⟨[], by simp, by simp [baseGo]⟩, ?_⟩
    intro c _ hp
    obtain ⟨p, hp⟩ := hp
    simp [baseGo] at hp
  | succ n ih =>
    intro t ht
    unfold baseGo
    cases hs : stripOne convs t with
    | none => exact ⟨⟨[], by simp, by simp⟩, stripOne_none hs⟩
    | some bt =>
      obtain ⟨c, hc, rfl⟩ := stripOne_some hs
      have hlen : bt.length ≤ n := by
        simp only [List.length_append, List.length_cons] at ht; omega
      obtain ⟨⟨cs, hcs, hbt⟩, hno⟩ := ih bt hlen
      refine ⟨⟨cs ++ [c], ?_, ?_⟩, hno⟩
      · intro x hx
        rcases List.mem_append.mp hx with hx | hx
        · exact hcs x hx
        · rw [List.mem_singleton.mp hx]; exact hc
      · dsimp only
        rw [List.flatMap_append, ← List.append_assoc, ← hbt]
        simp

theorem base_isBase (convs : List Str) (t : Str) : IsBase convs t (base convs t) :=
  baseGo_isBase convs _ t (Nat.le_refl _)

theorem baseGo_of_none {convs : List Str} {t : Str} (h : stripOne convs t = none) (n : Nat) :
    baseGo convs n t = t := by
  cases n with
  | zero => rfl
  | succ n => simp [baseGo, h]

theorem base_of_nosuffix {convs : List Str} {t : Str}
    (h : ∀ c ∈ convs, ¬ ∃ p, t = p ++ '.' :: c) : base convs t = t :=
  baseGo_of_none (stripOne_eq_none h) _

theorem base_base (convs : List Str) (t : Str) : base convs (base convs t) = base convs t :=
  base_of_nosuffix (base_isBase convs t).2

theorem suffix_unique {p q c d : Str} (hc : '.' ∉ c) (hd : '.' ∉ d)
    (h : p ++ '.' :: c = q ++ '.' :: d) : p = q ∧ c = d := by
  rcases List.append_eq_append_iff.mp h with ⟨a, rfl, ha⟩ | ⟨a, rfl, ha⟩
  · cases a with
    | nil => simp at ha; simp [ha]
    | cons x a =>
      simp only [List.cons_append, List.cons.injEq] at ha
      exact absurd (by rw [ha.2]; simp) hc
  · cases a with
    | nil => simp at ha; simp [ha]
    | cons x a =>
      simp only [List.cons_append, List.cons.injEq] at ha
      exact absurd (by rw [ha.2]; simp) hd

theorem baseGo_unique {convs : List Str} (hd : ∀ v ∈ convs, '.' ∉ v) {b : Str} :
    ∀ n t, t.length ≤ n → IsBase convs t b → baseGo convs n t = b := by
  intro n
  induction n with
  | zero =>
    intro t ht h
    have : t = [] := List.length_eq_zero_iff.mp (by omega)
    subst this
    obtain ⟨⟨cs, _, hb⟩, _⟩ := h
    have := List.append_eq_nil_iff.mp hb.symm
    rw [this.1]; rfl
  | succ n ih =>
    intro t ht h
    obtain ⟨⟨cs, hcs, hb⟩, hno⟩ := h
    unfold baseGo
    rcases List.eq_nil_or_concat cs with rfl | ⟨cs0, c0, rfl⟩
    · simp only [List.flatMap_nil, List.append_nil] at hb
      subst hb
      rw [stripOne_eq_none hno]
    · have hb' : t = (b ++ cs0.flatMap ('.' :: ·)) ++ '.' :: c0 := by
        rw [hb]; simp
      have hc0 : c0 ∈ convs := hcs c0 (by simp)
      cases hs : stripOne convs t with
      | none => exact absurd ⟨_, hb'⟩ (stripOne_none hs c0 hc0)
      | some bt =>
        obtain ⟨c, hc, ht'⟩ := stripOne_some hs
        have := suffix_unique (hd c hc) (hd c0 hc0) (ht'.symm.trans hb')
        refine ih bt ?_ ⟨⟨cs0, ?_, this.1⟩, hno⟩
        · rw [ht', List.length_append, List.length_cons] at ht; omega
        · intro x hx; exact hcs x (by simp [hx])

theorem isBase_eq {convs : List Str} (hd : ∀ v ∈ convs, '.' ∉ v) {t b : Str}
    (h : IsBase convs t b) : b = base convs t :=
  (baseGo_unique hd _ t (Nat.le_refl _) h).symm

theorem base_append {convs : List Str} (hd : ∀ v ∈ convs, '.' ∉ v) {t c : Str} (hc : c ∈ convs) :
    base convs (t ++ '.' :: c) = base convs t := by
  apply Eq.symm
  apply isBase_eq hd
  obtain ⟨⟨cs, hcs, ht⟩, hno⟩ := base_isBase convs t
  refine ⟨⟨cs ++ [c], ?_, ?_⟩, hno⟩
  · intro x hx
    rcases List.mem_append.mp hx with hx | hx
    · exact hcs x hx
    · rw [List.mem_singleton.mp hx]; exact hc
  · rw [List.flatMap_append, ← List.append_assoc, ← ht]
    simp

/-! ## Dictionaries -/

theorem mem_get_addTo {k : Str} {v : Option Str} {d : List (Str × List Str)} {k' x : Str} :
    x ∈ get (addTo k v d) k' ↔ x ∈ get d k' ∨ (k' = k ∧ v = some x) := by
  induction d with
  | nil =>
    unfold get addTo
    by_cases h : k' = k
    · subst h; cases v <;> simp [List.lookup_cons, eq_comm]
    · have : (k' == k) = false := by simpa using h
      simp [List.lookup_cons, this, h]
  | cons e d ih =>
    obtain ⟨k0, vs⟩ := e
    unfold addTo
    by_cases h0 : k0 = k
    · subst h0
      rw [if_pos rfl]
      unfold get
      by_cases h : k' = k0
      · subst h
        simp only [List.lookup_cons, beq_self_eq_true, Option.getD_some, true_and]
        cases v with
        | none => simp
        | some v =>
          dsimp only
          split
          · rename_i hv
            constructor
            · exact Or.inl
            · rintro (h | h)
              · exact h
              · cases h; exact hv
          · simp [eq_comm]
      · have : (k' == k0) = false := by simpa using h
        simp [List.lookup_cons, this, h]
    · rw [if_neg h0]
      unfold get at ih ⊢
      by_cases h : k' = k0
      · subst h
        simp [List.lookup_cons, h0]
      · have : (k' == k0) = false := by simpa using h
        simp only [List.lookup_cons, this]
        exact ih

theorem mem_keys_addTo {k : Str} {v : Option Str} {d : List (Str × List Str)} {k' : Str} :
    k' ∈ (addTo k v d).map (·.1) ↔ k' ∈ d.map (·.1) ∨ k' = k := by
  induction d with
  | nil => simp [addTo]
  | cons e d ih =>
    obtain ⟨k0, vs⟩ := e
    unfold addTo
    split
    · rename_i h
      subst h
      simp only [List.map_cons, List.mem_cons]
      grind
    · simp only [List.map_cons, List.mem_cons, ih]
      grind

/-! ## Collecting -/

/-- Everything in `a` is in `b`. -/
def St.le (a b : St) : Prop :=
  (∀ k x, x ∈ get a.basetypes k → x ∈ get b.basetypes k) ∧
  (∀ k x, x ∈ get a.typedeps k → x ∈ get b.typedeps k) ∧
  (∀ x ∈ a.types, x ∈ b.types)

theorem St.le_refl (a : St) : a.le a := ⟨fun _ _ h => h, fun _ _ h => h, fun _ h => h⟩
theorem St.le_trans {a b c : St} (h : a.le b) (h' : b.le c) : a.le c :=
  ⟨fun k x hx => h'.1 k x (h.1 k x hx), fun k x hx => h'.2.1 k x (h.2.1 k x hx),
   fun x hx => h'.2.2 x (h.2.2 x hx)⟩

/-- `t` was collected and its direct dependencies recorded. -/
def Done (c : Conf) (s : St) (t : Str) : Prop :=
  t ∈ get s.basetypes (base c.convs t) ∧
  ∀ d ∈ c.deps t, d ∈ s.types ∧ base c.convs d ∈ get s.typedeps (base c.convs t)

theorem Done.mono {c : Conf} {s s' : St} {t : Str} (h : Done c s t) (hle : s.le s') :
    Done c s' t :=
  ⟨hle.1 _ _ h.1, fun d hd => ⟨hle.2.2 _ (h.2 d hd).1, hle.2.1 _ _ (h.2 d hd).2⟩⟩

/-- What is reached from one type. -/
inductive Reach (c : Conf) : Str → Str → Prop
  | refl {t} : Reach c t t
  | dep {t d x} : d ∈ c.deps t → Reach c d x → Reach c t x
  | base {t x} : Reach c (base c.convs t) x → Reach c t x

theorem forEach_inv {α σ} {f : α → σ → Option σ} (I : σ → Prop) {l : List α}
    (hf : ∀ a ∈ l, ∀ s s', I s → f a s = some s' → I s') :
    ∀ {s s'}, I s → forEach f l s = some s' → I s' := by
  induction l with
  | nil => intro s s' hi h; cases h; exact hi
  | cons a l ih =>
    intro s s' hi h
    unfold forEach at h
    cases hfa : f a s with
    | none => simp [hfa] at h
    | some s1 =>
      rw [hfa] at h
      exact ih (fun a ha => hf a (List.mem_cons_of_mem _ ha))
        (hf a List.mem_cons_self s s1 hi hfa) h

/-- After the loop, `P a` holds for each element, if the body establishes it and the bodies
after it keep it. -/
theorem forEach_all {α σ} {f : α → σ → Option σ} (le : σ → σ → Prop)
    (hrefl : ∀ s, le s s) (htrans : ∀ {a b c}, le a b → le b c → le a c)
    (P : α → σ → Prop) (hmono : ∀ a s s', P a s → le s s' → P a s') {l : List α}
    (hf : ∀ a ∈ l, ∀ s s', f a s = some s' → le s s' ∧ P a s') :
    ∀ {s s'}, forEach f l s = some s' → le s s' ∧ ∀ a ∈ l, P a s' := by
  induction l with
  | nil => intro s s' h; cases h; exact ⟨hrefl _, by simp⟩
  | cons a l ih =>
    intro s s' h
    unfold forEach at h
    cases hfa : f a s with
    | none => simp [hfa] at h
    | some s1 =>
      rw [hfa] at h
      obtain ⟨h1, h2⟩ := hf a List.mem_cons_self s s1 hfa
      obtain ⟨h3, h4⟩ := ih (fun a ha => hf a (List.mem_cons_of_mem _ ha)) h
      refine ⟨htrans h1 h3, ?_⟩
      intro b hb
      rcases List.mem_cons.mp hb with rfl | hb
      · exact hmono _ _ _ h2 h3
      · exact h4 b hb

theorem collect_spec (c : Conf) : ∀ n t s s', collect c n t s = some s' →
    s.le s' ∧ ∀ x, Reach c t x → Done c s' x := by
  intro n
  induction n with
  | zero => intro t s s' h; simp [collect] at h
  | succ n ih =>
    intro t s s' h
    unfold collect at h
    dsimp only at h
    generalize hs0 : (⟨addTo (base c.convs t) (some t) s.basetypes,
      addTo (base c.convs t) none s.typedeps, s.types⟩ : St) = s0 at h
    have hle0 : s.le s0 := by
      subst hs0
      exact ⟨fun k x hx => mem_get_addTo.mpr (Or.inl hx),
        fun k x hx => mem_get_addTo.mpr (Or.inl hx), fun _ hx => hx⟩
    have ht0 : t ∈ get s0.basetypes (base c.convs t) := by
      subst hs0
      exact mem_get_addTo.mpr (Or.inr ⟨rfl, rfl⟩)
    split at h
    · simp at h
    · rename_i s1 h1
      have hloop := forEach_all (fun a b => St.le a b) St.le_refl St.le_trans
        (fun d s => (d ∈ s.types ∧ base c.convs d ∈ get s.typedeps (base c.convs t)) ∧
          ∀ x, Reach c d x → Done c s x)
        (fun d a b hd hab => ⟨⟨hab.2.2 _ hd.1.1, hab.2.1 _ _ hd.1.2⟩,
          fun x hx => (hd.2 x hx).mono hab⟩) (by
          intro d hd a b hab
          simp only [Option.map_eq_some_iff] at hab
          obtain ⟨b0, hb0, rfl⟩ := hab
          obtain ⟨hle, hreach⟩ := ih d _ _ hb0
          have hle1 : St.le a { a with types := if d ∈ a.types then a.types else a.types ++ [d] } :=
            ⟨fun _ _ h => h, fun _ _ h => h, fun x hx => by
              dsimp only; split
              · exact hx
              · exact List.mem_append_left _ hx⟩
          have hle2 : St.le b0 { b0 with
              typedeps := addTo (base c.convs t) (some (base c.convs d)) b0.typedeps } :=
            ⟨fun _ _ h => h, fun _ _ h => mem_get_addTo.mpr (Or.inl h), fun _ h => h⟩
          refine ⟨St.le_trans hle1 (St.le_trans hle hle2), ⟨?_, ?_⟩, ?_⟩
          · apply hle.2.2
            dsimp only; split
            · assumption
            · simp
          · exact mem_get_addTo.mpr (Or.inr ⟨rfl, rfl⟩)
          · intro x hx; exact (hreach x hx).mono hle2) h1
      obtain ⟨hle1, hall⟩ := hloop
      have hdone : Done c s1 t := ⟨hle1.1 _ _ ht0, fun d hd => (hall d hd).1⟩
      by_cases hbt : base c.convs t = t
      · rw [if_neg (by simpa using hbt)] at h
        obtain rfl : s1 = s' := by simpa using h
        refine ⟨St.le_trans hle0 hle1, ?_⟩
        have aux : ∀ u x, Reach c u x → u = t → Done c s1 x := by
          intro u x hu
          induction hu with
          | refl => rintro rfl; exact hdone
          | dep hd hr _ => rintro rfl; exact (hall _ hd).2 _ hr
          | base _ ih2 => rintro rfl; exact ih2 hbt
        exact fun x hx => aux t x hx rfl
      · rw [if_pos (by simpa using hbt)] at h
        obtain ⟨hle2, hreach⟩ := ih _ _ _ h
        refine ⟨St.le_trans hle0 (St.le_trans hle1 hle2), ?_⟩
        intro x hx
        cases hx with
        | refl => exact hdone.mono hle2
        | dep hd hx => exact ((hall _ hd).2 x hx).mono hle2
        | base hx => exact hreach x hx

/-- Only what is reached is collected. -/
def Within (c : Conf) (R : Str → Prop) (s : St) : Prop :=
  (∀ k x, x ∈ get s.basetypes k → R x ∧ k = base c.convs x) ∧
  (∀ k, k ∈ s.basetypes.map (·.1) → R k ∧ base c.convs k = k) ∧
  (∀ k b, b ∈ get s.typedeps k → ∃ t d, R t ∧ d ∈ c.deps t ∧ k = base c.convs t ∧
    b = base c.convs d) ∧
  (∀ x ∈ s.types, R x)

theorem collect_within (c : Conf) (R : Str → Prop) (hdep : ∀ t d, R t → d ∈ c.deps t → R d)
    (hbase : ∀ t, R t → R (base c.convs t)) : ∀ n t s s', R t → Within c R s →
    collect c n t s = some s' → Within c R s' := by
  intro n
  induction n with
  | zero => intro t s s' _ _ h; simp [collect] at h
  | succ n ih =>
    intro t s s' ht hw h
    unfold collect at h
    dsimp only at h
    split at h
    · simp at h
    · rename_i s1 h1
      have hw1 : Within c R s1 := by
        refine forEach_inv (Within c R) ?_ ?_ h1
        · intro d hd a b hwa hab
          simp only [Option.map_eq_some_iff] at hab
          obtain ⟨b0, hb0, rfl⟩ := hab
          have hRd := hdep t d ht hd
          have hwa' : Within c R { a with
              types := if d ∈ a.types then a.types else a.types ++ [d] } :=
            ⟨hwa.1, hwa.2.1, hwa.2.2.1, by
              intro x hx
              dsimp only at hx
              split at hx
              · exact hwa.2.2.2 x hx
              · rcases List.mem_append.mp hx with hx | hx
                · exact hwa.2.2.2 x hx
                · rw [List.mem_singleton.mp hx]; exact hRd⟩
          have hwb := ih d _ _ hRd hwa' hb0
          refine ⟨hwb.1, hwb.2.1, ?_, hwb.2.2.2⟩
          intro k b hb
          rcases mem_get_addTo.mp hb with hb | ⟨hk, hb⟩
          · exact hwb.2.2.1 k b hb
          · exact ⟨t, d, ht, hd, hk, (Option.some.inj hb).symm⟩
        · refine ⟨?_, ?_, ?_, hw.2.2.2⟩
          · intro k x hx
            rcases mem_get_addTo.mp hx with hx | ⟨hk, hx⟩
            · exact hw.1 k x hx
            · obtain rfl : t = x := by simpa using hx
              exact ⟨ht, hk⟩
          · intro k hk
            rcases mem_keys_addTo.mp hk with hk | rfl
            · exact hw.2.1 k hk
            · exact ⟨hbase t ht, base_base _ _⟩
          · intro k b hb
            rcases mem_get_addTo.mp hb with hb | ⟨_, hb⟩
            · exact hw.2.2.1 k b hb
            · cases hb
      split at h
      · exact ih _ _ _ (hbase t ht) hw1 h
      · cases h; exact hw1

theorem forEach_some {α σ} {f : α → σ → Option σ} {l : List α}
    (hf : ∀ a ∈ l, ∀ s, ∃ s', f a s = some s') : ∀ s, ∃ s', forEach f l s = some s' := by
  induction l with
  | nil => intro s; exact ⟨s, rfl⟩
  | cons a l ih =>
    intro s
    obtain ⟨s1, h1⟩ := hf a List.mem_cons_self s
    obtain ⟨s2, h2⟩ := ih (fun a ha => hf a (List.mem_cons_of_mem _ ha)) s1
    exact ⟨s2, by simp only [forEach, h1, h2]⟩

theorem collect_total (c : Conf) (rank : Str → Nat) (hdep : ∀ t d, d ∈ c.deps t → rank d < rank t)
    (hbase : ∀ t, base c.convs t ≠ t → rank (base c.convs t) < rank t) :
    ∀ n t, rank t < n → ∀ s, ∃ s', collect c n t s = some s' := by
  intro n
  induction n with
  | zero => intro t h; omega
  | succ n ih =>
    intro t ht s
    unfold collect
    dsimp only
    have hl := forEach_some (f := fun dep (st : St) =>
        (collect c n dep { st with types := if dep ∈ st.types then st.types else st.types ++ [dep] }).map
          fun st => { st with typedeps := addTo (base c.convs t) (some (base c.convs dep)) st.typedeps })
      (l := c.deps t) (by
        intro d hd a
        have := hdep t d hd
        obtain ⟨b, hb⟩ := ih d (by omega) { a with types := if d ∈ a.types then a.types else a.types ++ [d] }
        exact ⟨_, by rw [hb]; rfl⟩)
      { s with basetypes := addTo (base c.convs t) (some t) s.basetypes
               typedeps := addTo (base c.convs t) none s.typedeps }
    obtain ⟨s1, h1⟩ := hl
    rw [h1]
    by_cases hb : base c.convs t = t
    · exact ⟨s1, by simp [hb]⟩
    · obtain ⟨s2, h2⟩ := ih (base c.convs t) (by have := hbase t hb; omega) s1
      exact ⟨s2, by simp [hb, h2]⟩

theorem get_addTo_self {k v : Str} {d : List (Str × List Str)} :
    get (addTo k (some v) d) k = if v ∈ get d k then get d k else get d k ++ [v] := by
  induction d with
  | nil => simp [get, addTo, List.lookup_cons]
  | cons e d ih =>
    obtain ⟨k0, vs⟩ := e
    unfold addTo
    by_cases h0 : k0 = k
    · subst h0
      rw [if_pos rfl]
      simp [get, List.lookup_cons]
    · rw [if_neg h0]
      have : (k == k0) = false := by
        rw [beq_eq_false_iff_ne]; exact fun h => h0 h.symm
      unfold get at ih ⊢
      simp only [List.lookup_cons, this]
      exact ih

theorem get_addTo_other {k k' : Str} {v : Option Str} {d : List (Str × List Str)} (h : k' ≠ k) :
    get (addTo k v d) k' = get d k' := by
  induction d with
  | nil =>
    have : (k' == k) = false := by simpa using h
    simp [get, addTo, List.lookup_cons, this]
  | cons e d ih =>
    obtain ⟨k0, vs⟩ := e
    unfold addTo
    by_cases h0 : k0 = k
    · subst h0
      rw [if_pos rfl]
      have : (k' == k0) = false := by simpa using h
      simp [get, List.lookup_cons, this]
    · rw [if_neg h0]
      unfold get at ih ⊢
      by_cases h1 : k' = k0
      · subst h1; simp [List.lookup_cons]
      · have : (k' == k0) = false := by simpa using h1
        simp only [List.lookup_cons, this]
        exact ih

/-- The lists of collected types contain nothing twice; what is not needed for itself is the
base type, and that one does not come first. -/
def Ordered (s : St) : Prop := ∀ k,
  (get s.basetypes k).Nodup ∧ (∀ x ∈ get s.basetypes k, x ∈ s.types ∨ x = k) ∧
  ((get s.basetypes k).head? = some k → k ∈ s.types)

theorem Ordered.types {s : St} (h : Ordered s) {ts : List Str} (hts : ∀ x ∈ s.types, x ∈ ts) :
    Ordered { s with types := ts } := fun k =>
  ⟨(h k).1, fun x hx => ((h k).2.1 x hx).imp (hts x) id, fun hh => hts _ ((h k).2.2 hh)⟩

theorem Ordered.add {s : St} {t bt : Str} (h : Ordered s) {td : List (Str × List Str)}
    (ht : t ∈ s.types ∨ (t = bt ∧ get s.basetypes bt ≠ [])) :
    Ordered ⟨addTo bt (some t) s.basetypes, td, s.types⟩ := by
  intro k
  by_cases hk : k = bt
  · subst hk
    dsimp only
    rw [get_addTo_self]
    split
    · exact h k
    · rename_i hnot
      refine ⟨?_, ?_, ?_⟩
      · rw [List.nodup_append]
        refine ⟨(h k).1, by simp, ?_⟩
        intro a ha b hb
        rw [List.mem_singleton.mp hb]
        rintro rfl
        exact hnot ha
      · intro x hx
        rcases List.mem_append.mp hx with hx | hx
        · exact (h k).2.1 x hx
        · rw [List.mem_singleton.mp hx]
          exact ht.imp id And.left
      · intro hh
        cases hg : get s.basetypes k with
        | nil =>
          rw [hg] at hh
          have : t = k := by simpa using hh
          rcases ht with ht | ⟨_, hne⟩
          · rw [← this]; exact ht
          · exact absurd hg hne
        | cons a as =>
          rw [hg] at hh
          apply (h k).2.2
          rw [hg]
          simpa using hh
  · dsimp only
    rw [get_addTo_other hk]
    exact h k

theorem collect_ordered (c : Conf) : ∀ n t s s', Ordered s →
    (t ∈ s.types ∨ (t = base c.convs t ∧ get s.basetypes (base c.convs t) ≠ [])) →
    collect c n t s = some s' → Ordered s' := by
  intro n
  induction n with
  | zero => intro t s s' _ _ h; simp [collect] at h
  | succ n ih =>
    intro t s s' ho ht h
    have hspec := collect_spec c (n + 1) t s s' h
    unfold collect at h
    dsimp only at h
    split at h
    · simp at h
    · rename_i s1 h1
      have hn1 : Ordered s1 ∧ t ∈ get s1.basetypes (base c.convs t) := by
        refine forEach_inv (fun s1 : St => Ordered s1 ∧ t ∈ get s1.basetypes (base c.convs t))
          ?_ ⟨ho.add ht, mem_get_addTo.mpr (Or.inr ⟨rfl, rfl⟩)⟩ h1
        intro d hd a b hwa hab
        simp only [Option.map_eq_some_iff] at hab
        obtain ⟨b0, hb0, rfl⟩ := hab
        have h2 := ih d _ _ (hwa.1.types (by
          intro x hx
          split
          · exact hx
          · exact List.mem_append_left _ hx)) (Or.inl (by
            dsimp only
            split
            · assumption
            · simp)) hb0
        exact ⟨h2, (collect_spec c n d _ _ hb0).1.1 _ _ hwa.2⟩
      split at h
      · refine ih _ _ _ hn1.1 (Or.inr ⟨(base_base _ _).symm, ?_⟩) h
        rw [base_base]
        exact List.ne_nil_of_mem hn1.2
      · cases h; exact hn1.1

/-! ## Commands -/

theorem run_append (a b : List Step) : ∀ fs, run (a ++ b) fs = (run a fs).bind (run b) := by
  induction a with
  | nil => intro fs; rfl
  | cons s a ih =>
    intro fs
    cases s with
    | build t => exact ih _
    | convert t c =>
      simp only [List.cons_append, run]
      split
      · exact ih _
      · rfl
    | rm t =>
      simp only [List.cons_append, run]
      split
      · exact ih _
      · rfl

theorem run_rms : ∀ (rms fs : List Str), rms.Nodup → (∀ x ∈ rms, x ∈ fs) →
    ∃ fs', run (rms.map .rm) fs = some fs' ∧ ∀ x, x ∈ fs' ↔ x ∈ fs ∧ x ∉ rms := by
  intro rms
  induction rms with
  | nil => intro fs _ _; exact ⟨fs, rfl, by simp⟩
  | cons r rms ih =>
    intro fs hn hsub
    rw [List.nodup_cons] at hn
    obtain ⟨fs', h1, h2⟩ := ih (fs.filter (· ≠ r)) hn.2 (by
      intro x hx
      rw [List.mem_filter]
      refine ⟨hsub x (List.mem_cons_of_mem _ hx), ?_⟩
      have : x ≠ r := by rintro rfl; exact hn.1 hx
      simpa using this)
    refine ⟨fs', ?_, ?_⟩
    · simp only [List.map_cons, run, if_pos (hsub r List.mem_cons_self)]
      exact h1
    · intro x
      rw [h2, List.mem_filter]
      simp only [List.mem_cons, not_or, decide_eq_true_eq, ne_eq, decide_not, Bool.not_eq_true',
        decide_eq_false_iff_not]
      grind

/-- The state of the commands while the conversions of `bt` are added; `top` are the types
for which `create_conversions` was called from outside. -/
structure InvE (cf : Conf) (types : List Str) (bt : Str) (ex top : Str → Prop) (st : Cmds)
    (fs : List Str) : Prop where
  runs : run st.steps [] = some fs
  bt_mem : bt ∈ fs
  made : ∀ t c, .convert t c ∈ st.steps → c ∈ cf.convs ∧ t ∈ fs ∧ t ++ '.' :: c ∈ fs
  base_eq : ∀ x ∈ fs, base cf.convs x = bt
  nodup : st.steps.Nodup
  norm : ∀ t, .rm t ∉ st.steps
  rms_nodup : st.rms.Nodup
  rms : ∀ x ∈ st.rms, x ∈ fs ∧ x ∉ types
  acc : ∀ x ∈ fs, x = bt ∨ x ∈ types ∨ x ∈ st.rms ∨ top x
  src : ∀ x ∈ fs, x = bt ∨ ∃ t c, x = t ++ '.' :: c ∧ .convert t c ∈ st.steps
  inp : ∀ t c, .convert t c ∈ st.steps → t ∈ types ∨ t ∈ st.rms ∨ ex t

@[inherit_doc InvE]
abbrev Inv (cf : Conf) (types : List Str) (bt : Str) (top : Str → Prop) (st : Cmds)
    (fs : List Str) : Prop := InvE cf types bt (fun _ => False) top st fs

theorem createLoop_inv {cf : Conf} (hok : cf.Ok) {types : List Str} {bt : Str}
    {self : Str → Cmds → Cmds} {n : Nat}
    (hself : ∀ t st fs (top : Str → Prop), t.length < n → base cf.convs t = bt →
      Inv cf types bt top st fs → ∃ fs', Inv cf types bt (fun x => top x ∨ x = t) (self t st) fs' ∧
        (∀ x ∈ fs, x ∈ fs') ∧ t ∈ fs' ∧ (∀ x ∈ st.rms, x ∈ (self t st).rms)) :
    ∀ (cs : List Str) (t : Str) (st : Cmds) (fs : List Str) (top : Str → Prop), t.length ≤ n →
      base cf.convs t = bt →
      (∀ c ∈ cs, c ∈ cf.convs) → top t → Inv cf types bt top st fs →
      ∃ fs', Inv cf types bt top (createLoop self types cs t st) fs' ∧
        (∀ x ∈ fs, x ∈ fs') ∧ ((∃ c ∈ cs, ∃ p, t = p ++ '.' :: c) → t ∈ fs') ∧
        (∀ x ∈ st.rms, x ∈ (createLoop self types cs t st).rms) := by
  intro cs
  induction cs with
  | nil =>
    intro t st fs top _ _ _ _ hi
    exact ⟨fs, hi, fun _ h => h, by simp, fun _ h => h⟩
  | cons c cs ih =>
    intro t st fs top hlen hb hcs htop hi
    unfold createLoop
    split
    · rename_i he
      obtain ⟨p, rfl⟩ := endsWith_iff.mp he
      rw [take_suffix]
      have hc := hcs c List.mem_cons_self
      have hbp : base cf.convs p = bt := by rw [← hb, base_append hok.nodot hc]
      have hplen : p.length < n := by
        simp only [List.length_append, List.length_cons] at hlen; omega
      obtain ⟨fs1, hi1, hsub1, hp1, hr1⟩ := hself p st fs top hplen hbp hi
      dsimp only
      generalize hst1 : self p st = st1 at hi1 hr1 ⊢
      -- the conversion itself
      have h2 : ∃ fs2, InvE cf types bt (· = p) (fun x => top x ∨ x = p)
          (if .convert p c ∈ st1.steps then st1
            else { st1 with steps := st1.steps ++ [.convert p c] }) fs2 ∧
          (∀ x ∈ fs1, x ∈ fs2) ∧ p ++ '.' :: c ∈ fs2 ∧
          (if .convert p c ∈ st1.steps then st1
            else { st1 with steps := st1.steps ++ [.convert p c] }).rms = st1.rms := by
        split
        · rename_i hmem
          exact ⟨fs1, { hi1 with inp := fun t c h => (hi1.inp t c h).imp id (·.imp id False.elim) },
            fun _ h => h, (hi1.made _ _ hmem).2.2, rfl⟩
        · rename_i hmem
          refine ⟨(p ++ '.' :: c) :: fs1, ?_, fun _ h => List.mem_cons_of_mem _ h,
            List.mem_cons_self, rfl⟩
          refine ⟨?_, List.mem_cons_of_mem _ hi1.bt_mem, ?_, ?_, ?_, ?_, hi1.rms_nodup, ?_, ?_, ?_, ?_⟩
          · dsimp only
            rw [run_append, hi1.runs]
            simp only [Option.bind_some, run, if_pos hp1]
          · intro t' c' ht'
            rcases List.mem_append.mp ht' with ht' | ht'
            · obtain ⟨a1, a2, a3⟩ := hi1.made _ _ ht'
              exact ⟨a1, List.mem_cons_of_mem _ a2, List.mem_cons_of_mem _ a3⟩
            · obtain ⟨rfl, rfl⟩ : t' = p ∧ c' = c := by simpa using ht'
              exact ⟨hc, List.mem_cons_of_mem _ hp1, List.mem_cons_self⟩
          · intro x hx
            rcases List.mem_cons.mp hx with rfl | hx
            · exact hb
            · exact hi1.base_eq x hx
          · dsimp only
            rw [List.nodup_append]
            refine ⟨hi1.nodup, by simp, ?_⟩
            intro a ha b hb
            rw [List.mem_singleton.mp hb]
            rintro rfl
            exact hmem ha
          · intro t' ht'
            rcases List.mem_append.mp ht' with ht' | ht'
            · exact hi1.norm _ ht'
            · simp at ht'
          · intro x hx
            exact ⟨List.mem_cons_of_mem _ (hi1.rms x hx).1, (hi1.rms x hx).2⟩
          · intro x hx
            rcases List.mem_cons.mp hx with rfl | hx
            · exact Or.inr (Or.inr (Or.inr (Or.inl htop)))
            · exact hi1.acc x hx
          · intro x hx
            rcases List.mem_cons.mp hx with rfl | hx
            · exact Or.inr ⟨p, c, rfl, by simp⟩
            · exact (hi1.src x hx).imp id fun ⟨t, c, h1, h2⟩ =>
                ⟨t, c, h1, List.mem_append_left _ h2⟩
          · intro t' c' ht'
            rcases List.mem_append.mp ht' with ht' | ht'
            · exact (hi1.inp _ _ ht').imp id (·.imp id False.elim)
            · exact Or.inr (Or.inr (by simpa using (List.mem_singleton.mp ht' ▸ rfl :
                Step.convert t' c' = Step.convert p c) |> fun h => (Step.convert.inj h).1))
      obtain ⟨fs2, hi2, hsub2, hpc2, hr2⟩ := h2
      generalize hst2 : (if Step.convert p c ∈ st1.steps then st1
            else { st1 with steps := st1.steps ++ [.convert p c] }) = st2 at hi2 hr2 ⊢
      have hp2 : p ∈ fs2 := hsub2 p hp1
      -- the removal of the temporary image
      have h3 : Inv cf types bt top
          (if p ∈ types ∨ p ∈ st2.rms then st2 else { st2 with rms := st2.rms ++ [p] }) fs2 ∧
          (∀ x ∈ st2.rms, x ∈
            (if p ∈ types ∨ p ∈ st2.rms then st2 else { st2 with rms := st2.rms ++ [p] }).rms) ∧
          (p ∈ types ∨ p ∈
            (if p ∈ types ∨ p ∈ st2.rms then st2 else { st2 with rms := st2.rms ++ [p] }).rms) := by
        split
        · rename_i hor
          refine ⟨{ hi2 with acc := ?_, inp := ?_ }, fun _ h => h, hor⟩
          · intro x hx
            rcases hi2.acc x hx with h | h | h | h | rfl
            · exact Or.inl h
            · exact Or.inr (Or.inl h)
            · exact Or.inr (Or.inr (Or.inl h))
            · exact Or.inr (Or.inr (Or.inr h))
            · exact Or.inr (hor.imp id Or.inl)
          · intro t c h
            rcases hi2.inp t c h with h | h | rfl
            · exact Or.inl h
            · exact Or.inr (Or.inl h)
            · exact hor.imp id Or.inl
        · rename_i hor
          rw [not_or] at hor
          refine ⟨⟨hi2.runs, hi2.bt_mem, hi2.made, hi2.base_eq, hi2.nodup, hi2.norm, ?_, ?_, ?_, hi2.src,
            ?_⟩,
            fun _ h => List.mem_append_left _ h, Or.inr (by simp)⟩
          · dsimp only
            rw [List.nodup_append]
            refine ⟨hi2.rms_nodup, by simp, ?_⟩
            intro a ha b hb
            rw [List.mem_singleton.mp hb]
            rintro rfl
            exact hor.2 ha
          · intro x hx
            rcases List.mem_append.mp hx with hx | hx
            · exact hi2.rms x hx
            · rw [List.mem_singleton.mp hx]; exact ⟨hp2, hor.1⟩
          · intro x hx
            dsimp only
            rcases hi2.acc x hx with h | h | h | h | rfl
            · exact Or.inl h
            · exact Or.inr (Or.inl h)
            · exact Or.inr (Or.inr (Or.inl (List.mem_append_left _ h)))
            · exact Or.inr (Or.inr (Or.inr h))
            · exact Or.inr (Or.inr (Or.inl (by simp)))
          · intro t c h
            rcases hi2.inp t c h with h | h | rfl
            · exact Or.inl h
            · exact Or.inr (Or.inl (List.mem_append_left _ h))
            · exact Or.inr (Or.inl (by simp))
      obtain ⟨hi3, hr3, hp3⟩ := h3
      generalize hst3 : (if p ∈ types ∨ p ∈ st2.rms then st2
        else { st2 with rms := st2.rms ++ [p] }) = st3 at hi3 hr3 hp3 ⊢
      obtain ⟨fs4, hi4, hsub4, _, hr4⟩ := ih p st3 fs2 (fun x => top x ∨ x = p) (by omega) hbp
        (fun c hc => hcs c (List.mem_cons_of_mem _ hc)) (Or.inr rfl)
        { hi3 with acc := fun x hx => (hi3.acc x hx).imp id (·.imp id (·.imp id Or.inl)) }
      refine ⟨fs4, { hi4 with acc := ?_ }, ?_, ?_, ?_⟩
      · intro x hx
        rcases hi4.acc x hx with h | h | h | h | rfl
        · exact Or.inl h
        · exact Or.inr (Or.inl h)
        · exact Or.inr (Or.inr (Or.inl h))
        · exact Or.inr (Or.inr (Or.inr h))
        · exact Or.inr (hp3.imp id (fun h => Or.inl (hr4 _ h)))
      · exact fun x hx => hsub4 _ (hsub2 _ (hsub1 x hx))
      · exact fun _ => hsub4 _ hpc2
      · intro x hx
        exact hr4 _ (hr3 _ (by rw [hr2]; exact hr1 x hx))
    · rename_i he
      obtain ⟨fs', h1, h2, h3, h4⟩ := ih t st fs top hlen hb
        (fun c hc => hcs c (List.mem_cons_of_mem _ hc)) htop hi
      refine ⟨fs', h1, h2, ?_, h4⟩
      rintro ⟨c', hc', hp⟩
      rcases List.mem_cons.mp hc' with rfl | hc'
      · exact absurd (endsWith_iff.mpr hp) he
      · exact h3 ⟨c', hc', hp⟩

theorem createGo_inv {cf : Conf} (hok : cf.Ok) {types : List Str} {bt : Str} :
    ∀ (n : Nat) (t : Str) (st : Cmds) (fs : List Str) (top : Str → Prop), t.length < n →
      base cf.convs t = bt → Inv cf types bt top st fs →
      ∃ fs', Inv cf types bt (fun x => top x ∨ x = t) (createGo cf types n t st) fs' ∧
        (∀ x ∈ fs, x ∈ fs') ∧ t ∈ fs' ∧ (∀ x ∈ st.rms, x ∈ (createGo cf types n t st).rms) := by
  intro n
  induction n with
  | zero => intro t st fs top h; omega
  | succ n ih =>
    intro t st fs top hlen hb hi
    unfold createGo
    obtain ⟨fs', h1, h2, h3, h4⟩ := createLoop_inv hok (n := n) ih cf.sorted t st fs
      (fun x => top x ∨ x = t) (by omega) hb (fun c hc => (hok.sorted c).mp hc) (Or.inr rfl)
      { hi with acc := fun x hx => (hi.acc x hx).imp id (·.imp id (·.imp id Or.inl)) }
    refine ⟨fs', h1, h2, ?_, h4⟩
    by_cases hx : ∃ c ∈ cf.convs, ∃ p, t = p ++ '.' :: c
    · obtain ⟨c, hc, hp⟩ := hx
      exact h3 ⟨c, (hok.sorted c).mpr hc, hp⟩
    · have : base cf.convs t = t := base_of_nosuffix (fun c hc hp => hx ⟨c, hc, hp⟩)
      rw [← this, hb]
      exact h2 _ hi.bt_mem

theorem foldl_inv {cf : Conf} (hok : cf.Ok) {types : List Str} {bt : Str} :
    ∀ (ts : List Str) (st : Cmds) (fs : List Str) (top : Str → Prop),
      (∀ t ∈ ts, base cf.convs t = bt) → Inv cf types bt top st fs →
      ∃ fs', Inv cf types bt (fun x => top x ∨ x ∈ ts)
          (ts.foldl (fun st t => create cf types t st) st) fs' ∧
        (∀ x ∈ fs, x ∈ fs') ∧ (∀ t ∈ ts, t ∈ fs') ∧
        (∀ x ∈ st.rms, x ∈ (ts.foldl (fun st t => create cf types t st) st).rms) := by
  intro ts
  induction ts with
  | nil =>
    intro st fs top _ hi
    exact ⟨fs, { hi with acc := fun x hx => (hi.acc x hx).imp id (·.imp id (·.imp id Or.inl)) },
      fun _ h => h, by simp, fun _ h => h⟩
  | cons t ts ih =>
    intro st fs top hb hi
    obtain ⟨fs1, h1, h2, h3, h4⟩ := createGo_inv hok (t.length + 1) t st fs top (by omega)
      (hb t List.mem_cons_self) hi
    obtain ⟨fs2, g1, g2, g3, g4⟩ := ih _ fs1 _ (fun x hx => hb x (List.mem_cons_of_mem _ hx)) h1
    refine ⟨fs2, { g1 with acc := ?_ }, fun x hx => g2 _ (h2 x hx), ?_, fun x hx => g4 _ (h4 x hx)⟩
    · intro x hx
      rcases g1.acc x hx with h | h | h | (h | rfl) | h
      · exact Or.inl h
      · exact Or.inr (Or.inl h)
      · exact Or.inr (Or.inr (Or.inl h))
      · exact Or.inr (Or.inr (Or.inr (Or.inl h)))
      · exact Or.inr (Or.inr (Or.inr (Or.inr List.mem_cons_self)))
      · exact Or.inr (Or.inr (Or.inr (Or.inr (List.mem_cons_of_mem _ h))))
    · intro x hx
      rcases List.mem_cons.mp hx with rfl | hx
      · exact g2 _ h3
      · exact g3 x hx

end Isar.ImageTypes
