import Verif.Wic.KsModel
/-! # Lemmas for the kickstart parser -/

namespace Isar.Wic.Ks

open Py

/-! ## numbers -/

theorem digitsVal_digits (ds : Str) (hd : ∀ c ∈ ds, c.isDigit = true) : ∀ b acc,
    (b = true ∨ ds ≠ []) →
    digitsVal b acc ds = some (ds.foldl (fun a c => 10 * a + digitVal c) acc) := by
  induction ds with
  | nil =>
    intro b acc h
    rcases h with h | h
    · simp [digitsVal, h]
    · exact absurd rfl h
  | cons c ds ih =>
    intro b acc _
    rw [digitsVal, if_pos (hd c (by simp)), ih (fun c h => hd c (by simp [h])) _ _ (Or.inl rfl)]
    rfl

theorem digitsVal_sound (ds : Str) : ∀ b acc n, digitsVal b acc ds = some n →
    n = (ds.filter (· ≠ '_')).foldl (fun a c => 10 * a + digitVal c) acc ∧
      ∀ c ∈ ds, c.isDigit = true ∨ c = '_' := by
  induction ds with
  | nil =>
    intro b acc n h
    simp only [digitsVal] at h
    split at h
    · simp only [Option.some.injEq] at h
      exact ⟨h.symm, by simp⟩
    · simp at h
  | cons c ds ih =>
    intro b acc n h
    rw [digitsVal] at h
    split at h
    · next hc =>
      obtain ⟨h1, h2⟩ := ih _ _ _ h
      have hne : c ≠ '_' := by
        rintro rfl
        exact absurd hc (by decide)
      rw [List.filter_cons_of_pos (by simpa using hne)]
      refine ⟨h1, fun x hx => ?_⟩
      rw [List.mem_cons] at hx
      rcases hx with rfl | hx
      · exact Or.inl hc
      · exact h2 x hx
    · split at h
      · next hu =>
        obtain ⟨h1, h2⟩ := ih _ _ _ h
        rw [List.filter_cons_of_neg (by simp [hu.1])]
        refine ⟨h1, fun x hx => ?_⟩
        rw [List.mem_cons] at hx
        rcases hx with rfl | hx
        · exact Or.inr hu.1
        · exact h2 x hx
      · simp at h

theorem isDigit_not_ws {c : Char} (h : c.isDigit = true) : isWs c = false := by
  cases hw : isWs c
  · rfl
  · simp only [isWs, Bool.or_eq_true, decide_eq_true_eq] at hw
    rcases hw with ((((((((rfl | rfl) | rfl) | rfl) | rfl) | rfl) | rfl) | rfl) | rfl) | rfl <;>
      exact absurd h (by decide)

theorem dropWhile_ws_clean {s : Str} (h : ∀ c ∈ s.head?, isWs c = false) :
    s.dropWhile isWs = s := by
  cases s with
  | nil => rfl
  | cons c s => rw [List.dropWhile_cons_of_neg (by simp [h c (by simp)])]

theorem strip_clean {s : Str} (h1 : ∀ c ∈ s.head?, isWs c = false)
    (h2 : ∀ c ∈ s.getLast?, isWs c = false) : strip s = s := by
  unfold strip rstrip lstrip
  rw [dropWhile_ws_clean h1, dropWhile_ws_clean (by rw [List.head?_reverse]; exact h2),
    List.reverse_reverse]

theorem dec_head_not_ws (n : Nat) : ∀ c ∈ (dec n).head?, isWs c = false := by
  intro c hc
  exact isDigit_not_ws (dec_digits (List.mem_of_mem_head? hc))

theorem pyInt_core {s : Str} (h1 : ∀ c ∈ s.head?, isWs c = false)
    (h2 : ∀ c ∈ s.getLast?, isWs c = false) (hm : s.head? ≠ some '-') (hp : s.head? ≠ some '+') :
    pyInt s = (digitsVal false 0 s).map fun (n : Nat) => (n : Int) := by
  unfold pyInt
  rw [strip_clean h1 h2]
  split
  · simp at hm
  · simp at hp
  · rfl

theorem dec_head_ne {n : Nat} {c : Char} (hc : c.isDigit = false) (t : Str) :
    (dec n ++ t).head? ≠ some c := by
  cases h : dec n with
  | nil => exact absurd h (dec_ne_nil n)
  | cons d ds =>
    simp only [List.cons_append, List.head?_cons, ne_eq, Option.some.injEq]
    rintro rfl
    rw [dec_digits (n := n) (by rw [h]; simp)] at hc
    cases hc

theorem pyInt_dec (n : Nat) : pyInt (dec n) = some (n : Int) := by
  rw [pyInt_core (dec_head_not_ws n) ?_ ?_ ?_]
  · rw [digitsVal_digits _ (fun c => dec_digits) _ _ (Or.inr (dec_ne_nil n))]
    have := decVal_dec n
    unfold decVal at this
    rw [this]
    rfl
  · intro c hc
    exact isDigit_not_ws (dec_digits (List.mem_of_mem_getLast? hc))
  · have := dec_head_ne (n := n) (c := '-') (by decide) []
    rwa [List.append_nil] at this
  · have := dec_head_ne (n := n) (c := '+') (by decide) []
    rwa [List.append_nil] at this

theorem digitsVal_append_bad (ds : Str) (c : Char) (hd : c.isDigit = false) : ∀ b acc,
    digitsVal b acc (ds ++ [c]) = none := by
  induction ds with
  | nil =>
    intro b acc
    simp only [List.nil_append, digitsVal, hd, Bool.false_eq_true, if_false]
    split <;> rfl
  | cons d ds ih =>
    intro b acc
    rw [List.cons_append, digitsVal]
    split
    · exact ih _ _
    · split
      · exact ih _ _
      · rfl

theorem pyInt_dec_suffix (n : Nat) (c : Char) (hd : c.isDigit = false) (hw : isWs c = false) :
    pyInt (dec n ++ [c]) = none := by
  rw [pyInt_core ?_ ?_ (dec_head_ne (by decide) _) (dec_head_ne (by decide) _)]
  · rw [digitsVal_append_bad _ _ hd]
    rfl
  · intro x hx
    cases h : dec n with
    | nil => exact absurd h (dec_ne_nil n)
    | cons d ds =>
      rw [h] at hx
      simp only [List.cons_append, List.head?_cons, Option.mem_def, Option.some.injEq] at hx
      subst hx
      exact dec_head_not_ws n d (by rw [h]; rfl)
  · intro x hx
    simp only [List.getLast?_append, List.getLast?_singleton, Option.or_some, Option.mem_def,
      Option.some.injEq, Option.some_or] at hx
    subst hx
    exact hw

/-! ## references -/

theorem dropWhile_app {p : Char → Bool} {k r : Str} {c : Char} (hk : ∀ x ∈ k, p x = true)
    (hc : p c = false) : (k ++ c :: r).dropWhile p = c :: r ∧
      (k ++ c :: r).takeWhile p = k := by
  induction k with
  | nil => simp [hc]
  | cons x k ih =>
    have := ih (fun y hy => hk y (by simp [hy]))
    simp [hk x (by simp), this]

theorem matchRef_some {s k r : Str} : matchRef s = some (k, r) ↔
    s = '$' :: '{' :: (k ++ '}' :: r) ∧ k ≠ [] ∧ ∀ c ∈ k, keyChar c = true := by
  constructor
  · intro h
    unfold matchRef at h
    split at h
    · next s =>
      split at h
      · next rest hd =>
        split at h
        · simp at h
        · next hne =>
          simp only [Option.some.injEq, Prod.mk.injEq] at h
          obtain ⟨rfl, rfl⟩ := h
          refine ⟨?_, hne, fun c hc => List.all_eq_true.1 List.all_takeWhile c hc⟩
          rw [← hd, List.takeWhile_append_dropWhile]
      · simp at h
    · simp at h
  · rintro ⟨rfl, hne, hk⟩
    unfold matchRef
    simp only [(dropWhile_app (r := r) hk (show keyChar '}' = false by decide)).1,
      (dropWhile_app (r := r) hk (show keyChar '}' = false by decide)).2]
    rw [if_neg hne]

theorem searchRef_some {s a k r : Str} (h : searchRef s = some (a, k, r)) :
    s = a ++ '$' :: '{' :: (k ++ '}' :: r) ∧ k ≠ [] ∧ ∀ c ∈ k, keyChar c = true := by
  induction s generalizing a with
  | nil => simp [searchRef] at h
  | cons c s ih =>
    unfold searchRef at h
    split at h
    · next k' rest hm =>
      simp only [Option.some.injEq, Prod.mk.injEq] at h
      obtain ⟨rfl, rfl, rfl⟩ := h
      exact matchRef_some.1 hm
    · cases hs : searchRef s with
      | none => rw [hs] at h; simp at h
      | some x =>
        obtain ⟨a', k', r'⟩ := x
        rw [hs] at h
        simp only [Option.map_some, Option.some.injEq, Prod.mk.injEq] at h
        obtain ⟨rfl, rfl, rfl⟩ := h
        obtain ⟨h1, h2⟩ := ih hs
        exact ⟨by rw [h1]; rfl, h2⟩

theorem searchRef_none {s : Str} (h : searchRef s = none) (a k r : Str)
    (hs : s = a ++ '$' :: '{' :: (k ++ '}' :: r)) (hne : k ≠ [])
    (hk : ∀ c ∈ k, keyChar c = true) : False := by
  induction s generalizing a with
  | nil => cases a <;> simp at hs
  | cons c s ih =>
    unfold searchRef at h
    split at h
    · simp at h
    · next hm =>
      cases a with
      | nil =>
        rw [hs, List.nil_append, matchRef_some.2 ⟨rfl, hne, hk⟩] at hm
        simp at hm
      | cons x a =>
        simp only [List.cons_append, List.cons.injEq] at hs
        obtain ⟨rfl, hs⟩ := hs
        have : searchRef s = none := by simpa using h
        exact ih this a hs

/-- The match found is the first one. -/
theorem searchRef_first {s a k r : Str} (h : searchRef s = some (a, k, r)) (a' k' r' : Str)
    (hs : s = a' ++ '$' :: '{' :: (k' ++ '}' :: r')) (hne : k' ≠ [])
    (hk : ∀ c ∈ k', keyChar c = true) : a.length ≤ a'.length := by
  induction s generalizing a a' with
  | nil => simp [searchRef] at h
  | cons c s ih =>
    unfold searchRef at h
    split at h
    · simp only [Option.some.injEq, Prod.mk.injEq] at h
      rw [← h.1]
      exact Nat.zero_le _
    · next hm =>
      cases a' with
      | nil =>
        rw [hs, List.nil_append, matchRef_some.2 ⟨rfl, hne, hk⟩] at hm
        simp at hm
      | cons x a' =>
        simp only [List.cons_append, List.cons.injEq] at hs
        obtain ⟨rfl, hs⟩ := hs
        cases hq : searchRef s with
        | none => exact (searchRef_none hq a' k' r' hs hne hk).elim
        | some y =>
          obtain ⟨b, k2, r2⟩ := y
          rw [hq] at h
          simp only [Option.map_some, Option.some.injEq, Prod.mk.injEq] at h
          obtain ⟨rfl, rfl, rfl⟩ := h
          have := ih hq a' hs
          simp only [List.length_cons]
          omega

theorem searchRef_lit {a s : Str} (ha : '$' ∉ a) :
    searchRef (a ++ s) = (searchRef s).map fun x => (a ++ x.1, x.2.1, x.2.2) := by
  induction a with
  | nil => simp
  | cons c a ih =>
    rw [List.cons_append, searchRef]
    have hm : matchRef (c :: (a ++ s)) = none := by
      cases h : matchRef (c :: (a ++ s)) with
      | none => rfl
      | some x =>
        obtain ⟨k, r⟩ := x
        have := (matchRef_some.1 h).1
        simp only [List.cons.injEq] at this
        exact absurd (by simp [this.1]) ha
    rw [hm]
    simp only
    rw [ih (fun h => ha (by simp [h]))]
    simp [Function.comp_def]

/-! ## shlex -/

/-- A character that is neither blank nor has a meaning to `shlex`. -/
def shPlain (c : Char) : Bool := !(shWs c || c = '\\' || c = '\'' || c = '"')

theorem shPlain_iff {c : Char} : shPlain c = true ↔
    shWs c = false ∧ c ≠ '\\' ∧ c ≠ '\'' ∧ c ≠ '"' := by
  simp [shPlain, and_assoc]

theorem shlexGo_plain (w : Str) (hw : ∀ c ∈ w, shPlain c = true) (rest : Str) : ∀ tok q,
    shlexGo .word tok q (w ++ rest) = shlexGo .word (tok ++ w) q rest := by
  induction w with
  | nil => intro tok q; simp
  | cons c w ih =>
    intro tok q
    obtain ⟨h1, h2, h3, h4⟩ := shPlain_iff.1 (hw c (by simp))
    rw [List.cons_append, shlexGo, if_neg (by simp [h1]), if_neg h2, if_neg h3, if_neg h4,
      ih (fun c hc => hw c (by simp [hc]))]
    simp

theorem shlexGo_blank_plain (c : Char) (w : Str) (hw : ∀ x ∈ c :: w, shPlain x = true)
    (rest : Str) :
    shlexGo .blank [] false (c :: w ++ rest) = shlexGo .word (c :: w) false rest := by
  obtain ⟨h1, h2, h3, h4⟩ := shPlain_iff.1 (hw c (by simp))
  rw [List.cons_append, shlexGo, if_neg (by simp [h1]), if_neg h2, if_neg h3, if_neg h4,
    shlexGo_plain w (fun x hx => hw x (by simp [hx]))]
  rfl

/-- Plain words separated by blanks are split at the blanks. -/
theorem shlexSplit_join (ws : List Str) (h : ∀ w ∈ ws, w ≠ [] ∧ ∀ c ∈ w, shPlain c = true) :
    shlexSplit (join [' '] ws) = some ws := by
  unfold shlexSplit
  induction ws with
  | nil => rfl
  | cons w ws ih =>
    obtain ⟨hne, hp⟩ := h w (by simp)
    cases w with
    | nil => exact absurd rfl hne
    | cons c w =>
      cases ws with
      | nil =>
        rw [join]
        have := shlexGo_blank_plain c w hp []
        rw [List.append_nil] at this
        rw [this, shlexGo, if_neg (by simp)]
      | cons w' ws =>
        rw [join, List.append_assoc, shlexGo_blank_plain c w hp]
        rw [List.singleton_append, shlexGo, if_pos (by decide), if_neg (by simp),
          ih (fun x hx => h x (by simp [hx]))]
        rfl

theorem shlexGo_plain_prefix (s : Str) (hs : ∀ c ∈ s, c ≠ '\\' ∧ c ≠ '\'' ∧ c ≠ '"') : ∀ tok,
    tok ≠ [] → ∃ w ws, shlexGo .word tok false s = some ((tok ++ w) :: ws) ∧ w <+: s := by
  induction s with
  | nil =>
    intro tok ht
    exact ⟨[], [], by simp [shlexGo, ht], List.prefix_refl _⟩
  | cons c s ih =>
    intro tok ht
    obtain ⟨h2, h3, h4⟩ := hs c (by simp)
    have hs' := fun x (hx : x ∈ s) => hs x (by simp [hx])
    by_cases hc : shWs c = true
    · have : ∃ ws, shlexGo .blank [] false s = some ws := by
        clear ih hs h2 h3 h4 hc ht
        induction s with
        | nil => exact ⟨[], rfl⟩
        | cons x s ihs =>
          have hx := hs' x (by simp)
          have hs'' := fun y (hy : y ∈ s) => hs' y (by simp [hy])
          obtain ⟨ws, hws⟩ := ihs hs''
          rw [shlexGo]
          by_cases hxw : shWs x = true
          · rw [if_pos hxw]
            exact ⟨ws, hws⟩
          · rw [if_neg hxw, if_neg hx.1, if_neg hx.2.1, if_neg hx.2.2]
            clear ihs hx hs' hxw
            have aux : ∀ tok ws, tok ≠ [] → shlexGo .blank [] false s = some ws →
                (∃ vs, shlexGo .word tok false s = some vs) := by
              clear hws
              induction s with
              | nil => intro tok _ _ _; exact ⟨_, rfl⟩
              | cons y s ihs =>
                intro tok ws ht hb
                have hy := hs'' y (by simp)
                rw [shlexGo]
                by_cases hyw : shWs y = true
                · rw [if_pos hyw, if_neg (by simp [ht])]
                  rw [shlexGo, if_pos hyw] at hb
                  rw [hb]
                  exact ⟨_, rfl⟩
                · rw [if_neg hyw, if_neg hy.1, if_neg hy.2.1, if_neg hy.2.2]
                  rw [shlexGo, if_neg hyw, if_neg hy.1, if_neg hy.2.1, if_neg hy.2.2] at hb
                  have : ∀ (s : Str), (∀ z ∈ s, z ≠ '\\' ∧ z ≠ '\'' ∧ z ≠ '"') → ∀ t1 t2 : Str,
                      t1 ≠ [] → t2 ≠ [] → (∃ v, shlexGo .word t1 false s = some v) →
                      ∃ v, shlexGo .word t2 false s = some v := by
                    intro s
                    induction s with
                    | nil => intro _ _ _ _ _ _; exact ⟨_, rfl⟩
                    | cons z s ihz =>
                      intro hz t1 t2 h1 h2 ⟨v, hv⟩
                      have hz' := hz z (by simp)
                      rw [shlexGo] at hv ⊢
                      by_cases hzw : shWs z = true
                      · rw [if_pos hzw, if_neg (by simp [h1])] at hv
                        rw [if_pos hzw, if_neg (by simp [h2])]
                        cases hq : shlexGo .blank [] false s with
                        | none => rw [hq] at hv; simp at hv
                        | some q => exact ⟨_, rfl⟩
                      · rw [if_neg hzw, if_neg hz'.1, if_neg hz'.2.1, if_neg hz'.2.2] at hv ⊢
                        exact ihz (fun a ha => hz a (by simp [ha])) _ _ (by simp) (by simp) ⟨v, hv⟩
                  exact this s (fun z hz => hs'' z (by simp [hz])) [y] _ (by simp) (by simp)
                    ⟨_, hb⟩
            exact aux _ _ (by simp) hws
      obtain ⟨ws, hws⟩ := this
      refine ⟨[], ws, ?_, List.nil_prefix⟩
      rw [shlexGo, if_pos hc, if_neg (by simp [ht]), hws]
      simp
    · obtain ⟨w, ws, h1, h5⟩ := ih hs' (tok ++ [c]) (by simp)
      refine ⟨c :: w, ws, ?_, ?_⟩
      · rw [shlexGo, if_neg hc, if_neg h2, if_neg h3, if_neg h4, h1]
        simp
      · exact (List.prefix_cons_inj c).2 h5

/-! ## scanning -/

/-- An option that is spelled out is recorded. -/
theorem scan_records {opts : List (Str × Arity)} {o : Str}
    (ho : resolve opts o = .opt o .one none) (ws : List Str) : ∀ m occs pos,
    scanArgs opts m ws = some (occs, pos) → o ∈ ws → ∃ x ∈ occs, x.opt = o := by
  have hneed : ∀ ts occs pos, scanArgs opts (.need o) ts = some (occs, pos) →
      ∃ x ∈ occs, x.opt = o := by
    intro ts occs pos h
    cases ts with
    | nil => simp [scanArgs] at h
    | cons t ts =>
      rw [scanArgs] at h
      split at h
      · cases hs : scanArgs opts .idle ts with
        | none => rw [hs] at h; simp at h
        | some r =>
          rw [hs] at h
          simp only [Option.map_some, Option.some.injEq, Prod.mk.injEq] at h
          rw [← h.1]
          exact ⟨⟨o, [t]⟩, by simp, rfl⟩
      · simp at h
  have hstart : startWord opts o = some ([], [], .need o) := by
    unfold startWord
    rw [ho]
  induction ws with
  | nil => simp
  | cons t ts ih =>
    intro m occs pos h hm
    rw [List.mem_cons] at hm
    cases m with
    | idle =>
      rw [scanArgs] at h
      split at h
      · simp at h
      · next os ps m' hst =>
        cases hs : scanArgs opts m' ts with
        | none => rw [hs] at h; simp at h
        | some r =>
          rw [hs] at h
          simp only [Option.map_some, Option.some.injEq, Prod.mk.injEq] at h
          obtain ⟨rfl, -⟩ := h
          rcases hm with rfl | hm
          · rw [hstart] at hst
            simp only [Option.some.injEq, Prod.mk.injEq] at hst
            obtain ⟨rfl, rfl, rfl⟩ := hst
            obtain ⟨x, hx, h1⟩ := hneed _ _ _ hs
            exact ⟨x, by simp [hx], h1⟩
          · obtain ⟨x, hx, h1⟩ := ih _ _ _ hs hm
            exact ⟨x, by simp [hx], h1⟩
    | need p =>
      rw [scanArgs] at h
      split at h
      · next hr =>
        cases hs : scanArgs opts .idle ts with
        | none => rw [hs] at h; simp at h
        | some r =>
          rw [hs] at h
          simp only [Option.map_some, Option.some.injEq, Prod.mk.injEq] at h
          obtain ⟨rfl, -⟩ := h
          rcases hm with rfl | hm
          · rw [ho] at hr; simp at hr
          · obtain ⟨x, hx, h1⟩ := ih _ _ _ hs hm
            exact ⟨x, by simp [hx], h1⟩
      · simp at h
    | many p vs =>
      rw [scanArgs] at h
      split at h
      · next hr =>
        rcases hm with rfl | hm
        · rw [ho] at hr; simp at hr
        · exact ih _ _ _ h hm
      · split at h
        · simp at h
        · split at h
          · simp at h
          · next os ps m' hst =>
            cases hs : scanArgs opts m' ts with
            | none => rw [hs] at h; simp at h
            | some r =>
              rw [hs] at h
              simp only [Option.map_some, Option.some.injEq, Prod.mk.injEq] at h
              obtain ⟨rfl, -⟩ := h
              rcases hm with rfl | hm
              · rw [hstart] at hst
                simp only [Option.some.injEq, Prod.mk.injEq] at hst
                obtain ⟨rfl, rfl, rfl⟩ := hst
                obtain ⟨x, hx, h1⟩ := hneed _ _ _ hs
                exact ⟨x, by simp [hx], h1⟩
              · obtain ⟨x, hx, h1⟩ := ih _ _ _ hs hm
                exact ⟨x, by simp [hx], h1⟩

end Isar.Wic.Ks
