import Verif.Bb.UrlSpec
/-!
# Lemmas about URLs
-/

namespace Bb.Url
open Py

/-! ## quote and unquote -/

theorem hex_digits : ∀ n, n < 16 → hexVal (hexChar n) = some n := by decide

theorem safe_ne (c : Char) (h : safe c = true) : c ≠ '%' ∧ c ≠ '@' ∧ c ≠ ';' := by
  refine ⟨?_, ?_, ?_⟩ <;> rintro rfl <;> exact absurd h (by decide)

theorem unquote_quote (s : Str) (h : ∀ c, c ∈ s → c.toNat < 128) : unquote (quote s) = s := by
  induction s with
  | nil => unfold quote unquote; rfl
  | cons c s ih =>
    have hc := h c List.mem_cons_self
    have ih := ih fun x hx => h x (List.mem_cons_of_mem _ hx)
    unfold quote
    by_cases hs : safe c = true
    · rw [if_pos hs, unquote.eq_def]
      dsimp only
      rw [if_neg (safe_ne c hs).1, ih]
    · rw [if_neg hs, unquote.eq_def]
      dsimp only
      rw [if_pos rfl, hex_digits _ (by omega), hex_digits _ (by omega)]
      dsimp only
      rw [ih]
      congr 1
      have : 16 * (c.toNat / 16) + c.toNat % 16 = c.toNat := by omega
      rw [this]
      exact Char.ofNat_toNat c

theorem hexChar_safe : ∀ n, n < 16 → safe (hexChar n) = true := by decide

theorem quote_chars (s : Str) (h : ∀ c, c ∈ s → c.toNat < 128) :
    ∀ c, c ∈ quote s → c ≠ '@' ∧ c ≠ ';' := by
  induction s with
  | nil => intro c hc; unfold quote at hc; exact nomatch hc
  | cons x s ih =>
    have hx := h x List.mem_cons_self
    have ih := ih fun x hx => h x (List.mem_cons_of_mem _ hx)
    intro c hc
    unfold quote at hc
    by_cases hs : safe x = true
    · rw [if_pos hs] at hc
      rcases List.mem_cons.1 hc with rfl | hc
      · exact (safe_ne c hs).2
      · exact ih c hc
    · rw [if_neg hs] at hc
      rcases List.mem_cons.1 hc with rfl | hc
      · exact ⟨by decide, by decide⟩
      rcases List.mem_cons.1 hc with rfl | hc
      · exact (safe_ne _ (hexChar_safe _ (by omega))).2
      rcases List.mem_cons.1 hc with rfl | hc
      · exact (safe_ne _ (hexChar_safe _ (by omega))).2
      · exact ih c hc

theorem quote_slash (s : Str) (h : s.head? = some '/') : ∃ t, quote s = '/' :: t := by
  cases s with
  | nil => cases h
  | cons c s =>
    cases h
    exact ⟨quote s, rfl⟩

theorem quote_nil (s : Str) (h : quote s = []) : s = [] := by
  cases s with
  | nil => rfl
  | cons c s =>
    unfold quote at h
    by_cases hs : safe c = true
    · rw [if_pos hs] at h; cases h
    · rw [if_neg hs] at h; cases h

/-! ## Slashes -/

theorem noDouble_iff (s : Str) : NoDouble s ↔ isSub ['/', '/'] s = false := by
  rw [← Bool.not_eq_true, isSub_iff]
  constructor
  · rintro h ⟨a, b, e⟩
    exact h a b (by rw [e, List.append_assoc]; rfl)
  · intro h a b e
    exact h ⟨a, b, by rw [e, List.append_assoc]; rfl⟩

theorem squeezeAll_clean (n : Nat) (s : Str) (h : NoDouble s) : squeezeAll n s = s := by
  cases n with
  | zero => rfl
  | succ n =>
    unfold squeezeAll
    rw [(noDouble_iff s).1 h]
    rfl

theorem squeeze_le (s : Str) : (squeeze s).length ≤ s.length := by
  fun_induction squeeze s with
  | case1 => exact Nat.le_refl _
  | case2 c s => simp only [List.length_cons]; omega
  | case3 => simp only [List.length_cons] at *; omega
  | case4 => exact Nat.le_refl _
  | case5 => simp only [List.length_cons] at *; omega

theorem squeeze_lt (s : Str) (h : isSub ['/', '/'] s = true) : (squeeze s).length < s.length := by
  rw [isSub_iff] at h
  obtain ⟨a, b, e⟩ := h
  rw [List.append_assoc] at e
  subst e
  induction a with
  | nil =>
    have := squeeze_le b
    show (squeeze ('/' :: '/' :: b)).length < _
    rw [squeeze.eq_def]
    simp only [List.length_cons, List.length_append, List.length_nil, if_true]
    omega
  | cons c a ih =>
    rw [List.cons_append, squeeze.eq_def]
    dsimp only
    by_cases hc : c = '/'
    · rw [if_pos hc]
      cases hs : a ++ (['/', '/'] ++ b) with
      | nil => rw [hs] at ih; exact absurd ih (by decide)
      | cons d r =>
        dsimp only
        rw [hs] at ih
        by_cases hd : d = '/'
        · rw [if_pos hd]
          have := squeeze_le r
          simp only [List.length_cons]
          omega
        · rw [if_neg hd]
          simp only [List.length_cons] at ih ⊢
          omega
    · rw [if_neg hc]
      simp only [List.length_cons]
      omega

theorem squeezeAll_noDouble (n : Nat) (s : Str) (h : s.length ≤ n) : NoDouble (squeezeAll n s) := by
  induction n generalizing s with
  | zero =>
    cases s with
    | nil => intro a b e; cases a <;> cases e
    | cons c s => exact absurd h (by simp only [List.length_cons]; omega)
  | succ n ih =>
    unfold squeezeAll
    cases hs : isSub ['/', '/'] s with
    | false => exact (noDouble_iff s).2 hs
    | true =>
      refine ih _ ?_
      have := squeeze_lt s hs
      omega

theorem squeeze_mem (s : Str) : ∀ c, c ∈ squeeze s → c ∈ s := by
  fun_induction squeeze s with
  | case1 => exact fun c h => h
  | case2 r ih =>
    intro x hx
    rcases List.mem_cons.1 hx with rfl | hx
    · exact List.mem_cons_self
    · exact List.mem_cons_of_mem _ (List.mem_cons_of_mem _ (ih x hx))
  | case3 c s hc ih =>
    intro x hx
    rcases List.mem_cons.1 hx with rfl | hx
    · exact List.mem_cons_self
    · exact List.mem_cons_of_mem _ (ih x hx)
  | case4 => exact fun c h => h
  | case5 c s hc ih =>
    intro x hx
    rcases List.mem_cons.1 hx with rfl | hx
    · exact List.mem_cons_self
    · exact List.mem_cons_of_mem _ (ih x hx)

theorem squeezeAll_mem (n : Nat) (s : Str) : ∀ c, c ∈ squeezeAll n s → c ∈ s := by
  induction n generalizing s with
  | zero => exact fun c h => h
  | succ n ih =>
    intro c hc
    unfold squeezeAll at hc
    cases hs : isSub ['/', '/'] s with
    | false => rw [hs] at hc; exact hc
    | true => rw [hs] at hc; exact squeeze_mem s c (ih _ c hc)

theorem squeeze_head (s : Str) (h : s.head? = some '/') : (squeeze s).head? = some '/' := by
  cases s with
  | nil => cases h
  | cons c s =>
    cases h
    rw [squeeze.eq_def]
    dsimp only
    rw [if_pos rfl]
    cases s with
    | nil => rfl
    | cons d r =>
      dsimp only
      by_cases hd : d = '/'
      · rw [if_pos hd]; rfl
      · rw [if_neg hd]; rfl

theorem squeezeAll_head (n : Nat) (s : Str) (h : s.head? = some '/') :
    (squeezeAll n s).head? = some '/' := by
  induction n generalizing s with
  | zero => exact h
  | succ n ih =>
    unfold squeezeAll
    cases hs : isSub ['/', '/'] s with
    | false => exact h
    | true => exact ih _ (squeeze_head s h)

/-! ## Cutting text -/

theorem takeWhile_append (c : Char) (a b : Str) (ha : c ∉ a) (hb : b = [] ∨ ∃ t, b = c :: t) :
    (a ++ b).takeWhile (· ≠ c) = a ∧ (a ++ b).dropWhile (· ≠ c) = b := by
  induction a with
  | nil =>
    rcases hb with rfl | ⟨t, rfl⟩
    · exact ⟨rfl, rfl⟩
    · simp
  | cons x a ih =>
    simp only [List.mem_cons, not_or] at ha
    have ih := ih ha.2
    have hx : decide (x ≠ c) = true := decide_eq_true fun e => ha.1 e.symm
    rw [List.cons_append, List.takeWhile_cons, List.dropWhile_cons, hx]
    simp only [if_true]
    rw [ih.1, ih.2]
    exact ⟨rfl, rfl⟩

theorem lastAt_none (h t : Str) (hh : '@' ∉ h) (ht : t = [] ∨ ∃ c r, t = c :: r ∧ (c = '/' ∨ c = ';')) :
    lastAt (h ++ t) = none := by
  induction h with
  | nil =>
    rcases ht with rfl | ⟨c, r, rfl, hc⟩
    · rfl
    · rw [List.nil_append, lastAt, if_pos hc]
  | cons x h ih =>
    simp only [List.mem_cons, not_or] at hh
    rw [List.cons_append, lastAt]
    by_cases hx : x = '/' ∨ x = ';'
    · rw [if_pos hx]
    · rw [if_neg hx, ih hh.2]
      dsimp only
      rw [if_neg (fun e => hh.1 e.1.symm)]

theorem lastAt_some (a t : Str) (ha : '/' ∉ a ∧ ';' ∉ a) (ht : t ≠ [] ∧ t.head? ≠ some ';')
    (hn : lastAt t = none) : lastAt (a ++ '@' :: t) = some (a, t) := by
  induction a with
  | nil =>
    rw [List.nil_append, lastAt, if_neg (by decide), hn]
    dsimp only
    rw [if_pos ⟨rfl, ht⟩]
  | cons x a ih =>
    simp only [List.mem_cons, not_or] at ha
    rw [List.cons_append, lastAt, if_neg (by
      rintro (e | e)
      · exact ha.1.1 e.symm
      · exact ha.2.1 e.symm), ih ⟨ha.1.2, ha.2.2⟩]

/-! ## Parameters -/

/-- The parameters as they are written. -/
def written (p : Dict Str) : List Str := p.map fun e => e.1 ++ '=' :: e.2

theorem showParms_join (p : Dict Str) (h : p ≠ []) :
    showParms p = ';' :: join [';'] (written p) := by
  induction p with
  | nil => exact absurd rfl h
  | cons e p ih =>
    obtain ⟨k, v⟩ := e
    cases p with
    | nil =>
      show ';' :: (k ++ '=' :: v) ++ [] = _
      rw [List.append_nil]
      rfl
    | cons e' p =>
      rw [showParms, ih (by simp)]
      show _ = ';' :: join [';'] ((k ++ '=' :: v) :: written (e' :: p))
      have : written (e' :: p) = (e'.1 ++ '=' :: e'.2) :: written p := rfl
      rw [this]
      show _ = ';' :: ((k ++ '=' :: v) ++ [';'] ++ join [';'] _)
      rw [List.append_assoc]
      rfl

theorem lookup_none_of_not_mem (d : Dict Str) (k : Str) (h : k ∉ d.map Prod.fst) : d.lookup k = none := by
  induction d with
  | nil => rfl
  | cons e d ih =>
    obtain ⟨a, b⟩ := e
    simp only [List.map_cons, List.mem_cons, not_or] at h
    rw [List.lookup_cons]
    have : (k == a) = false := by simpa using h.1
    rw [this]
    exact ih h.2

theorem parms_written (p acc : Dict Str) (hp : ParmOk p)
    (hd : ∀ k, k ∈ p.map Prod.fst → k ∉ acc.map Prod.fst) :
    parms (written p) acc = .ok (acc ++ p) := by
  induction p generalizing acc with
  | nil => rw [List.append_nil]; rfl
  | cons e p ih =>
    obtain ⟨k, v⟩ := e
    have hk := hp.key k v List.mem_cons_self
    have hkeys := hp.keys
    rw [List.map_cons, List.nodup_cons] at hkeys
    show parms ((k ++ '=' :: v) :: written p) acc = _
    obtain ⟨h1, h2⟩ := takeWhile_append '=' k ('=' :: v) hk.1 (Or.inr ⟨v, rfl⟩)
    unfold parms
    rw [if_neg (by cases k <;> exact fun e => nomatch e), if_neg (by
      rw [Classical.not_not]
      exact List.mem_append_right _ List.mem_cons_self), h1, h2]
    have hset : Dict.set acc k (('=' :: v).drop 1) = acc ++ [(k, v)] := by
      unfold Dict.set
      rw [lookup_none_of_not_mem acc k (hd k (by simp))]
      rfl
    rw [hset, ih (acc ++ [(k, v)]) ⟨hkeys.2, fun a b h => hp.key a b (List.mem_cons_of_mem _ h),
      fun a b h => hp.value a b (List.mem_cons_of_mem _ h)⟩ ?_, List.append_assoc]
    · rfl
    · intro x hx hm
      rw [List.map_append, List.mem_append] at hm
      rcases hm with hm | hm
      · exact hd x (List.mem_cons_of_mem _ hx) hm
      · simp only [List.map_cons, List.map_nil, List.mem_singleton] at hm
        subst hm
        exact hkeys.1 hx

theorem showParms_shape (p : Dict Str) : showParms p = [] ∨ ∃ t, showParms p = ';' :: t := by
  cases p with
  | nil => exact Or.inl rfl
  | cons e p => exact Or.inr ⟨(e.1 ++ '=' :: e.2) ++ showParms p, rfl⟩

theorem parms_shown (p : Dict Str) (hp : ParmOk p) :
    parms (splitOn ';' ((showParms p).drop 1)) [] = .ok p := by
  by_cases h : p = []
  · subst h; rfl
  · rw [showParms_join p h]
    show parms (splitOn ';' (join [';'] (written p))) [] = _
    rw [splitOn_join]
    · exact parms_written p [] hp fun k _ => by simp
    · cases p with
      | nil => exact absurd rfl h
      | cons e p => exact fun e => nomatch e
    · intro w hw
      obtain ⟨e, he, rfl⟩ := List.mem_map.1 hw
      obtain ⟨k, v⟩ := e
      intro hm
      rcases List.mem_append.1 hm with hm | hm
      · exact (hp.key k v he).2 hm
      · rcases List.mem_cons.1 hm with hm | hm
        · cases hm
        · exact hp.value k v he hm

end Bb.Url
