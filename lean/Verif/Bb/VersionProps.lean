import Verif.Bb.VersionSpec
/-!
# Properties of version comparison (C36)
-/

namespace Bb.Version
open Py

/-! ### The parts of a version -/

theorem not_starts_dropWhile (p : Char → Bool) (s : Str) : ¬ Starts p (s.dropWhile p) := by
  rintro ⟨c, t, h, hc⟩
  induction s with
  | nil => cases h
  | cons d s ih =>
    by_cases hd : p d = true
    · rw [List.dropWhile_cons_of_pos hd] at h; exact ih h
    · rw [List.dropWhile_cons_of_neg hd] at h
      injection h with h1 h2
      rw [h1] at hd; exact hd hc

theorem takeWhile_all {p : Char → Bool} {s : Str} : ∀ c ∈ s.takeWhile p, p c = true := by
  induction s with
  | nil => intro c h; cases h
  | cons d s ih =>
    intro c h
    by_cases hd : p d = true
    · rw [List.takeWhile_cons_of_pos hd] at h
      rcases List.mem_cons.mp h with rfl | h
      · exact hd
      · exact ih c h
    · rw [List.takeWhile_cons_of_neg hd] at h; cases h

theorem dropWhile_length (p : Char → Bool) (s : Str) : (s.dropWhile p).length ≤ s.length := by
  induction s with
  | nil => simp
  | cons d s ih =>
    by_cases hd : p d = true
    · rw [List.dropWhile_cons_of_pos hd]; simp only [List.length_cons]; omega
    · rw [List.dropWhile_cons_of_neg hd]; omega

theorem explodeGo_parts : ∀ (n : Nat) (s : Str), s.length ≤ n → Parts s (explodeGo n s)
  | 0, s, h => by
    have : s = [] := List.eq_nil_of_length_eq_zero (by omega)
    subst this; exact .nil
  | n + 1, [], _ => .nil
  | n + 1, c :: s, h => by
    simp only [List.length_cons] at h
    unfold explodeGo
    by_cases h1 : c.isDigit = true
    · rw [if_pos h1]
      have hl := dropWhile_length Char.isDigit s
      have := explodeGo_parts n ((c :: s).dropWhile Char.isDigit)
        (by rw [List.dropWhile_cons_of_pos h1]; omega)
      have hp := Parts.num (ds := (c :: s).takeWhile Char.isDigit)
        (by rw [List.takeWhile_cons_of_pos h1]; exact List.cons_ne_nil _ _) takeWhile_all
        (not_starts_dropWhile _ _) this
      rwa [List.takeWhile_append_dropWhile] at hp
    · rw [if_neg h1]
      by_cases h2 : c.isAlpha = true
      · rw [if_pos h2]
        have hl := dropWhile_length Char.isAlpha s
        have := explodeGo_parts n ((c :: s).dropWhile Char.isAlpha)
          (by rw [List.dropWhile_cons_of_pos h2]; omega)
        have hp := Parts.alpha (ls := (c :: s).takeWhile Char.isAlpha)
          (by rw [List.takeWhile_cons_of_pos h2]; exact List.cons_ne_nil _ _) takeWhile_all
          (not_starts_dropWhile _ _) this
        rwa [List.takeWhile_append_dropWhile] at hp
      · rw [if_neg h2]
        have := explodeGo_parts n s (by omega)
        by_cases h3 : c = '~'
        · rw [if_pos h3, h3]; exact .tilde this
        · rw [if_neg h3]
          exact .other (by simpa using h1) (by simpa using h2) h3 this

theorem run_split {p : Char → Bool} {a b s t : Str} (h : a ++ s = b ++ t)
    (ha : ∀ c ∈ a, p c = true) (hb : ∀ c ∈ b, p c = true) (hs : ¬ Starts p s) (ht : ¬ Starts p t) :
    a = b ∧ s = t := by
  induction a generalizing b with
  | nil =>
    cases b with
    | nil => exact ⟨rfl, h⟩
    | cons d b =>
      exact absurd ⟨d, b ++ t, h, hb d List.mem_cons_self⟩ hs
  | cons c a ih =>
    cases b with
    | nil => exact absurd ⟨c, a ++ s, h.symm, ha c List.mem_cons_self⟩ ht
    | cons d b =>
      injection h with h1 h2
      obtain ⟨h3, h4⟩ := ih h2 (fun x hx => ha x (List.mem_cons_of_mem _ hx))
        (fun x hx => hb x (List.mem_cons_of_mem _ hx))
      exact ⟨by rw [h1, h3], h4⟩

theorem digit_not_alpha {c : Char} (h : c.isDigit = true) : c.isAlpha = false := by
  have h1 := h
  simp only [Char.isDigit, Bool.and_eq_true, decide_eq_true_eq, ge_iff_le] at h1
  cases ha : c.isAlpha with
  | false => rfl
  | true =>
    exfalso
    simp only [Char.isAlpha, Char.isUpper, Char.isLower, Bool.or_eq_true, Bool.and_eq_true,
      decide_eq_true_eq, ge_iff_le] at ha
    have e1 : c.val.toNat ≤ 57 := by simpa [UInt32.le_iff_toNat_le] using h1.2
    rcases ha with ⟨h2, _⟩ | ⟨h2, _⟩
    · have : 65 ≤ c.val.toNat := by simpa [UInt32.le_iff_toNat_le] using h2
      omega
    · have : 97 ≤ c.val.toNat := by simpa [UInt32.le_iff_toNat_le] using h2
      omega

/-- The parts of a version are unique. -/
theorem parts_unique {s : Str} {ts us : List Tok} (h1 : Parts s ts) (h2 : Parts s us) : ts = us := by
  induction h1 generalizing us with
  | nil =>
    generalize hs : ([] : Str) = s at h2
    cases h2 with
    | nil => rfl
    | num hne => exact absurd (List.append_eq_nil_iff.mp hs.symm).1 hne
    | alpha hne => exact absurd (List.append_eq_nil_iff.mp hs.symm).1 hne
    | tilde => cases hs
    | other => cases hs
  | @num ds s ts hne hd hs _ ih =>
    obtain ⟨c, ds', rfl⟩ := List.exists_cons_of_ne_nil hne
    have hc := hd c List.mem_cons_self
    generalize hx : (c :: ds') ++ s = x at h2
    cases h2 with
    | nil => cases hx
    | @num ds2 s2 ts2 hne2 hd2 hs2 h2 =>
      obtain ⟨e1, e2⟩ := run_split hx hd hd2 hs hs2
      subst e2
      rw [e1, ih h2]
    | @alpha ls s2 ts2 hne2 hl2 hs2 h2 =>
      obtain ⟨d, ls', rfl⟩ := List.exists_cons_of_ne_nil hne2
      injection hx with h1 h2
      have := hl2 d List.mem_cons_self
      rw [← h1, digit_not_alpha hc] at this; cases this
    | tilde => injection hx with h1 h2; rw [h1] at hc; cases hc
    | other h3 => injection hx with h1 h2; rw [← h1, hc] at h3; cases h3
  | @alpha ls s ts hne hl hs _ ih =>
    obtain ⟨c, ls', rfl⟩ := List.exists_cons_of_ne_nil hne
    have hc := hl c List.mem_cons_self
    generalize hx : (c :: ls') ++ s = x at h2
    cases h2 with
    | nil => cases hx
    | @num ds2 s2 ts2 hne2 hd2 hs2 h2 =>
      obtain ⟨d, ds', rfl⟩ := List.exists_cons_of_ne_nil hne2
      injection hx with h1 h2
      have := digit_not_alpha (hd2 d List.mem_cons_self)
      rw [← h1, hc] at this; cases this
    | @alpha ls2 s2 ts2 hne2 hl2 hs2 h2 =>
      obtain ⟨e1, e2⟩ := run_split hx hl hl2 hs hs2
      subst e2
      rw [e1, ih h2]
    | tilde => injection hx with h1 h2; rw [h1] at hc; cases hc
    | other _ h3 => injection hx with h1 h2; rw [← h1, hc] at h3; cases h3
  | @tilde s ts _ ih =>
    generalize hx : '~' :: s = x at h2
    cases h2 with
    | nil => cases hx
    | @num ds2 s2 ts2 hne2 hd2 hs2 h2 =>
      obtain ⟨d, ds', rfl⟩ := List.exists_cons_of_ne_nil hne2
      injection hx with h1 h2
      have := hd2 d List.mem_cons_self
      rw [← h1] at this; cases this
    | @alpha ls s2 ts2 hne2 hl2 hs2 h2 =>
      obtain ⟨d, ls', rfl⟩ := List.exists_cons_of_ne_nil hne2
      injection hx with h1 h2
      have := hl2 d List.mem_cons_self
      rw [← h1] at this; cases this
    | tilde h2 => injection hx with _ h1; subst h1; rw [ih h2]
    | other _ _ h3 => injection hx with h1 h2; exact absurd h1.symm h3
  | @other c s ts hcd hca hct _ ih =>
    generalize hx : c :: s = x at h2
    cases h2 with
    | nil => cases hx
    | @num ds2 s2 ts2 hne2 hd2 hs2 h2 =>
      obtain ⟨d, ds', rfl⟩ := List.exists_cons_of_ne_nil hne2
      injection hx with h1 h2
      have := hd2 d List.mem_cons_self
      rw [← h1, hcd] at this; cases this
    | @alpha ls s2 ts2 hne2 hl2 hs2 h2 =>
      obtain ⟨d, ls', rfl⟩ := List.exists_cons_of_ne_nil hne2
      injection hx with h1 h2
      have := hl2 d List.mem_cons_self
      rw [← h1, hca] at this; cases this
    | tilde h2 => injection hx with h1 _; exact absurd h1 hct
    | other _ _ _ h2 => injection hx with h1 h3; subst h1; subst h3; rw [ih h2]

/-- **C36.**  A version is read as exactly its parts. -/
theorem explode_iff {s : Str} {ts : List Tok} : explode s = ts ↔ Parts s ts := by
  have h : Parts s (explode s) := explodeGo_parts _ s (Nat.le_refl _)
  exact ⟨fun e => e ▸ h, fun h2 => parts_unique h h2⟩

theorem explode_parts (s : Str) : Parts s (explode s) := explode_iff.mp rfl

/-- The end of one text and the start of the next are not in the same run of digits or letters. -/
def Break (a b : Str) : Prop :=
  ¬ ((∃ x, a.getLast? = some x ∧ x.isDigit = true) ∧ Starts Char.isDigit b) ∧
  ¬ ((∃ x, a.getLast? = some x ∧ x.isAlpha = true) ∧ Starts Char.isAlpha b)

theorem starts_append {p : Char → Bool} {s b : Str} (h : Starts p (s ++ b)) :
    Starts p s ∨ (s = [] ∧ Starts p b) := by
  obtain ⟨c, t, h, hc⟩ := h
  cases s with
  | nil => exact Or.inr ⟨rfl, c, t, h, hc⟩
  | cons d s => injection h with h1 h2; exact Or.inl ⟨d, s, rfl, h1 ▸ hc⟩

theorem break_tail {a s b : Str} (h : Break (a ++ s) b) (hs : s ≠ []) : Break s b := by
  unfold Break at *
  have hl : (a ++ s).getLast? = s.getLast? := by
    rw [List.getLast?_append]
    obtain ⟨c, t, rfl⟩ := List.exists_cons_of_ne_nil hs
    rw [List.getLast?_cons]; rfl
  rwa [hl] at h

theorem break_nil (b : Str) : Break [] b := by
  constructor
  · rintro ⟨⟨x, h, _⟩, _⟩; cases h
  · rintro ⟨⟨x, h, _⟩, _⟩; cases h

theorem getLast?_run {ds : Str} {p : Char → Bool} (hne : ds ≠ []) (h : ∀ c ∈ ds, p c = true) :
    ∃ x, ds.getLast? = some x ∧ p x = true :=
  ⟨ds.getLast hne, List.getLast?_eq_some_getLast hne, h _ (List.getLast_mem hne)⟩

theorem break_tail' {a s b : Str} (h : Break (a ++ s) b) : Break s b := by
  by_cases hs : s = []
  · subst hs; exact break_nil b
  · exact break_tail h hs

theorem parts_append {a b : Str} {ts us : List Tok} (ha : Parts a ts) (hb : Parts b us)
    (h : Break a b) : Parts (a ++ b) (ts ++ us) := by
  induction ha with
  | nil => exact hb
  | @num ds s ts hne hd hs _ ih =>
    rw [List.append_assoc, List.cons_append]
    refine .num hne hd (fun hst => ?_) (ih (break_tail' h))
    rcases starts_append hst with h1 | ⟨h1, h2⟩
    · exact hs h1
    · subst h1
      rw [List.append_nil] at h
      exact h.1 ⟨getLast?_run hne hd, h2⟩
  | @alpha ls s ts hne hl hs _ ih =>
    rw [List.append_assoc, List.cons_append]
    refine .alpha hne hl (fun hst => ?_) (ih (break_tail' h))
    rcases starts_append hst with h1 | ⟨h1, h2⟩
    · exact hs h1
    · subst h1
      rw [List.append_nil] at h
      exact h.2 ⟨getLast?_run hne hl, h2⟩
  | @tilde s ts _ ih => exact .tilde (ih (break_tail' (a := ['~']) h))
  | @other c s ts h1 h2 h3 _ ih => exact .other h1 h2 h3 (ih (break_tail' (a := [c]) h))

/-! ### The order of texts and parts -/

theorem char_eq_of_toNat {a b : Char} (h : a.toNat = b.toNat) : a = b := by
  apply Char.ext; apply UInt32.toNat.inj; exact h

theorem strLt_iff : ∀ {s t : Str}, strLt s t = true ↔ TextLt s t := by
  intro s t
  induction s generalizing t with
  | nil =>
    cases t with
    | nil =>
      simp only [strLt, TextLt]
      constructor
      · intro h; cases h
      · rintro (⟨c, u, h⟩ | ⟨p, c, d, u, v, h, _⟩)
        · cases h
        · exact absurd h.symm (by simp)
    | cons d t => simp only [strLt, TextLt, true_iff]; exact Or.inl ⟨d, t, rfl⟩
  | cons a s ih =>
    cases t with
    | nil =>
      simp only [strLt, TextLt]
      constructor
      · intro h; cases h
      · rintro (⟨c, u, h⟩ | ⟨p, c, d, u, v, _, h, _⟩)
        · cases h
        · exact absurd h.symm (by simp)
    | cons b t =>
      unfold strLt
      by_cases h1 : a.toNat < b.toNat
      · rw [if_pos h1]
        simp only [true_iff]
        exact Or.inr ⟨[], a, b, s, t, rfl, rfl, h1⟩
      · rw [if_neg h1]
        by_cases h2 : b.toNat < a.toNat
        · rw [if_pos h2]
          constructor
          · intro h; cases h
          · rintro (⟨c, u, h⟩ | ⟨p, c, d, u, v, h3, h4, h5⟩)
            · injection h with h _; rw [h] at h2; omega
            · cases p with
              | nil =>
                injection h3 with h3 _; injection h4 with h4 _
                rw [h3, h4] at h1; exact absurd h5 h1
              | cons x p =>
                injection h3 with h3 _; injection h4 with h4 _
                rw [h3, h4] at h2; omega
        · rw [if_neg h2, ih]
          have hab : a = b := char_eq_of_toNat (by omega)
          subst hab
          constructor
          · rintro (⟨c, u, h⟩ | ⟨p, c, d, u, v, h3, h4, h5⟩)
            · exact Or.inl ⟨c, u, by rw [h]; rfl⟩
            · exact Or.inr ⟨a :: p, c, d, u, v, by rw [h3]; rfl, by rw [h4]; rfl, h5⟩
          · rintro (⟨c, u, h⟩ | ⟨p, c, d, u, v, h3, h4, h5⟩)
            · injection h with _ h; exact Or.inl ⟨c, u, h⟩
            · cases p with
              | nil =>
                injection h3 with h3 _; injection h4 with h4 _
                rw [← h3, ← h4] at h5; omega
              | cons x p =>
                injection h3 with _ h3; injection h4 with _ h4
                exact Or.inr ⟨p, c, d, u, v, h3, h4, h5⟩

theorem strLt_irrefl (s : Str) : strLt s s = false := by
  induction s with
  | nil => rfl
  | cons a s ih => unfold strLt; rw [if_neg (by omega), if_neg (by omega), ih]

theorem strLt_asymm {s t : Str} (h : strLt s t = true) : strLt t s = false := by
  induction s generalizing t with
  | nil => cases t <;> first | rfl | cases h
  | cons a s ih =>
    cases t with
    | nil => cases h
    | cons b t =>
      unfold strLt at h ⊢
      by_cases h1 : a.toNat < b.toNat
      · rw [if_neg (by omega), if_pos h1]
      · rw [if_neg h1] at h
        by_cases h2 : b.toNat < a.toNat
        · rw [if_pos h2] at h; cases h
        · rw [if_neg h2] at h
          rw [if_neg h2, if_neg h1]; exact ih h

theorem strLt_total {s t : Str} (h1 : strLt s t = false) (h2 : strLt t s = false) : s = t := by
  induction s generalizing t with
  | nil => cases t <;> first | rfl | cases h1
  | cons a s ih =>
    cases t with
    | nil => cases h2
    | cons b t =>
      unfold strLt at h1 h2
      by_cases h3 : a.toNat < b.toNat
      · rw [if_pos h3] at h1; cases h1
      · by_cases h4 : b.toNat < a.toNat
        · rw [if_pos h4] at h2; cases h2
        · rw [if_neg h3, if_neg h4] at h1
          rw [if_neg h4, if_neg h3] at h2
          rw [char_eq_of_toNat (by omega : a.toNat = b.toNat), ih h1 h2]

theorem strLt_trans {s t u : Str} (h1 : strLt s t = true) (h2 : strLt t u = true) :
    strLt s u = true := by
  induction s generalizing t u with
  | nil =>
    cases t with
    | nil => cases h1
    | cons b t => cases u <;> first | rfl | cases h2
  | cons a s ih =>
    cases t with
    | nil => cases h1
    | cons b t =>
      cases u with
      | nil => cases h2
      | cons c u =>
        unfold strLt at h1 h2 ⊢
        by_cases h3 : a.toNat < b.toNat
        · by_cases h5 : b.toNat < c.toNat
          · rw [if_pos (by omega)]
          · rw [if_neg h5] at h2
            by_cases h6 : c.toNat < b.toNat
            · rw [if_pos h6] at h2; cases h2
            · rw [if_pos (by omega)]
        · rw [if_neg h3] at h1
          by_cases h4 : b.toNat < a.toNat
          · rw [if_pos h4] at h1; cases h1
          · rw [if_neg h4] at h1
            by_cases h5 : b.toNat < c.toNat
            · rw [if_pos (by omega)]
            · rw [if_neg h5] at h2
              by_cases h6 : c.toNat < b.toNat
              · rw [if_pos h6] at h2; cases h2
              · rw [if_neg h6] at h2
                rw [if_neg (by omega), if_neg (by omega)]
                exact ih h1 h2

/-- The order of two parts as a test. -/
def partLt (a b : Option Tok) : Bool :=
  if rankO a < rankO b then true
  else if rankO b < rankO a then false
  else
    match a, b with
    | none, none => false
    | none, some _ => true
    | some _, none => false
    | some x, some y => valLt x y

theorem partLt_iff {a b : Option Tok} : partLt a b = true ↔ PartLt a b := by
  constructor
  · intro h
    rcases a with _ | (_ | m | s | c) <;> rcases b with _ | (_ | n | t | d) <;>
      simp [partLt, rankO, Tok.rank, valLt] at h
    · exact .endNum
    · exact .endAlpha
    · exact .endOther
    · exact .tilde (by simp)
    · exact .tilde (by simp)
    · exact .tilde (by simp)
    · exact .tilde (by simp)
    · exact .num h
    · exact .numAlpha
    · exact .numOther
    · exact .alpha (strLt_iff.mp h)
    · exact .alphaOther
    · exact .other h
  · intro h
    cases h with
    | tilde hx =>
      rcases b with _ | (_ | n | t | d) <;> simp [partLt, rankO, Tok.rank] at hx ⊢
    | alpha h => simp [partLt, rankO, Tok.rank, valLt, strLt_iff.mpr h]
    | num h => simp [partLt, rankO, Tok.rank, valLt, h]
    | other h => simp [partLt, rankO, Tok.rank, valLt, h]
    | _ => simp [partLt, rankO, Tok.rank]

theorem partLt_irrefl (a : Option Tok) : partLt a a = false := by
  rcases a with _ | (_ | m | s | c) <;> simp [partLt, valLt, strLt_irrefl]

theorem partLt_asymm {a b : Option Tok} (h : partLt a b = true) : partLt b a = false := by
  rcases a with _ | (_ | m | s | c) <;> rcases b with _ | (_ | n | t | d) <;>
    simp [partLt, rankO, Tok.rank, valLt] at h ⊢
  · omega
  · exact strLt_asymm h
  · omega

theorem partLt_total {a b : Option Tok} (h1 : partLt a b = false) (h2 : partLt b a = false) :
    a = b := by
  rcases a with _ | (_ | m | s | c) <;> rcases b with _ | (_ | n | t | d) <;>
    simp [partLt, rankO, Tok.rank, valLt] at h1 h2 ⊢
  · omega
  · exact strLt_total h1 h2
  · exact char_eq_of_toNat (by omega)

theorem partLt_trans {a b c : Option Tok} (h1 : partLt a b = true) (h2 : partLt b c = true) :
    partLt a c = true := by
  rcases a with _ | (_ | m | s | x) <;> rcases b with _ | (_ | n | t | y) <;>
    rcases c with _ | (_ | k | u | z) <;>
    simp [partLt, rankO, Tok.rank, valLt] at h1 h2 ⊢
  · omega
  · exact strLt_trans h1 h2
  · omega

/-! ### Comparing two versions -/

theorem step_eq (a b : Option Tok) : step a b =
    if partLt a b = true then some (-1) else if partLt b a = true then some 1
    else if a = none then some 0 else none := by
  rcases a with _ | (_ | m | s | x) <;> rcases b with _ | (_ | n | t | y) <;>
    simp [step, partLt, rankO, Tok.rank, valLt] <;> rfl

theorem head?_none {l : List Tok} (h : l.head? = none) : l = [] := by
  cases l with
  | nil => rfl
  | cons _ _ => cases h

theorem less_nil_iff {x y : List Tok} (h : x.head? ≠ y.head?) : Less x y ↔ PartLt x.head? y.head? := by
  constructor
  · rintro ⟨p, x', y', rfl, rfl, h2⟩
    cases p with
    | nil => exact h2
    | cons a p => exact absurd rfl h
  · intro h2; exact ⟨[], x, y, rfl, rfl, h2⟩

theorem less_cons_iff {a : Tok} {x y : List Tok} : Less (a :: x) (a :: y) ↔ Less x y := by
  constructor
  · rintro ⟨p, x', y', h1, h2, h3⟩
    cases p with
    | nil =>
      have h1 : a :: x = x' := h1
      have h2 : a :: y = y' := h2
      subst h1; subst h2
      have := partLt_iff.mpr h3
      rw [List.head?_cons, List.head?_cons, partLt_irrefl] at this; cases this
    | cons b p =>
      injection h1 with h1 h1'; injection h2 with _ h2'
      exact ⟨p, x', y', h1', h2', h3⟩
  · rintro ⟨p, x', y', h1, h2, h3⟩
    exact ⟨a :: p, x', y', by rw [h1]; rfl, by rw [h2]; rfl, h3⟩

theorem cmpGo_spec : ∀ (n : Nat) (va vb : List Tok), va.length < n →
    (cmpGo n va vb = -1 ∧ Less va vb) ∨ (cmpGo n va vb = 1 ∧ Less vb va) ∨
      (cmpGo n va vb = 0 ∧ va = vb)
  | 0, _, _, h => by omega
  | n + 1, va, vb, h => by
    unfold cmpGo
    rw [step_eq]
    by_cases h1 : partLt va.head? vb.head? = true
    · rw [if_pos h1]
      exact Or.inl ⟨rfl, [], va, vb, rfl, rfl, partLt_iff.mp h1⟩
    · rw [if_neg h1]
      by_cases h2 : partLt vb.head? va.head? = true
      · rw [if_pos h2]
        exact Or.inr (Or.inl ⟨rfl, [], vb, va, rfl, rfl, partLt_iff.mp h2⟩)
      · rw [if_neg h2]
        have he := partLt_total (by simpa using h1) (by simpa using h2)
        by_cases h3 : va.head? = none
        · rw [if_pos h3]
          rw [h3] at he
          exact Or.inr (Or.inr ⟨rfl, by rw [head?_none h3, head?_none he.symm]⟩)
        · rw [if_neg h3]
          cases va with
          | nil => exact absurd rfl h3
          | cons a va =>
            cases vb with
            | nil => cases he
            | cons b vb =>
              have hab : a = b := Option.some.inj he
              subst hab
              simp only [List.length_cons] at h
              rw [List.tail_cons, List.tail_cons, less_cons_iff, less_cons_iff]
              rcases cmpGo_spec n va vb (by omega) with h4 | h4 | h4
              · exact Or.inl h4
              · exact Or.inr (Or.inl h4)
              · exact Or.inr (Or.inr ⟨h4.1, by rw [h4.2]⟩)

theorem less_asymm {x y : List Tok} (h : Less x y) : ¬ Less y x := by
  obtain ⟨p, x', y', rfl, rfl, h⟩ := h
  intro h2
  induction p with
  | nil =>
    have hne : y'.head? ≠ x'.head? := by
      intro e
      have := partLt_iff.mpr h
      rw [e, partLt_irrefl] at this; cases this
    have h3 := (less_nil_iff hne).mp h2
    have := partLt_asymm (partLt_iff.mpr h)
    rw [partLt_iff.mpr h3] at this; cases this
  | cons a p ih => exact ih (less_cons_iff.mp h2)

theorem less_irrefl (x : List Tok) : ¬ Less x x := fun h => less_asymm h h

theorem less_head {x y : List Tok} (h : Less x y) : x.head? = y.head? ∨ PartLt x.head? y.head? := by
  by_cases he : x.head? = y.head?
  · exact Or.inl he
  · exact Or.inr ((less_nil_iff he).mp h)

theorem less_trans {x y z : List Tok} (h1 : Less x y) (h2 : Less y z) : Less x z := by
  induction x generalizing y z with
  | nil =>
    cases y with
    | nil => exact absurd h1 (less_irrefl _)
    | cons b y =>
      have h1 := (less_nil_iff (by simp)).mp h1
      rcases less_head h2 with he | h2
      · refine ⟨[], [], z, rfl, rfl, ?_⟩
        rw [← he]; exact h1
      · exact ⟨[], [], z, rfl, rfl, partLt_iff.mp (partLt_trans (partLt_iff.mpr h1) (partLt_iff.mpr h2))⟩
  | cons a x ih =>
    rcases less_head h1 with he | h1'
    · cases y with
      | nil => cases he
      | cons b y =>
        have hab : a = b := Option.some.inj he
        subst hab
        rcases less_head h2 with he2 | h2'
        · cases z with
          | nil => cases he2
          | cons c z =>
            have hac : a = c := Option.some.inj he2
            subst hac
            exact less_cons_iff.mpr (ih (less_cons_iff.mp h1) (less_cons_iff.mp h2))
        · exact ⟨[], a :: x, z, rfl, rfl, h2'⟩
    · rcases less_head h2 with he2 | h2'
      · exact ⟨[], a :: x, z, rfl, rfl, he2 ▸ h1'⟩
      · exact ⟨[], a :: x, z, rfl, rfl,
          partLt_iff.mp (partLt_trans (partLt_iff.mpr h1') (partLt_iff.mpr h2'))⟩

/-- **C36.**  Comparing two versions decides the order of their parts. -/
theorem vercmpPart_iff {a b : Str} {ts us : List Tok} (ha : Parts a ts) (hb : Parts b us) :
    (vercmpPart a b < 0 ↔ Less ts us) ∧ (vercmpPart a b = 0 ↔ ts = us) ∧
      (vercmpPart a b > 0 ↔ Less us ts) := by
  unfold vercmpPart
  rw [explode_iff.mpr ha, explode_iff.mpr hb]
  rcases cmpGo_spec (ts.length + 1) ts us (by omega) with ⟨h, h2⟩ | ⟨h, h2⟩ | ⟨h, h2⟩ <;> rw [h]
  · exact ⟨⟨fun _ => h2, fun _ => by decide⟩,
      ⟨fun e => (by cases e), fun e => absurd (e ▸ h2) (less_irrefl _)⟩,
      ⟨fun e => by omega, fun e => absurd e (less_asymm h2)⟩⟩
  · exact ⟨⟨fun e => by omega, fun e => absurd e (less_asymm h2)⟩,
      ⟨fun e => (by cases e), fun e => absurd (e ▸ h2) (less_irrefl _)⟩,
      ⟨fun _ => h2, fun _ => by decide⟩⟩
  · subst h2
    exact ⟨⟨fun e => by omega, fun e => absurd e (less_irrefl _)⟩, ⟨fun _ => rfl, fun _ => rfl⟩,
      ⟨fun e => by omega, fun e => absurd e (less_irrefl _)⟩⟩

theorem vercmpPart_self (a : Str) : vercmpPart a a = 0 :=
  (vercmpPart_iff (explode_parts a) (explode_parts a)).2.1.mpr rfl

/-! ### Epoch, version and revision -/

/-- The order of epoch, version and revision. -/
def TripleLt (a b : Int × Str × Str) : Prop :=
  a.1 < b.1 ∨ (a.1 = b.1 ∧ (vercmpPart a.2.1 b.2.1 < 0 ∨
    (vercmpPart a.2.1 b.2.1 = 0 ∧ vercmpPart a.2.2 b.2.2 < 0)))

theorem part_swap (a b : Str) :
    (vercmpPart a b < 0 ↔ vercmpPart b a > 0) ∧ (vercmpPart a b = 0 ↔ vercmpPart b a = 0) := by
  obtain ⟨h1, h2, _⟩ := vercmpPart_iff (explode_parts a) (explode_parts b)
  obtain ⟨_, h5, h6⟩ := vercmpPart_iff (explode_parts b) (explode_parts a)
  exact ⟨h1.trans h6.symm, h2.trans (Iff.trans ⟨Eq.symm, Eq.symm⟩ h5.symm)⟩

theorem part_trans {a b c : Str} (h1 : vercmpPart a b ≤ 0) (h2 : vercmpPart b c ≤ 0) :
    vercmpPart a c ≤ 0 ∧ (vercmpPart a c = 0 → vercmpPart a b = 0 ∧ vercmpPart b c = 0) := by
  obtain ⟨p1, p2, _⟩ := vercmpPart_iff (explode_parts a) (explode_parts b)
  obtain ⟨q1, q2, _⟩ := vercmpPart_iff (explode_parts b) (explode_parts c)
  obtain ⟨r1, r2, _⟩ := vercmpPart_iff (explode_parts a) (explode_parts c)
  rcases Int.lt_or_eq_of_le h1 with h1 | h1 <;> rcases Int.lt_or_eq_of_le h2 with h2 | h2
  · have := r1.mpr (less_trans (p1.mp h1) (q1.mp h2)); omega
  · have := r1.mpr (q2.mp h2 ▸ p1.mp h1); omega
  · have := r1.mpr ((p2.mp h1).symm ▸ q1.mp h2); omega
  · have := r2.mpr ((p2.mp h1).trans (q2.mp h2)); omega

theorem vercmp_cases (a b : Int × Str × Str) :
    (vercmp a b < 0 ↔ TripleLt a b) ∧
    (vercmp a b = 0 ↔ a.1 = b.1 ∧ vercmpPart a.2.1 b.2.1 = 0 ∧ vercmpPart a.2.2 b.2.2 = 0) ∧
    (vercmp a b > 0 ↔ TripleLt b a) := by
  unfold vercmp TripleLt
  dsimp only
  have s1 := part_swap a.2.1 b.2.1
  have s2 := part_swap a.2.2 b.2.2
  have s3 := part_swap b.2.1 a.2.1
  have s4 := part_swap b.2.2 a.2.2
  by_cases h : a.1 - b.1 = 0
  · rw [if_pos h]
    by_cases h2 : vercmpPart a.2.1 b.2.1 = 0
    · rw [if_pos h2]; omega
    · rw [if_neg h2]; omega
  · rw [if_neg h, if_neg h]; omega

/-- **C36.**  Swapping the versions inverts the result. -/
theorem vercmp_swap (a b : Int × Str × Str) :
    (vercmp a b < 0 ↔ vercmp b a > 0) ∧ (vercmp a b = 0 ↔ vercmp b a = 0) := by
  obtain ⟨h1, h2, _⟩ := vercmp_cases a b
  obtain ⟨_, h5, h6⟩ := vercmp_cases b a
  refine ⟨h1.trans h6.symm, h2.trans (Iff.trans ?_ h5.symm)⟩
  rw [(part_swap a.2.1 b.2.1).2, (part_swap a.2.2 b.2.2).2]
  exact ⟨fun ⟨x, y⟩ => ⟨x.symm, y⟩, fun ⟨x, y⟩ => ⟨x.symm, y⟩⟩

theorem vercmp_le_cases {a b : Int × Str × Str} (h : vercmp a b ≤ 0) :
    (a.1 < b.1 ∧ vercmp a b ≠ 0) ∨ (a.1 = b.1 ∧ vercmpPart a.2.1 b.2.1 < 0 ∧ vercmp a b ≠ 0) ∨
    (a.1 = b.1 ∧ vercmpPart a.2.1 b.2.1 = 0 ∧ vercmpPart a.2.2 b.2.2 ≤ 0 ∧
      vercmp a b = vercmpPart a.2.2 b.2.2) := by
  unfold vercmp at *
  dsimp only at *
  by_cases h1 : a.1 - b.1 = 0
  · rw [if_pos h1] at *
    by_cases h2 : vercmpPart a.2.1 b.2.1 = 0
    · rw [if_pos h2] at *
      exact Or.inr (Or.inr ⟨by omega, h2, h, rfl⟩)
    · rw [if_neg h2] at *
      exact Or.inr (Or.inl ⟨by omega, by omega, h2⟩)
  · rw [if_neg h1, if_neg h1] at *
    exact Or.inl ⟨by omega, h1⟩

/-- **C36.**  The order is transitive. -/
theorem vercmp_trans {a b c : Int × Str × Str} (h1 : vercmp a b ≤ 0) (h2 : vercmp b c ≤ 0) :
    vercmp a c ≤ 0 ∧ (vercmp a c = 0 → vercmp a b = 0 ∧ vercmp b c = 0) := by
  have hlt : TripleLt a c → vercmp a c ≤ 0 ∧ (vercmp a c = 0 → vercmp a b = 0 ∧ vercmp b c = 0) := by
    intro h
    have := (vercmp_cases a c).1.mpr h
    exact ⟨by omega, fun e => by omega⟩
  rcases vercmp_le_cases h1 with ⟨n1, _⟩ | ⟨n1, v1, _⟩ | ⟨n1, v1, r1, z1⟩ <;>
    rcases vercmp_le_cases h2 with ⟨n2, _⟩ | ⟨n2, v2, _⟩ | ⟨n2, v2, r2, z2⟩
  · exact hlt (Or.inl (by omega))
  · exact hlt (Or.inl (by omega))
  · exact hlt (Or.inl (by omega))
  · exact hlt (Or.inl (by omega))
  · obtain ⟨p1, p2⟩ := part_trans (by omega : vercmpPart a.2.1 b.2.1 ≤ 0)
      (by omega : vercmpPart b.2.1 c.2.1 ≤ 0)
    by_cases hz : vercmpPart a.2.1 c.2.1 = 0
    · have := p2 hz; omega
    · exact hlt (Or.inr ⟨by omega, Or.inl (by omega)⟩)
  · obtain ⟨p1, p2⟩ := part_trans (by omega : vercmpPart a.2.1 b.2.1 ≤ 0)
      (by omega : vercmpPart b.2.1 c.2.1 ≤ 0)
    by_cases hz : vercmpPart a.2.1 c.2.1 = 0
    · have := p2 hz; omega
    · exact hlt (Or.inr ⟨by omega, Or.inl (by omega)⟩)
  · exact hlt (Or.inl (by omega))
  · obtain ⟨p1, p2⟩ := part_trans (by omega : vercmpPart a.2.1 b.2.1 ≤ 0)
      (by omega : vercmpPart b.2.1 c.2.1 ≤ 0)
    by_cases hz : vercmpPart a.2.1 c.2.1 = 0
    · have := p2 hz; omega
    · exact hlt (Or.inr ⟨by omega, Or.inl (by omega)⟩)
  · have p1 : vercmpPart a.2.1 c.2.1 = 0 := by
      rw [(vercmpPart_iff (explode_parts _) (explode_parts _)).2.1] at *
      exact v1.trans v2
    obtain ⟨q1, q2⟩ := part_trans r1 r2
    have hac : vercmp a c = vercmpPart a.2.2 c.2.2 := by
      unfold vercmp
      dsimp only
      rw [if_pos (by omega)]
    rw [hac, z1, z2]
    exact ⟨q1, q2⟩

/-- **C36.**  Two versions are equal exactly if epoch and the parts of version and revision are. -/
theorem vercmp_eq {a b : Int × Str × Str} {va vb ra rb : List Tok} (h1 : Parts a.2.1 va)
    (h2 : Parts b.2.1 vb) (h3 : Parts a.2.2 ra) (h4 : Parts b.2.2 rb) :
    vercmp a b = 0 ↔ a.1 = b.1 ∧ va = vb ∧ ra = rb := by
  rw [(vercmp_cases a b).2.1, (vercmpPart_iff h1 h2).2.1, (vercmpPart_iff h3 h4).2.1]

/-- **C36.**  The epoch decides first, then the version, then the revision. -/
theorem vercmp_lt {a b : Int × Str × Str} {va vb ra rb : List Tok} (h1 : Parts a.2.1 va)
    (h2 : Parts b.2.1 vb) (h3 : Parts a.2.2 ra) (h4 : Parts b.2.2 rb) :
    vercmp a b < 0 ↔ a.1 < b.1 ∨ (a.1 = b.1 ∧ (Less va vb ∨ (va = vb ∧ Less ra rb))) := by
  rw [(vercmp_cases a b).1]
  unfold TripleLt
  rw [(vercmpPart_iff h1 h2).1, (vercmpPart_iff h1 h2).2.1, (vercmpPart_iff h3 h4).1]

/-! ### Reading a version string -/

theorem stripOps_core (s : Str) : Core s (stripOps s) := by
  unfold stripOps
  dsimp only
  generalize hp : (fun c : Char => c = ' ' || c = '<' || c = '>' || c = '=') = p
  have hop : ∀ c, p c = true ↔ OpChar c := by
    intro c; rw [← hp]; unfold OpChar; simp [or_assoc]
  have hsp : (s.dropWhile p).reverse = (s.dropWhile p).reverse.takeWhile p ++
      (s.dropWhile p).reverse.dropWhile p := List.takeWhile_append_dropWhile.symm
  have hsp2 : s.dropWhile p = ((s.dropWhile p).reverse.dropWhile p).reverse ++
      ((s.dropWhile p).reverse.takeWhile p).reverse := by
    rw [← List.reverse_append, List.takeWhile_append_dropWhile, List.reverse_reverse]
  refine ⟨s.takeWhile p, ((s.dropWhile p).reverse.takeWhile p).reverse, ?_, ?_, ?_, ?_, ?_⟩
  · rw [List.append_assoc, ← hsp2, List.takeWhile_append_dropWhile]
  · exact fun c hc => (hop c).mp (takeWhile_all c hc)
  · exact fun c hc => (hop c).mp (takeWhile_all c (List.mem_reverse.mp hc))
  · intro c hc ho
    have : Starts p (s.dropWhile p) := by
      rw [hsp2]
      cases hx : ((s.dropWhile p).reverse.dropWhile p).reverse with
      | nil => rw [hx] at hc; cases hc
      | cons d t =>
        rw [hx] at hc
        exact ⟨d, t ++ _, rfl, by rw [Option.some.inj hc]; exact (hop c).mpr ho⟩
    exact not_starts_dropWhile p s this
  · intro c hc ho
    rw [List.getLast?_reverse] at hc
    refine not_starts_dropWhile p (s.dropWhile p).reverse ?_
    cases hx : (s.dropWhile p).reverse.dropWhile p with
    | nil => rw [hx] at hc; cases hc
    | cons d t =>
      rw [hx] at hc
      exact ⟨d, t, rfl, by rw [Option.some.inj hc]; exact (hop c).mpr ho⟩

theorem core_unique {s a b : Str} (h1 : Core s a) (h2 : Core s b) : a = b := by
  have hd : ∀ c, Decidable (OpChar c) := fun c => by unfold OpChar; infer_instance
  obtain ⟨a1, a2, e1, p1, p2, p3, p4⟩ := h1
  obtain ⟨b1, b2, e2, q1, q2, q3, q4⟩ := h2
  -- without the characters in front
  have hfront : ∀ {x y u v : Str}, x ++ u = y ++ v → (∀ c ∈ x, OpChar c) → (∀ c ∈ y, OpChar c) →
      (∀ c, u.head? = some c → ¬ OpChar c) → (∀ c, v.head? = some c → ¬ OpChar c) → u = v := by
    intro x
    induction x with
    | nil =>
      intro y u v h _ hy hu _
      cases y with
      | nil => exact h
      | cons c y =>
        exact absurd (hy c List.mem_cons_self) (hu c (by rw [show u = c :: (y ++ v) from h]; rfl))
    | cons c x ih =>
      intro y u v h hx hy hu hv
      cases y with
      | nil => exact absurd (hx c List.mem_cons_self) (hv c (by rw [show v = c :: (x ++ u) from h.symm]; rfl))
      | cons d y =>
        injection h with _ h
        exact ih h (fun z hz => hx z (List.mem_cons_of_mem _ hz))
          (fun z hz => hy z (List.mem_cons_of_mem _ hz)) hu hv
  by_cases ha : a = []
  · by_cases hb : b = []
    · rw [ha, hb]
    · exfalso
      obtain ⟨c, t, rfl⟩ := List.exists_cons_of_ne_nil hb
      have hall : ∀ z ∈ s, OpChar z := by
        rw [e1, ha]; intro z hz
        simp only [List.append_nil, List.mem_append] at hz
        exact hz.elim (p1 z) (p2 z)
      exact q3 c rfl (hall c (by rw [e2]; simp))
  · by_cases hb : b = []
    · exfalso
      obtain ⟨c, t, rfl⟩ := List.exists_cons_of_ne_nil ha
      have hall : ∀ z ∈ s, OpChar z := by
        rw [e2, hb]; intro z hz
        simp only [List.append_nil, List.mem_append] at hz
        exact hz.elim (q1 z) (q2 z)
      exact p3 c rfl (hall c (by rw [e1]; simp))
    · have hh : ∀ {x y : Str}, x ≠ [] → (x ++ y).head? = x.head? := by
        intro x y hx
        obtain ⟨c, t, rfl⟩ := List.exists_cons_of_ne_nil hx; rfl
      have e3 : a ++ a2 = b ++ b2 := by
        apply hfront (x := a1) (y := b1) (by rw [← List.append_assoc, ← List.append_assoc, ← e1, e2]) p1 q1
        · rw [hh ha]; exact p3
        · rw [hh hb]; exact q3
      have e4 : a2.reverse ++ a.reverse = b2.reverse ++ b.reverse := by
        rw [← List.reverse_append, ← List.reverse_append, e3]
      have e5 := hfront e4 (fun c hc => p2 c (List.mem_reverse.mp hc))
        (fun c hc => q2 c (List.mem_reverse.mp hc))
        (by rw [List.head?_reverse]; exact p4) (by rw [List.head?_reverse]; exact q4)
      exact List.reverse_inj.mp e5

/-- The part of `split_version` that finds the revision. -/
def splitRev (s : Str) : Str × Str :=
  if '-' ∈ s then
    (((s.reverse.dropWhile (· ≠ '-')).drop 1).reverse, (s.reverse.takeWhile (· ≠ '-')).reverse)
  else (s, [])

theorem splitRev_iff {s v r : Str} :
    splitRev s = (v, r) ↔ ((s = v ∧ '-' ∉ v ∧ r = []) ∨ (s = v ++ '-' :: r ∧ '-' ∉ r)) := by
  have key : ∀ v r : Str, '-' ∉ r → splitRev (v ++ '-' :: r) = (v, r) := by
    intro v r hr
    unfold splitRev
    rw [if_pos (by simp), List.reverse_append, List.reverse_cons, List.append_assoc]
    have hall : ∀ x ∈ r.reverse, decide (x ≠ '-') = true := by
      intro x hx
      have : x ≠ '-' := fun e => hr (e ▸ List.mem_reverse.mp hx)
      simpa using this
    rw [List.takeWhile_append_of_pos hall, List.dropWhile_append_of_pos hall]
    simp
  constructor
  · intro h
    by_cases hs : '-' ∈ s
    · refine Or.inr ?_
      -- the last dash
      obtain ⟨a, b, hab, hb⟩ : ∃ a b, s = a ++ '-' :: b ∧ '-' ∉ b := by
        clear h
        induction s with
        | nil => cases hs
        | cons c s ih =>
          by_cases h2 : '-' ∈ s
          · obtain ⟨a, b, h3, h4⟩ := ih h2
            exact ⟨c :: a, b, by rw [h3]; rfl, h4⟩
          · rcases List.mem_cons.mp hs with h3 | h3
            · exact ⟨[], s, by rw [h3]; rfl, h2⟩
            · exact absurd h3 h2
      rw [hab, key a b hb] at h
      injection h with h1 h2
      subst h1; subst h2
      exact ⟨hab, hb⟩
    · unfold splitRev at h
      rw [if_neg hs] at h
      injection h with h1 h2
      exact Or.inl ⟨h1, h1 ▸ hs, h2.symm⟩
  · rintro (⟨h1, h2, h3⟩ | ⟨h1, h2⟩)
    · unfold splitRev; rw [h1, if_neg h2, h3]
    · rw [h1]; exact key v r h2

theorem splitVersion_eq (int : Str → Option Int) (s : Str) : splitVersion int s =
    if ':' ∈ stripOps s then
      (int ((splitOn ':' (stripOps s)).getD 0 [])).map fun e =>
        (e, splitRev ((splitOn ':' (stripOps s)).getD 1 []))
    else some (0, splitRev (stripOps s)) := by
  unfold splitVersion splitRev
  dsimp only
  by_cases h : ':' ∈ stripOps s
  · rw [if_pos h, if_pos h]
    congr 1
    funext e
    split <;> rfl
  · rw [if_neg h, if_neg h]
    split <;> rfl

theorem splitOn_first {c : Char} {a b : Str} (h : c ∉ a) :
    splitOn c (a ++ c :: b) = a :: splitOn c b := by
  rw [splitOn_append, splitOn_clean c a h]; rfl

/-- **C36.**  Epoch, version and revision are read as documented. -/
theorem splitVersion_iff {int : Str → Option Int} {s v r : Str} {e : Int} :
    splitVersion int s = some (e, v, r) ↔ Reads int s e v r := by
  rw [splitVersion_eq]
  constructor
  · intro h
    by_cases hc : ':' ∈ stripOps s
    · rw [if_pos hc] at h
      obtain ⟨e', he', h⟩ := Option.map_eq_some_iff.mp h
      injection h with h1 h2
      subst h1
      refine ⟨stripOps s, _, Or.inr ?_, splitRev_iff.mp h2, stripOps_core s⟩
      obtain ⟨es, more, hs, hes⟩ : ∃ es more, stripOps s = es ++ ':' :: more ∧ ':' ∉ es :=
        List.eq_append_cons_of_mem hc
      rw [hs, splitOn_first hes] at he' ⊢
      refine ⟨es, ?_⟩
      by_cases hm : ':' ∈ more
      · obtain ⟨rest, m2, hm2, hr⟩ := List.eq_append_cons_of_mem hm
        refine ⟨':' :: m2, hes, ?_, ?_, Or.inr ⟨m2, rfl⟩, he'⟩
        · rw [hm2, splitOn_first hr]; simp
        · rw [hm2, splitOn_first hr]; exact hr
      · refine ⟨[], hes, ?_, ?_, Or.inl rfl, he'⟩
        · rw [splitOn_clean ':' more hm]; simp
        · rw [splitOn_clean ':' more hm]; exact hm
    · rw [if_neg hc] at h
      injection h with h
      injection h with h1 h2
      exact ⟨stripOps s, stripOps s, Or.inl ⟨hc, h1.symm, rfl⟩, splitRev_iff.mp h2, stripOps_core s⟩
  · rintro ⟨core, rest, h, hv, hcore⟩
    rw [core_unique (stripOps_core s) hcore]
    rcases h with ⟨h1, h2, h3⟩ | ⟨es, more, h1, h2, h3, h4, h5⟩
    · rw [if_neg h1, ← h3, splitRev_iff.mpr hv, h2]
    · rw [if_pos (by rw [h2]; simp), h2, List.append_assoc, List.cons_append, splitOn_first h1]
      rw [show (es :: splitOn ':' (rest ++ more)).getD 0 [] = es from rfl, h5]
      have hrest : (es :: splitOn ':' (rest ++ more)).getD 1 [] = rest := by
        rcases h4 with h4 | ⟨m, h4⟩
        · rw [h4, List.append_nil, splitOn_clean ':' rest h3]; rfl
        · rw [h4, splitOn_first h3]; rfl
      rw [hrest, splitRev_iff.mpr hv]; rfl

/-- **C36.**  Only an epoch that is not a number makes a version unreadable. -/
theorem splitVersion_fails {int : Str → Option Int} {s : Str} : splitVersion int s = none ↔
    ∃ es more, Core s (es ++ ':' :: more) ∧ ':' ∉ es ∧ int es = none := by
  rw [splitVersion_eq]
  constructor
  · intro h
    by_cases hc : ':' ∈ stripOps s
    · rw [if_pos hc] at h
      obtain ⟨es, more, hs, hes⟩ : ∃ es more, stripOps s = es ++ ':' :: more ∧ ':' ∉ es :=
        List.eq_append_cons_of_mem hc
      rw [hs, splitOn_first hes] at h
      exact ⟨es, more, hs ▸ stripOps_core s, hes, Option.map_eq_none_iff.mp h⟩
    · rw [if_neg hc] at h; cases h
  · rintro ⟨es, more, h1, h2, h3⟩
    rw [core_unique (stripOps_core s) h1, if_pos (by simp), splitOn_first h2]
    rw [show (es :: splitOn ':' more).getD 0 [] = es from rfl, h3]; rfl

/-! ### The operators -/

/-- **C36.**  For readable versions the operators are consistent: exactly one of `<`, `=` and `>`
holds, and the others are the usual combinations; every other operator is refused. -/
theorem ops_consistent {int : Str → Option Int} {a b : Str} {ta tb : Int × Str × Str}
    (ha : splitVersion int a = some ta) (hb : splitVersion int b = some tb) :
    ∃ lt eq gt : Bool,
      vercmpStringOp int a b "<".toList = some lt ∧ vercmpStringOp int a b "<<".toList = some lt ∧
      vercmpStringOp int a b "=".toList = some eq ∧ vercmpStringOp int a b "==".toList = some eq ∧
      vercmpStringOp int a b ">".toList = some gt ∧ vercmpStringOp int a b ">>".toList = some gt ∧
      vercmpStringOp int a b "<=".toList = some (lt || eq) ∧
      vercmpStringOp int a b ">=".toList = some (gt || eq) ∧
      vercmpStringOp int a b "!=".toList = some (!eq) ∧
      (lt = true ↔ vercmp ta tb < 0) ∧ (eq = true ↔ vercmp ta tb = 0) ∧ (gt = true ↔ vercmp ta tb > 0) ∧
      ∀ op, op ∉ (["<", "<<", "=", "==", ">", ">>", "<=", ">=", "!="].map String.toList) →
        vercmpStringOp int a b op = none := by
  have hv : vercmpString int a b = some (vercmp ta tb) := by unfold vercmpString; rw [ha, hb]
  generalize vercmp ta tb = r at *
  refine ⟨decide (r < 0), decide (r = 0), decide (r > 0), ?_⟩
  unfold vercmpStringOp
  rw [hv]
  dsimp only
  refine ⟨rfl, rfl, rfl, rfl, rfl, rfl, ?_, ?_, ?_, by simp, by simp, by simp, ?_⟩
  · show some (decide (r ≤ 0)) = _
    congr 1
    by_cases h1 : r < 0
    · simp [h1]; omega
    · by_cases h2 : r = 0
      · simp [h2]
      · simp [h1, h2]; omega
  · show some (decide (r ≥ 0)) = _
    congr 1
    by_cases h1 : r > 0
    · simp [h1]; omega
    · by_cases h2 : r = 0
      · simp [h2]
      · simp [h1, h2]; omega
  · show some (decide (r ≠ 0)) = _
    simp
  · intro op hop
    simp only [List.map_cons, List.map_nil, List.mem_cons, List.not_mem_nil, or_false, not_or] at hop
    obtain ⟨h1, h2, h3, h4, h5, h6, h7, h8, h9⟩ := hop
    rw [if_neg (fun h => h.elim h3 h4), if_neg h7, if_neg h8, if_neg (fun h => h.elim h5 h6),
      if_neg (fun h => h.elim h1 h2), if_neg h9]

/-- The operators `=<` and `=>`, which dependency strings may contain, cannot be compared. -/
theorem op_refused : ∃ a b : Str,
    vercmpStringOp (fun _ => some 0) a b "=>".toList = none ∧
    vercmpStringOp (fun _ => some 0) a b "=<".toList = none := ⟨[], [], rfl, rfl⟩

/-! ### What users rely on -/

/-- **C36.**  A version with a tilde comes before the version without the rest: `1.0~rc1 < 1.0`. -/
theorem tilde_before (v s : Str) : vercmpPart (v ++ '~' :: s) v < 0 := by
  have hb : Break v ('~' :: s) := by
    constructor
    · rintro ⟨_, c, t, h, hc⟩; injection h with h _; rw [← h] at hc; cases hc
    · rintro ⟨_, c, t, h, hc⟩; injection h with h _; rw [← h] at hc; cases hc
  have h := parts_append (explode_parts v) (Parts.tilde (explode_parts s)) hb
  refine (vercmpPart_iff h (explode_parts v)).1.mpr ⟨explode v, _, [], rfl, by rw [List.append_nil], ?_⟩
  exact .tilde (by simp)

/-- **C36.**  A version with a further part comes later: `1.0 < 1.0.1` and `1.0 < 1.0+git`. -/
theorem longer_later (v s : Str) (c : Char) (hd : c.isDigit = false) (ha : c.isAlpha = false)
    (hc : c ≠ '~') : vercmpPart v (v ++ c :: s) < 0 := by
  have hb : Break v (c :: s) := by
    constructor
    · rintro ⟨_, d, t, h, hd'⟩; injection h with h _; rw [← h, hd] at hd'; cases hd'
    · rintro ⟨_, d, t, h, hd'⟩; injection h with h _; rw [← h, ha] at hd'; cases hd'
  have h := parts_append (explode_parts v) (Parts.other hd ha hc (explode_parts s)) hb
  refine (vercmpPart_iff (explode_parts v) h).1.mpr
    ⟨explode v, [], _, by rw [List.append_nil], rfl, .endOther⟩

/-- **C36.**  Numbers are compared by value, at any place: `1.9-x < 1.10`. -/
theorem number_order (v s t : Str) (m n : Nat) (hmn : m < n)
    (hv : ¬ ∃ x, v.getLast? = some x ∧ x.isDigit = true) (hs : ¬ Starts Char.isDigit s)
    (ht : ¬ Starts Char.isDigit t) :
    vercmpPart (v ++ (dec m ++ s)) (v ++ (dec n ++ t)) < 0 := by
  have key : ∀ k u, ¬ Starts Char.isDigit u →
      Parts (v ++ (dec k ++ u)) (explode v ++ (.num k :: explode u)) := by
    intro k u hu
    have hp : Parts (dec k ++ u) (.num k :: explode u) := by
      have := Parts.num (dec_ne_nil k) (fun c hc => dec_digits hc) hu (explode_parts u)
      rwa [decVal_dec] at this
    refine parts_append (explode_parts v) hp ⟨fun h => hv h.1, ?_⟩
    rintro ⟨_, d, w, h, hd⟩
    obtain ⟨c, ds, hc⟩ := List.exists_cons_of_ne_nil (dec_ne_nil k)
    rw [hc] at h
    injection h with h _
    have := digit_not_alpha (dec_digits (n := k) (c := c) (by rw [hc]; exact List.mem_cons_self))
    rw [h, hd] at this; cases this
  exact (vercmpPart_iff (key m s hs) (key n t ht)).1.mpr ⟨explode v, _, _, rfl, rfl, .num hmn⟩

/-- **C36.**  Zeros in front of a number do not matter: `1.02 = 1.2`. -/
theorem leading_zeros (v s : Str) (ds : Str) (hne : ds ≠ []) (hds : ∀ c ∈ ds, c.isDigit = true)
    (hv : ¬ ∃ x, v.getLast? = some x ∧ x.isDigit = true) (hs : ¬ Starts Char.isDigit s) :
    vercmpPart (v ++ ('0' :: ds ++ s)) (v ++ (ds ++ s)) = 0 := by
  have key : ∀ ds' : Str, ds' ≠ [] → (∀ c ∈ ds', c.isDigit = true) →
      Parts (v ++ (ds' ++ s)) (explode v ++ (.num (decVal ds') :: explode s)) := by
    intro ds' hne' hd'
    refine parts_append (explode_parts v) (.num hne' hd' hs (explode_parts s)) ⟨fun h => hv h.1, ?_⟩
    rintro ⟨_, d, w, h, hd⟩
    obtain ⟨c, ds2, rfl⟩ := List.exists_cons_of_ne_nil hne'
    injection h with h _
    have := digit_not_alpha (hd' c List.mem_cons_self)
    rw [h, hd] at this; cases this
  refine (vercmpPart_iff (key ('0' :: ds) (List.cons_ne_nil _ _) ?_) (key ds hne hds)).2.1.mpr ?_
  · intro c hc
    rcases List.mem_cons.mp hc with rfl | hc
    · rfl
    · exact hds c hc
  · rw [decVal_cons]
    simp [digitVal]

/-- A second colon cuts the version off: `1:2:3` and `1:2:4` are the same. -/
theorem second_colon_lost : ∀ int : Str → Option Int, (int "1".toList).isSome = true →
    vercmpString int "1:2:3".toList "1:2:4".toList = some 0 := by
  intro int h
  obtain ⟨e, he⟩ := Option.isSome_iff_exists.mp h
  have h1 : splitVersion int "1:2:3".toList = some (e, "2".toList, []) := by
    rw [splitVersion_eq, if_pos (by decide)]
    rw [show (splitOn ':' (stripOps "1:2:3".toList)).getD 0 [] = "1".toList by decide, he]
    rfl
  have h2 : splitVersion int "1:2:4".toList = some (e, "2".toList, []) := by
    rw [splitVersion_eq, if_pos (by decide)]
    rw [show (splitOn ':' (stripOps "1:2:4".toList)).getD 0 [] = "1".toList by decide, he]
    rfl
  unfold vercmpString
  rw [h1, h2]
  dsimp only
  have := (vercmp_eq (a := (e, "2".toList, [])) (b := (e, "2".toList, [])) (explode_parts _)
    (explode_parts _) (explode_parts _) (explode_parts _)).mpr ⟨rfl, rfl, rfl⟩
  rw [this]

example : vercmpPart "1.0~rc1".toList "1.0".toList = -1 ∧ vercmpPart "1.10".toList "1.9".toList = 1 ∧
    vercmpPart "1.02a".toList "1.2a".toList = 0 ∧ vercmpPart "2.0".toList "2.a".toList = -1 := by decide
example : splitVersion (fun s => some (decVal s : Nat)) ">= 1:2.0-rc-r3".toList =
    some (1, "2.0-rc".toList, "r3".toList) := by decide
example : vercmpStringOp (fun s => some (decVal s : Nat)) "1:0".toList "2.0".toList ">=".toList = some true := by
  decide
example : vercmp (0, "1.0".toList, "r1".toList) (0, "1.0".toList, "r2".toList) ≤ 0 ∧
    vercmp (0, "1.0".toList, "r2".toList) (1, "0".toList, []) ≤ 0 := by decide
example : vercmpPart ("1.".toList ++ (dec 9 ++ "-x".toList)) ("1.".toList ++ (dec 10 ++ [])) < 0 := by decide

end Bb.Version
