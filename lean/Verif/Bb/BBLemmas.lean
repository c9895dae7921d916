import Verif.Bb.BBSpec
import Verif.Bb.ConfProps
/-!
# First lines of functions
-/

namespace Bb.BB
open Py Spec

theorem wordChar_iff {c : Char} : wordChar c = true ↔ WordChar c := by
  unfold wordChar WordChar
  rw [Bool.or_eq_true, beq_iff_eq]

theorem funcChar_iff {c : Char} : funcChar c = true ↔ NameChar c := by
  unfold funcChar NameChar
  simp only [Bool.or_eq_true, beq_iff_eq, List.mem_cons, List.not_mem_nil, or_false, or_assoc, wordChar_iff]

theorem funcChar_ws {c : Char} (h : isWs c = true ∨ c = '(') : funcChar c = false := by
  rcases h with h | h
  · unfold isWs at h
    simp only [Bool.or_eq_true, decide_eq_true_eq, or_assoc] at h
    rcases h with h | h | h | h | h | h | h | h | h | h <;> subst h <;> decide
  · subst h; decide

theorem paren_not_ws : isWs '(' = false ∧ isWs ')' = false ∧ isWs '{' = false := by decide

/-! ## Parentheses -/

theorem head_of {c d : Char} {r t : Str} (hc : isWs c = false) (h : c :: r = d :: t) : isWs d = false := by
  injection h with h1 h2; rw [← h1]; exact hc

theorem emptyParens_iff {s : Str} : emptyParens s = true ↔
    ∃ w1 w2 w3, s = w1 ++ '(' :: (w2 ++ ')' :: (w3 ++ ['{'])) ∧ White w1 ∧ White w2 ∧ White w3 := by
  constructor
  · intro h
    unfold emptyParens at h
    obtain ⟨w1, r, e1, hw1, hr, _⟩ := Conf.lstrip_split s
    rw [hr] at h
    split at h
    · rename_i r' _
      obtain ⟨w2, r2, e2, hw2, hr2, _⟩ := Conf.lstrip_split r'
      rw [hr2] at h
      split at h
      · rename_i r3 _
        obtain ⟨w3, r4, e3, hw3, hr3, _⟩ := Conf.lstrip_split r3
        rw [hr3, beq_iff_eq] at h
        exact ⟨w1, w2, w3, by rw [e1, e2, e3, h], hw1, hw2, hw3⟩
      · cases h
    · cases h
  · rintro ⟨w1, w2, w3, e, h1, h2, h3⟩
    subst e
    unfold emptyParens
    rw [Conf.lstrip_white h1 (fun c t h => head_of paren_not_ws.1 h)]
    show (match lstrip (w2 ++ ')' :: (w3 ++ ['{'])) with
      | ')' :: r2 => lstrip r2 == ['{']
      | _ => false) = true
    rw [Conf.lstrip_white h2 (fun c t h => head_of paren_not_ws.2.1 h)]
    show (lstrip (w3 ++ ['{']) == ['{']) = true
    rw [Conf.lstrip_white h3 (fun c t h => head_of paren_not_ws.2.2 h)]
    exact beq_self_eq_true _

/-! ## The words before the name -/

theorem prefixWord_true {s r : Str} : prefixWord s = some (true, r) ↔
    ∃ w, s = "python".toList ++ (w ++ r) ∧ White w ∧ (w ≠ [] ∨ r.head? = some '(') ∧ ∀ c t, r = c :: t → isWs c = false := by
  constructor
  · intro h
    unfold prefixWord at h
    split at h
    · rename_i hc
      injection h with h
      injection h with _ h
      obtain ⟨t, ht⟩ := startsWith_iff.1 hc.1
      have hd : s.drop 6 = t := by rw [ht]; rfl
      rw [hd] at h hc
      obtain ⟨w, r', e, hw, hl, hr⟩ := Conf.lstrip_split t
      rw [hl] at h; subst h
      refine ⟨w, by rw [ht, e], hw, ?_, hr⟩
      cases w with
      | cons a w => exact Or.inl nofun
      | nil =>
        right
        have hc2 := hc.2
        rw [e] at hc2
        cases r' with
        | nil => exact absurd hc2 (by decide)
        | cons c u =>
          have hc2 : (isWs c || c == '(') = true := hc2
          rw [hr c u rfl, Bool.false_or, beq_iff_eq] at hc2
          rw [hc2]; rfl
    · split at h
      · injection h with h; injection h with h _; cases h
      · cases h
  · rintro ⟨w, e, hw, hn, hr⟩
    have hd : s.drop 6 = w ++ r := by rw [e]; rfl
    have hs : startsWith s "python".toList = true := startsWith_iff.2 ⟨_, e⟩
    have hx : ((s.drop 6).head?.any fun c => isWs c || c == '(') = true := ?_
    · unfold prefixWord
      rw [if_pos ⟨hs, hx⟩, hd, Conf.lstrip_white hw hr]
    rw [hd]
    cases w with
    | cons a w => show (isWs a || a == '(') = true; rw [hw a List.mem_cons_self, Bool.true_or]
    | nil =>
      rcases hn with hn | hn
      · exact absurd rfl hn
      · cases r with
        | nil => cases hn
        | cons c u => injection hn with hn; subst hn; rfl

theorem prefixWord_false {s r : Str} : prefixWord s = some (false, r) ↔
    ∃ w, s = "fakeroot".toList ++ (w ++ r) ∧ White w ∧ w ≠ [] ∧ ∀ c t, r = c :: t → isWs c = false := by
  constructor
  · intro h
    unfold prefixWord at h
    split at h
    · injection h with h; injection h with h _; cases h
    · split at h
      · rename_i hc
        injection h with h
        injection h with _ h
        obtain ⟨t, ht⟩ := startsWith_iff.1 hc.1
        have hd : s.drop 8 = t := by rw [ht]; rfl
        rw [hd] at h hc
        obtain ⟨w, r', e, hw, hl, hr⟩ := Conf.lstrip_split t
        rw [hl] at h; subst h
        refine ⟨w, by rw [ht, e], hw, ?_, hr⟩
        rintro rfl
        have hc2 := hc.2
        rw [e] at hc2
        cases r' with
        | nil => exact absurd hc2 (by decide)
        | cons c u =>
          have hc2 : isWs c = true := hc2
          rw [hr c u rfl] at hc2; cases hc2
      · cases h
  · rintro ⟨w, e, hw, hn, hr⟩
    have hd : s.drop 8 = w ++ r := by rw [e]; rfl
    have hs : startsWith s "fakeroot".toList = true := startsWith_iff.2 ⟨_, e⟩
    have hp : ¬ (startsWith s "python".toList = true ∧ ((s.drop 6).head?.any fun c => isWs c || c == '(') = true) := by
      rintro ⟨h, _⟩
      rw [e] at h
      exact absurd h (by show ¬ false = true; exact nofun)
    have hx : ((s.drop 8).head?.any isWs) = true := ?_
    · unfold prefixWord
      rw [if_neg hp, if_pos ⟨hs, hx⟩, hd, Conf.lstrip_white hw hr]
    rw [hd]
    cases w with
    | cons a w => exact hw a List.mem_cons_self
    | nil => exact absurd rfl hn

/-- A name and what follows it: a word that is at the beginning and is followed by something else is the name. -/
theorem name_of {n r w t : Str} (hn : n.all funcChar = true) (hr : ∀ c u, r = c :: u → funcChar c = false)
    (hw : w.all funcChar = true) (ht : ∀ c u, t = c :: u → funcChar c = false) (h : n ++ r = w ++ t) : n = w ∧ r = t := by
  have h1 := Conf.takeWhile_dropWhile hn hr
  have h2 := Conf.takeWhile_dropWhile hw ht
  rw [h] at h1
  exact ⟨h1.1.symm.trans h2.1, h1.2.symm.trans h2.2⟩

theorem tail_char {w r : Str} (hw : White w) : ∀ c u, w ++ '(' :: r = c :: u → funcChar c = false := by
  intro c u h
  cases w with
  | nil => injection h with h _; exact funcChar_ws (Or.inr h.symm)
  | cons a w => injection h with h _; exact funcChar_ws (Or.inl (h ▸ hw a List.mem_cons_self))

theorem prefixWord_none {n w1 r : Str} (hn : n.all funcChar = true) (hp : n ≠ "python".toList)
    (hf : n = "fakeroot".toList → w1 = []) (hw1 : White w1) : prefixWord (n ++ (w1 ++ '(' :: r)) = none := by
  rcases hx : prefixWord (n ++ (w1 ++ '(' :: r)) with _ | ⟨b, x⟩
  · rfl
  · exfalso
    cases b with
    | true =>
      obtain ⟨w, e, hw, hh, _⟩ := prefixWord_true.1 hx
      refine hp (name_of hn (tail_char hw1) (by decide) ?_ e).1
      intro c u h
      cases w with
      | cons a w => injection h with h _; exact funcChar_ws (Or.inl (h ▸ hw a List.mem_cons_self))
      | nil =>
        rcases hh with hh | hh
        · exact absurd rfl hh
        · have h : x = c :: u := h
          rw [h] at hh; injection hh with hh; exact funcChar_ws (Or.inr hh)
    | false =>
      obtain ⟨w, e, hw, hh, _⟩ := prefixWord_false.1 hx
      cases w with
      | nil => exact hh rfl
      | cons a w =>
        have ha := hw a List.mem_cons_self
        have hh := name_of hn (tail_char hw1) (by decide) (fun c u h => by
          injection h with h _; exact funcChar_ws (Or.inl (h ▸ ha))) e
        have h2 := hh.2
        rw [hf hh.1] at h2
        injection h2 with h2 _
        rw [← h2, paren_not_ws.1] at ha
        cases ha

theorem funcStart_succ (n : Nat) (p f : Bool) (s : Str) : funcStart (n + 1) p f s =
    match prefixWord s with
    | some (true, r) => funcStart n true f r
    | some (false, r) => funcStart n p true r
    | none => if emptyParens (s.dropWhile funcChar) then
        some (if s.takeWhile funcChar = [] then none else some (s.takeWhile funcChar), p, f) else none := rfl

theorem funcStart_iff : ∀ (n : Nat) {s : Str} {p f p' f' : Bool} {nm : Option Str}, s.length < n →
    (funcStart n p f s = some (nm, p', f') ↔ ∃ a b, Head s nm a b ∧ p' = (p || a) ∧ f' = (f || b))
  | 0, s, _, _, _, _, _, h => absurd h (Nat.not_lt_zero _)
  | n + 1, s, p, f, p', f', nm, h => by
    rw [funcStart_succ]
    constructor
    · intro hx
      split at hx
      · rename_i r hr
        obtain ⟨w, e, hw, hh, hn⟩ := prefixWord_true.1 hr
        have hl : r.length < n := by
          rw [e, List.length_append, List.length_append] at h
          have : ("python".toList).length = 6 := rfl
          omega
        obtain ⟨a, b, hH, h1, h2⟩ := (funcStart_iff n hl).1 hx
        subst e
        exact ⟨true, b, .python hw hh hn hH, by rw [h1, Bool.or_true, Bool.true_or], h2⟩
      · rename_i r hr
        obtain ⟨w, e, hw, hh, hn⟩ := prefixWord_false.1 hr
        have hl : r.length < n := by
          rw [e, List.length_append, List.length_append] at h
          have : ("fakeroot".toList).length = 8 := rfl
          omega
        obtain ⟨a, b, hH, h1, h2⟩ := (funcStart_iff n hl).1 hx
        subst e
        exact ⟨a, true, .fakeroot hw hh hn hH, h1, by rw [h2, Bool.or_true, Bool.true_or]⟩
      · rename_i hr
        split at hx
        · rename_i he
          obtain ⟨w1, w2, w3, e, h1, h2, h3⟩ := emptyParens_iff.1 he
          injection hx with hx
          injection hx with hx1 hx
          injection hx with hx2 hx3
          have hs : s = s.takeWhile funcChar ++ s.dropWhile funcChar := (List.takeWhile_append_dropWhile).symm
          have hall := Conf.takeWhile_all' funcChar s
          generalize s.takeWhile funcChar = nn at *
          rw [e] at hs
          refine ⟨false, false, ?_, by rw [← hx2, Bool.or_false], by rw [← hx3, Bool.or_false]⟩
          rw [← hx1, hs]
          refine .plain (fun c hc => funcChar_iff.1 (List.all_eq_true.1 hall c hc)) ?_ ?_ h1 h2 h3
          · intro hp
            subst hp
            have := prefixWord_true (s := s) (r := lstrip (s.drop 6))
            rw [hr] at this
            refine nomatch this.2 ⟨w1, ?_, h1, ?_, ?_⟩
            · rw [hs]
              show _ = _ ++ (w1 ++ lstrip (w1 ++ _))
              rw [Conf.lstrip_white h1 (fun c t h => head_of paren_not_ws.1 h)]
            · right
              rw [hs]
              show (lstrip (w1 ++ _)).head? = _
              rw [Conf.lstrip_white h1 (fun c t h => head_of paren_not_ws.1 h)]; rfl
            · rw [hs]
              show ∀ c t, (lstrip (w1 ++ _)) = c :: t → _
              rw [Conf.lstrip_white h1 (fun c t h => head_of paren_not_ws.1 h)]
              intro c t h; exact head_of paren_not_ws.1 h
          · intro hp
            subst hp
            cases w1 with
            | nil => rfl
            | cons a w1 =>
              have := prefixWord_false (s := s) (r := '(' :: (w2 ++ ')' :: (w3 ++ ['{'])))
              rw [hr] at this
              exact nomatch this.2 ⟨a :: w1, hs, h1, nofun, fun c t h => head_of paren_not_ws.1 h⟩
        · cases hx
    · rintro ⟨a, b, hH, e1, e2⟩
      cases hH with
      | @plain nn w1 w2 w3 h1 h2 h3 h4 h5 h6 =>
        have hall : nn.all funcChar = true := List.all_eq_true.2 fun c hc => funcChar_iff.2 (h1 c hc)
        rw [prefixWord_none hall h2 h3 h4]
        dsimp only
        have := Conf.takeWhile_dropWhile hall (tail_char (r := (w2 ++ ')' :: (w3 ++ ['{']))) h4)
        rw [this.1, this.2, if_pos (emptyParens_iff.2 ⟨w1, w2, w3, rfl, h4, h5, h6⟩), e1, e2, Bool.or_false, Bool.or_false]
      | @python w s' _ pp _ hw hh hn hH =>
        rw [prefixWord_true.2 ⟨w, rfl, hw, hh, hn⟩]
        dsimp only
        have hl : s'.length < n := by
          rw [List.length_append, List.length_append] at h
          have : ("python".toList).length = 6 := rfl
          omega
        exact (funcStart_iff n hl).2 ⟨pp, b, hH, by rw [e1, Bool.or_true, Bool.true_or], e2⟩
      | @fakeroot w s' _ _ ff hw hh hn hH =>
        rw [prefixWord_false.2 ⟨w, rfl, hw, hh, hn⟩]
        dsimp only
        have hl : s'.length < n := by
          rw [List.length_append, List.length_append] at h
          have : ("fakeroot".toList).length = 8 := rfl
          omega
        exact (funcStart_iff n hl).2 ⟨a, ff, hH, e1, by rw [e2, Bool.or_true, Bool.true_or]⟩

/-- The first line of a function is recognized, and nothing else is. -/
theorem funcStart_head {s : Str} {nm : Option Str} {p f : Bool} :
    funcStart (s.length + 1) false false s = some (nm, p, f) ↔ Head s nm p f := by
  rw [funcStart_iff _ (Nat.lt_succ_self _)]
  constructor
  · rintro ⟨a, b, h, rfl, rfl⟩
    exact h
  · intro h
    exact ⟨p, f, h, (Bool.false_or _).symm, (Bool.false_or _).symm⟩

theorem defStart_iff {s n : Str} : defStart s = some n ↔ Def s n := by
  unfold defStart Def
  constructor
  · intro h
    obtain ⟨r, hk, h⟩ := Option.bind_eq_some_iff.1 h
    obtain ⟨w, e, hne, hw, hr⟩ := Conf.keyword_iff.1 hk
    split at h
    · rename_i hc
      injection h with h
      subst h
      have hs : r = r.takeWhile wordChar ++ r.dropWhile wordChar := (List.takeWhile_append_dropWhile).symm
      refine ⟨w, r.dropWhile wordChar, ?_, hw, hne, hc.1, ?_, ?_, hc.2⟩
      · rw [← hs]; exact e
      · intro c hc
        exact wordChar_iff.1 (List.all_eq_true.1 (Conf.takeWhile_all' wordChar r) c hc)
      · intro c t hct hw
        have := List.head?_dropWhile_not wordChar r
        rw [hct] at this
        have this : (if wordChar c = false then True else False) := by
          simpa using this
        rw [wordChar_iff.2 hw] at this
        exact absurd this (by simp)
    · cases h
  · rintro ⟨w, r, e, hw, hne, hn, hnc, hr, hcol⟩
    have hall : n.all wordChar = true := List.all_eq_true.2 fun c hc => wordChar_iff.2 (hnc c hc)
    have hk : Conf.keyword "def".toList s = some (n ++ r) := by
      refine Conf.keyword_iff.2 ⟨w, e, hne, hw, ?_⟩
      intro c t hct
      cases n with
      | nil => exact absurd rfl hn
      | cons a n =>
        injection hct with h1 h2
        have ha : wordChar a = true := wordChar_iff.2 (hnc a List.mem_cons_self)
        cases hx : isWs c with
        | false => rfl
        | true =>
          have := funcChar_ws (Or.inl hx)
          rw [← h1] at this
          unfold funcChar at this
          rw [ha] at this
          cases this
    rw [hk]
    have hr' : ∀ c t, r = c :: t → wordChar c = false := fun c t h => by
      cases hx : wordChar c with
      | false => rfl
      | true => exact absurd (wordChar_iff.1 hx) (hr c t h)
    have := Conf.takeWhile_dropWhile hall hr'
    show (if _ then _ else _) = _
    rw [this.1, this.2, if_pos ⟨hn, hcol⟩]

theorem pyLine_iff {s : Str} : pyLine s = true ↔ Body s := by
  unfold Body
  cases s with
  | nil => exact ⟨fun _ c t h => (nomatch h), fun _ => rfl⟩
  | cons a s =>
    show (isWs a || a == '#') = true ↔ _
    rw [Bool.or_eq_true, beq_iff_eq]
    exact ⟨fun h c t e => by injection e with e _; subst e; exact h, fun h => h a s rfl⟩

end Bb.BB
