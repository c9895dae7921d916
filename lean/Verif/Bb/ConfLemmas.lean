import Verif.Bb.ConfSpec
/-!
# Lemmas about lines of configuration files
-/

namespace Bb.Conf
open Py Spec

theorem lstrip_white {w r : Str} (hw : White w) (hr : ∀ c t, r = c :: t → isWs c = false) : lstrip (w ++ r) = r := by
  induction w with
  | nil =>
    cases r with
    | nil => rfl
    | cons c t => exact List.dropWhile_cons_of_neg (by rw [hr c t rfl]; exact Bool.false_ne_true)
  | cons c w ih =>
    show List.dropWhile isWs (c :: (w ++ r)) = r
    rw [List.dropWhile_cons_of_pos (hw c List.mem_cons_self)]
    exact ih fun d hd => hw d (List.mem_cons_of_mem _ hd)

theorem lstrip_split (t : Str) : ∃ w r, t = w ++ r ∧ White w ∧ lstrip t = r ∧ ∀ c u, r = c :: u → isWs c = false := by
  induction t with
  | nil => exact ⟨[], [], rfl, nofun, rfl, nofun⟩
  | cons c t ih =>
    obtain ⟨w, r, h1, h2, h3, h4⟩ := ih
    cases hc : isWs c with
    | true =>
      refine ⟨c :: w, r, by rw [h1]; rfl, fun d hd => ?_, ?_, h4⟩
      · rcases List.mem_cons.1 hd with rfl | hd
        · exact hc
        · exact h2 d hd
      · show List.dropWhile isWs (c :: t) = r
        rw [List.dropWhile_cons_of_pos hc]; exact h3
    | false =>
      refine ⟨[], c :: t, rfl, nofun, List.dropWhile_cons_of_neg (by rw [hc]; exact Bool.false_ne_true), ?_⟩
      intro d u hd
      injection hd with h _
      rw [← h]; exact hc

theorem dropWhile_ne {q : Char} {a b : Str} (ha : q ∉ a) : (a ++ q :: b).dropWhile (fun x => decide (x ≠ q)) = q :: b := by
  induction a with
  | nil => exact List.dropWhile_cons_of_neg (by simp)
  | cons c a ih =>
    rw [List.mem_cons, not_or] at ha
    rw [List.cons_append, List.dropWhile_cons_of_pos (by simpa using Ne.symm ha.1)]
    exact ih ha.2

theorem dropLast_last {q : Char} {r : Str} (h : r.getLast? = some q) : r.dropLast ++ [q] = r := by
  rcases List.eq_nil_or_concat r with rfl | ⟨l, x, rfl⟩
  · cases h
  · rw [List.concat_eq_append, List.getLast?_concat] at h
    injection h with h
    subst h
    rw [List.concat_eq_append, List.dropLast_concat]

/-- The first place of a character. -/
theorem first_mem {q : Char} : ∀ {s : Str}, q ∈ s → ∃ a b, s = a ++ q :: b ∧ q ∉ a
  | c :: s, h => by
    by_cases hc : c = q
    · subst hc; exact ⟨[], s, rfl, nofun⟩
    · rcases List.mem_cons.1 h with h | h
      · exact absurd h.symm hc
      · obtain ⟨a, b, h1, h2⟩ := first_mem h
        refine ⟨c :: a, b, by rw [h1]; rfl, fun hm => ?_⟩
        rcases List.mem_cons.1 hm with hm | hm
        · exact hc hm.symm
        · exact h2 hm

/-- The two tests for three quotes. -/
theorem threeQuotes_same (q : Char) (v : Str) : threeQuotes q (q :: (v ++ [q])) = decide (v.count q = 1) := by
  unfold threeQuotes
  dsimp only
  rw [beq_self_eq_true, Bool.true_and]
  by_cases hm : q ∈ v
  · obtain ⟨a, b, rfl, ha⟩ := first_mem hm
    have hca : a.count q = 0 := List.count_eq_zero.2 ha
    rw [List.append_assoc, List.cons_append, dropWhile_ne ha]
    show (match (b ++ [q]).dropWhile (fun x => decide (x ≠ q)) with | [_] => true | _ => false) = _
    rw [List.count_append, hca, List.count_cons_self, Nat.zero_add]
    by_cases hb : q ∈ b
    · obtain ⟨c, d, rfl, hc⟩ := first_mem hb
      rw [List.append_assoc, List.cons_append, dropWhile_ne hc]
      have : d ++ [q] ≠ [] := by simp
      rw [List.count_append, List.count_cons_self]
      have h1 : ¬ (c.count q + (d.count q + 1) + 1 = 1) := by omega
      rw [decide_eq_false h1]
      cases hd : d ++ [q] with
      | nil => exact absurd hd this
      | cons x y => rfl
    · rw [dropWhile_ne hb, List.count_eq_zero.2 hb]
      rfl
  · rw [dropWhile_ne hm, List.count_eq_zero.2 hm]
    rfl

theorem threeQuotes_other {q c : Char} (h : c ≠ q) (r : Str) : threeQuotes q (c :: r) = false := by
  unfold threeQuotes
  dsimp only
  rw [beq_eq_false_iff_ne.2 h, Bool.false_and]

/-- A value in quotes. -/
def Val (t v : Str) : Prop := ∃ q, (q = '\'' ∨ q = '"') ∧ t = q :: (v ++ [q]) ∧ v.count q ≠ 1

theorem quoted_iff {t v : Str} : quoted t = some v ↔ Val t v := by
  constructor
  · intro h
    unfold quoted at h
    split at h
    · cases h
    · next hthree =>
      cases t with
      | nil => cases h
      | cons q r =>
        have h : (if (q == '\'' || q == '"') && r.getLast? == some q then some r.dropLast else none) = some v := h
        split at h
        · next hc =>
          rw [Bool.and_eq_true, Bool.or_eq_true, beq_iff_eq, beq_iff_eq, beq_iff_eq] at hc
          injection h with h
          have hr : r = v ++ [q] := by
            rw [← h]
            exact (dropLast_last hc.2).symm
          subst hr
          refine ⟨q, hc.1, rfl, fun hcount => hthree ?_⟩
          rw [Bool.or_eq_true]
          rcases hc.1 with rfl | rfl
          · left; rw [threeQuotes_same]; exact decide_eq_true hcount
          · right; rw [threeQuotes_same]; exact decide_eq_true hcount
        · cases h
  · rintro ⟨q, hq, rfl, hc⟩
    unfold quoted
    have : (threeQuotes '\'' (q :: (v ++ [q])) || threeQuotes '"' (q :: (v ++ [q]))) = false := by
      rcases hq with rfl | rfl
      · rw [threeQuotes_same, threeQuotes_other (by decide), decide_eq_false hc]; rfl
      · rw [threeQuotes_same, threeQuotes_other (by decide), decide_eq_false hc]; rfl
    rw [this]
    show (if (q == '\'' || q == '"') && (v ++ [q]).getLast? == some q then some (v ++ [q]).dropLast else none) = some v
    rw [List.getLast?_concat, beq_self_eq_true, List.dropLast_concat]
    rcases hq with rfl | rfl <;> rfl

/-- What follows a variable and its flag. -/
def Tail (t : Str) (op : Op) (v : Str) : Prop :=
  ∃ w1 w2 u, White w1 ∧ White w2 ∧ t = w1 ++ (written op ++ (w2 ++ u)) ∧ Val u v

theorem Val.head {u v : Str} (h : Val u v) : ∃ q r, u = q :: r ∧ (q = '\'' ∨ q = '"') := by
  obtain ⟨q, hq, rfl, _⟩ := h
  exact ⟨q, _, rfl, hq⟩

theorem quote_not_ws {q : Char} (h : q = '\'' ∨ q = '"') : isWs q = false := by
  rcases h with rfl | rfl <;> rfl

theorem op_head (op : Op) : ∃ c r, written op = c :: r ∧ isWs c = false ∧ written op = op.text := by
  cases op <;> exact ⟨_, _, rfl, rfl, rfl⟩

/-- After an operator comes white space or a quote. -/
theorem next_char {w2 u v : Str} (h : White w2) (hu : Val u v) : ∃ c r, w2 ++ u = c :: r ∧ c ≠ '+' ∧ c ≠ '.' ∧ c ≠ '=' := by
  cases w2 with
  | nil =>
    obtain ⟨q, r, rfl, hq⟩ := hu.head
    refine ⟨q, r, rfl, ?_⟩
    rcases hq with rfl | rfl <;> decide
  | cons c w =>
    refine ⟨c, w ++ u, rfl, ?_⟩
    have := h c List.mem_cons_self
    refine ⟨?_, ?_, ?_⟩ <;> (rintro rfl; exact absurd this (by decide))

theorem afterVar_iff {t : Str} {o : Op × Str} : afterVar t = some o ↔ Tail t o.1 o.2 := by
  constructor
  · intro h
    unfold afterVar at h
    obtain ⟨op, hop, h⟩ := List.exists_of_findSome?_eq_some h
    split at h
    · next hs =>
      obtain ⟨r, hr⟩ := startsWith_iff.1 hs
      cases hq : quoted (lstrip ((lstrip t).drop op.text.length)) with
      | none => rw [hq] at h; cases h
      | some v =>
        rw [hq] at h
        have h : some (op, v) = some o := h
        injection h with h
        subst h
        obtain ⟨w1, r1, e1, hw1, e2, _⟩ := lstrip_split t
        obtain ⟨w2, r2, e3, hw2, e4, _⟩ := lstrip_split ((lstrip t).drop op.text.length)
        rw [e4] at hq
        refine ⟨w1, w2, r2, hw1, hw2, ?_, quoted_iff.1 hq⟩
        show t = w1 ++ (written op ++ (w2 ++ r2))
        rw [← e3, (op_head op).choose_spec.choose_spec.2.2, hr, List.drop_left, ← hr, e2]
        exact e1
    · cases h
  · rintro ⟨w1, w2, u, hw1, hw2, rfl, hu⟩
    obtain ⟨op, v⟩ := o
    have e1 : lstrip (w1 ++ (written op ++ (w2 ++ u))) = written op ++ (w2 ++ u) := by
      refine lstrip_white hw1 fun c t h => ?_
      obtain ⟨d, r, hd, hws, _⟩ := op_head op
      rw [hd] at h
      have h : d :: (r ++ (w2 ++ u)) = c :: t := h
      injection h with h _
      rw [← h]; exact hws
    have e2 : lstrip (w2 ++ u) = u := by
      obtain ⟨q, r, rfl, hq⟩ := hu.head
      refine lstrip_white hw2 fun c t h => ?_
      injection h with h _
      rw [← h]; exact quote_not_ws hq
    have hv := quoted_iff.2 hu
    obtain ⟨c, r, hn, h1, h2, h3⟩ := next_char hw2 hu
    unfold afterVar
    rw [e1]
    show ops.findSome? (fun op' => if startsWith (written op ++ (w2 ++ u)) op'.text = true then
      (quoted (lstrip ((written op ++ (w2 ++ u)).drop op'.text.length))).map (fun v => (op', v)) else none) = some (op, v)
    have main : (quoted (lstrip ((written op ++ (w2 ++ u)).drop op.text.length))).map (fun v => (op, v)) = some (op, v) := by
      rw [(op_head op).choose_spec.choose_spec.2.2, List.drop_left, e2, hv]; rfl
    have hs : startsWith (written op ++ (w2 ++ u)) op.text = true := by
      rw [(op_head op).choose_spec.choose_spec.2.2]; exact startsWith_iff.2 ⟨_, rfl⟩
    have key : ∀ (l1 l2 : List Op), ops = l1 ++ op :: l2 →
        (∀ op', op' ∈ l1 → startsWith (written op ++ (w2 ++ u)) op'.text = false) →
        ops.findSome? (fun op' => if startsWith (written op ++ (w2 ++ u)) op'.text = true then
          (quoted (lstrip ((written op ++ (w2 ++ u)).drop op'.text.length))).map (fun v => (op', v)) else none) = some (op, v) := by
      intro l1 l2 he hf
      rw [he, List.findSome?_append]
      have : l1.findSome? (fun op' => if startsWith (written op ++ (w2 ++ u)) op'.text = true then
          (quoted (lstrip ((written op ++ (w2 ++ u)).drop op'.text.length))).map (fun v => (op', v)) else none) = none := by
        rw [List.findSome?_eq_none_iff]
        intro x hx
        rw [if_neg (by rw [hf x hx]; exact Bool.false_ne_true)]
      rw [this, Option.none_or, List.findSome?_cons, if_pos hs, main]
    rw [hn] at key ⊢
    have hp : (('+' : Char) == c) = false := beq_eq_false_iff_ne.2 (Ne.symm h1)
    have hd : (('.' : Char) == c) = false := beq_eq_false_iff_ne.2 (Ne.symm h2)
    cases op
    · exact key [] _ rfl nofun
    · exact key [.colon] _ rfl (by intro x hx; rw [List.mem_singleton] at hx; subst hx; rfl)
    · refine key [.colon, .lazyques] _ rfl ?_
      intro x hx
      simp only [List.mem_cons, List.not_mem_nil, or_false] at hx
      rcases hx with rfl | rfl <;> rfl
    · refine key [.colon, .lazyques, .ques] _ rfl ?_
      intro x hx
      simp only [List.mem_cons, List.not_mem_nil, or_false] at hx
      rcases hx with rfl | rfl | rfl <;> rfl
    · refine key [.colon, .lazyques, .ques, .append] _ rfl ?_
      intro x hx
      simp only [List.mem_cons, List.not_mem_nil, or_false] at hx
      rcases hx with rfl | rfl | rfl | rfl <;> rfl
    · refine key [.colon, .lazyques, .ques, .append, .prepend] _ rfl ?_
      intro x hx
      simp only [List.mem_cons, List.not_mem_nil, or_false] at hx
      rcases hx with rfl | rfl | rfl | rfl | rfl <;> rfl
    · refine key [.colon, .lazyques, .ques, .append, .prepend, .predot] _ rfl ?_
      intro x hx
      simp only [List.mem_cons, List.not_mem_nil, or_false] at hx
      rcases hx with rfl | rfl | rfl | rfl | rfl | rfl <;> rfl
    · refine key [.colon, .lazyques, .ques, .append, .prepend, .predot, .postdot] _ rfl ?_
      intro x hx
      simp only [List.mem_cons, List.not_mem_nil, or_false] at hx
      rcases hx with rfl | rfl | rfl | rfl | rfl | rfl | rfl
      · rfl
      · rfl
      · rfl
      · rfl
      · show (('=' : Char) == '=' && (('+' : Char) == c && _)) = false
        rw [hp]; rfl
      · show (('=' : Char) == '=' && (('.' : Char) == c && _)) = false
        rw [hd]; rfl
      · rfl

end Bb.Conf
