import Verif.Bb.ConfLemmas
/-!
# A line of a configuration file means one thing
-/

namespace Bb.Conf
open Py Spec

theorem orElse_some {α : Type} {a b : Option α} {x : α} : (a <|> b) = some x ↔ a = some x ∨ a = none ∧ b = some x := by
  cases a with
  | none => exact ⟨fun h => Or.inr ⟨rfl, h⟩, fun h => h.elim (fun h => nomatch h) (fun h => h.2)⟩
  | some y => exact ⟨fun h => Or.inl h, fun h => h.elim id (fun h => nomatch h.1)⟩

/-! ## Characters -/

theorem varChar_iff {c : Char} : varChar c = true ↔ VarChar c := by
  unfold varChar VarChar
  simp only [Bool.or_eq_true, beq_iff_eq, List.mem_cons, List.not_mem_nil, or_false, or_assoc]

theorem flagHead_iff {c : Char} : flagHead c = true ↔ c.isAlphanum = true ∨ c ∈ ['-', '_', '+', '.'] := by
  unfold flagHead
  simp only [Bool.or_eq_true, beq_iff_eq, List.mem_cons, List.not_mem_nil, or_false, or_assoc]

theorem flagChar_iff {c : Char} : flagChar c = true ↔ c.isAlphanum = true ∨ c ∈ ['-', '_', '+', '.', '@'] := by
  unfold flagChar
  rw [Bool.or_eq_true, flagHead_iff]
  simp only [beq_iff_eq, List.mem_cons, List.not_mem_nil, or_false, or_assoc]

theorem at_not_head : flagHead '@' = false := by decide

theorem flag_iff {c : Char} {r : Str} : Flag (c :: r) ↔ flagHead c = true ∧ r.all flagChar = true := by
  unfold Flag
  rw [List.all_eq_true]
  constructor
  · rintro ⟨_, h2, h3⟩
    refine ⟨?_, fun d hd => flagChar_iff.2 (h3 d (List.mem_cons_of_mem _ hd))⟩
    have h := flagChar_iff.2 (h3 c List.mem_cons_self)
    unfold flagChar at h
    rw [Bool.or_eq_true, beq_iff_eq] at h
    rcases h with h | h
    · exact h
    · subst h; exact absurd rfl h2
  · rintro ⟨h1, h2⟩
    refine ⟨nofun, fun h => ?_, fun d hd => ?_⟩
    · have h : some c = some '@' := h
      injection h with h
      subst h
      rw [at_not_head] at h1; cases h1
    · rcases List.mem_cons.1 hd with rfl | hd
      · refine flagChar_iff.1 ?_
        unfold flagChar
        rw [h1]; rfl
      · exact flagChar_iff.1 (h2 d hd)

theorem bracket_not_flag : flagChar ']' = false := by decide

theorem takeWhile_dropWhile {p : Char → Bool} {a b : Str} (ha : a.all p = true) (hb : ∀ c t, b = c :: t → p c = false) :
    (a ++ b).takeWhile p = a ∧ (a ++ b).dropWhile p = b := by
  induction a with
  | nil =>
    cases b with
    | nil => exact ⟨rfl, rfl⟩
    | cons c t =>
      have := hb c t rfl
      exact ⟨List.takeWhile_cons_of_neg (by rw [this]; exact Bool.false_ne_true),
        List.dropWhile_cons_of_neg (by rw [this]; exact Bool.false_ne_true)⟩
  | cons c a ih =>
    rw [List.all_cons, Bool.and_eq_true] at ha
    obtain ⟨h1, h2⟩ := ih ha.2
    rw [List.cons_append, List.takeWhile_cons_of_pos ha.1, List.dropWhile_cons_of_pos ha.1, h1, h2]
    exact ⟨rfl, rfl⟩

theorem takeWhile_all' (p : Char → Bool) (r : Str) : (r.takeWhile p).all p = true := by
  induction r with
  | nil => rfl
  | cons c r ih =>
    cases hc : p c with
    | true => rw [List.takeWhile_cons_of_pos hc, List.all_cons, hc, ih]; rfl
    | false => rw [List.takeWhile_cons_of_neg (by rw [hc]; exact Bool.false_ne_true)]; rfl

theorem flagAt_iff {t f r : Str} : flagAt t = some (f, r) ↔ t = '[' :: f ++ ']' :: r ∧ Flag f := by
  constructor
  · intro h
    unfold flagAt at h
    split at h
    · next c s =>
      split at h
      · next hc =>
        split at h
        · next rest hd =>
          injection h with h
          injection h with h1 h2
          subst h1; subst h2
          refine ⟨?_, flag_iff.2 ⟨hc, takeWhile_all' _ _⟩⟩
          have := List.takeWhile_append_dropWhile (p := flagChar) (l := s)
          rw [hd] at this
          show '[' :: c :: s = '[' :: c :: (List.takeWhile flagChar s ++ ']' :: _)
          rw [this]
        · cases h
      · cases h
    · cases h
  · rintro ⟨rfl, hf⟩
    cases f with
    | nil => exact absurd rfl hf.1
    | cons c s =>
      obtain ⟨h1, h2⟩ := flag_iff.1 hf
      obtain ⟨h3, h4⟩ := takeWhile_dropWhile (b := ']' :: r) h2 (by
        intro c t h; injection h with h _; rw [← h]; exact bracket_not_flag)
      show (if flagHead c = true then (match (s ++ ']' :: r).dropWhile flagChar with
        | ']' :: rest => some (c :: (s ++ ']' :: r).takeWhile flagChar, rest)
        | _ => none) else none) = some (c :: s, r)
      rw [if_pos h1, h4, h3]; rfl

/-! ## What follows a variable -/

/-- The flag as it is written. -/
def flagText : Option Str → Str
  | none => []
  | some f => '[' :: f ++ [']']

/-- The flag, the operator and the value. -/
def After (rest : Str) (flag : Option Str) (op : Op) (v : Str) : Prop :=
  ∃ t, rest = flagText flag ++ t ∧ Tail t op v ∧ ∀ f, flag = some f → Flag f

/-- The first character after a variable and its flag. -/
theorem tail_head {t : Str} {op : Op} {v : Str} (h : Tail t op v) : ∃ c r, t = c :: r ∧
    (isWs c = true ∨ c = ':' ∨ c = '?' ∨ c = '+' ∨ c = '=' ∨ c = '.') := by
  obtain ⟨w1, w2, u, h1, h2, rfl, _⟩ := h
  cases w1 with
  | nil => cases op <;> exact ⟨_, _, rfl, by decide⟩
  | cons c w => exact ⟨c, _, rfl, Or.inl (h1 c List.mem_cons_self)⟩

theorem not_bracket {c : Char} (h : isWs c = true ∨ c = ':' ∨ c = '?' ∨ c = '+' ∨ c = '=' ∨ c = '.') : c ≠ '[' := by
  rintro rfl
  revert h; decide

theorem afterVar_bracket (r : Str) : afterVar ('[' :: r) = none := by
  cases h : afterVar ('[' :: r) with
  | none => rfl
  | some o =>
    obtain ⟨c, t, h1, h2⟩ := tail_head (afterVar_iff.1 h)
    injection h1 with h1 _
    exact absurd h1.symm (not_bracket h2)

theorem attempt_iff {exp : Bool} {var rest : Str} {g : Groups} :
    attempt exp var rest = some g ↔ g.exp = exp ∧ g.var = var ∧ After rest g.flag g.op g.value := by
  constructor
  · intro h
    unfold attempt at h
    rw [orElse_some] at h
    rcases h with h | ⟨_, h⟩
    · obtain ⟨⟨f, r⟩, hf, h⟩ := Option.bind_eq_some_iff.1 h
      obtain ⟨o, ho, h⟩ := Option.map_eq_some_iff.1 h
      subst h
      obtain ⟨h1, h2⟩ := flagAt_iff.1 hf
      refine ⟨rfl, rfl, r, ?_, afterVar_iff.1 ho, fun f' h => ?_⟩
      · rw [h1]
        show '[' :: (f ++ ']' :: r) = '[' :: (f ++ [']'] ++ r)
        rw [List.append_assoc]; rfl
      · injection h with h; rw [← h]; exact h2
    · obtain ⟨o, ho, h⟩ := Option.map_eq_some_iff.1 h
      subst h
      exact ⟨rfl, rfl, rest, rfl, afterVar_iff.1 ho, nofun⟩
  · rintro ⟨rfl, rfl, t, rfl, ht, hf⟩
    obtain ⟨exp, var, flag, op, value⟩ := g
    have ho := (afterVar_iff (o := (op, value))).2 ht
    unfold attempt
    cases flag with
    | none =>
      have : flagAt t = none := by
        cases h : flagAt t with
        | none => rfl
        | some fr =>
          obtain ⟨h1, _⟩ := flagAt_iff.1 h
          obtain ⟨c, r, h2, h3⟩ := tail_head ht
          rw [h1] at h2
          injection h2 with h2 _
          exact absurd h2.symm (not_bracket h3)
      show ((flagAt t).bind _ <|> (afterVar t).map _) = _
      rw [this, ho]; rfl
    | some f =>
      have : flagAt (flagText (some f) ++ t) = some (f, t) := by
        refine flagAt_iff.2 ⟨?_, hf f rfl⟩
        show '[' :: (f ++ [']'] ++ t) = '[' :: (f ++ ']' :: t)
        rw [List.append_assoc]; rfl
      show ((flagAt (flagText (some f) ++ t)).bind _ <|> _) = _
      rw [this]
      show ((afterVar t).map _ <|> _) = _
      rw [ho]; rfl

/-! ## The variable -/

/-- A variable and what follows. -/
def Whole (t : Str) (g : Groups) (v rest : Str) : Prop :=
  t = v ++ rest ∧ v ≠ [] ∧ v.all varChar = true ∧ After rest g.flag g.op g.value

theorem body_sound {exp : Bool} {g : Groups} : ∀ {t pre : Str}, body exp pre t = some g →
    g.exp = exp ∧ ∃ v rest, g.var = pre ++ v ∧ Whole t g v rest
  | [], _, h => by cases h
  | c :: t, pre, h => by
    unfold body at h
    split at h
    · next hc =>
      rw [orElse_some] at h
      rcases h with h | ⟨_, h⟩
      · obtain ⟨h1, h2, h3⟩ := attempt_iff.1 h
        exact ⟨h1, [c], t, h2, rfl, nofun, by rw [List.all_cons, hc]; rfl, h3⟩
      · obtain ⟨h1, v, rest, h2, h3, h4, h5, h6⟩ := body_sound h
        refine ⟨h1, c :: v, rest, by rw [h2, List.append_assoc]; rfl, by rw [h3]; rfl, nofun, ?_, h6⟩
        rw [List.all_cons, hc, h5]; rfl
    · cases h

/-- No shorter variable fits. -/
def Shortest (v rest : Str) : Prop :=
  ∀ v1 v2, v = v1 ++ v2 → v1 ≠ [] → v2 ≠ [] → ∀ flag op x, ¬ After (v2 ++ rest) flag op x

theorem body_complete {exp : Bool} {g : Groups} (he : g.exp = exp) : ∀ {t pre v rest : Str}, Whole t g v rest →
    g.var = pre ++ v → Shortest v rest → body exp pre t = some g
  | t, pre, [], rest, h, _, _ => absurd rfl h.2.1
  | t, pre, c :: v, rest, h, hv, hs => by
    obtain ⟨rfl, _, h3, h4⟩ := h
    rw [List.all_cons, Bool.and_eq_true] at h3
    show (if varChar c = true then (attempt exp (pre ++ [c]) (v ++ rest) <|> body exp (pre ++ [c]) (v ++ rest)) else none) = _
    rw [if_pos h3.1]
    cases v with
    | nil =>
      have : attempt exp (pre ++ [c]) rest = some g := attempt_iff.2 ⟨he, hv, h4⟩
      rw [List.nil_append, this]; rfl
    | cons d v =>
      have hn : attempt exp (pre ++ [c]) (d :: v ++ rest) = none := by
        cases h : attempt exp (pre ++ [c]) (d :: v ++ rest) with
        | none => rfl
        | some g' => exact absurd (attempt_iff.1 h).2.2 (hs [c] (d :: v) rfl nofun nofun _ _ _)
      rw [hn]
      show body exp (pre ++ [c]) (d :: v ++ rest) = some g
      refine body_complete he ⟨rfl, nofun, h3.2, h4⟩ (by rw [hv, List.append_assoc]; rfl) ?_
      intro v1 v2 h1 h2 h3
      exact hs (c :: v1) v2 (by rw [h1]; rfl) nofun h3

theorem body_some {exp : Bool} {g : Groups} : ∀ {t pre v rest : Str}, Whole t g v rest → ∃ g', body exp pre t = some g'
  | t, pre, [], rest, h => absurd rfl h.2.1
  | t, pre, c :: v, rest, h => by
    obtain ⟨rfl, _, h3, h4⟩ := h
    rw [List.all_cons, Bool.and_eq_true] at h3
    show ∃ g', (if varChar c = true then (attempt exp (pre ++ [c]) (v ++ rest) <|> body exp (pre ++ [c]) (v ++ rest)) else none) = _
    rw [if_pos h3.1]
    cases ha : attempt exp (pre ++ [c]) (v ++ rest) with
    | some g' => exact ⟨g', rfl⟩
    | none =>
      cases v with
      | nil =>
        have : attempt exp (pre ++ [c]) rest = some { g with exp := exp, var := pre ++ [c] } :=
          attempt_iff.2 ⟨rfl, rfl, h4⟩
        rw [List.nil_append, this] at ha; cases ha
      | cons d v =>
        obtain ⟨g', h⟩ := body_some (exp := exp) (pre := pre ++ [c]) (g := g) (t := d :: v ++ rest) ⟨rfl, nofun, h3.2, h4⟩
        exact ⟨g', by rw [h]; rfl⟩

theorem varChar_ws {c : Char} (h : varChar c = true) : isWs c = false ∧ c ≠ '=' ∧ c ≠ '?' ∧ c ≠ '[' := by
  refine ⟨?_, ?_, ?_, ?_⟩
  · cases hw : isWs c with
    | false => rfl
    | true =>
      exfalso
      unfold isWs at hw
      simp only [Bool.or_eq_true, decide_eq_true_eq] at hw
      rcases hw with ((((((((rfl | rfl) | rfl) | rfl) | rfl) | rfl) | rfl) | rfl) | rfl) | rfl <;> exact absurd h (by decide)
  · rintro rfl; exact absurd h (by decide)
  · rintro rfl; exact absurd h (by decide)
  · rintro rfl; exact absurd h (by decide)

/-- A shorter variable fits only before `+=`, `.=` and `:=`. -/
theorem shorter {v2 rest : Str} {flag flag' : Option Str} {op op' : Op} {x x' : Str} (hv : v2 ≠ []) (ha : v2.all varChar = true)
    (h1 : After (v2 ++ rest) flag' op' x') (h2 : After rest flag op x) :
    ∃ c w2 u, v2 = [c] ∧ (c = '+' ∨ c = '.' ∨ c = ':') ∧ flag = none ∧ op = .set ∧ rest = '=' :: (w2 ++ u) ∧ White w2 ∧ Val u x' := by
  cases v2 with
  | nil => exact absurd rfl hv
  | cons c v =>
    rw [List.all_cons, Bool.and_eq_true] at ha
    obtain ⟨hws, hne, hnq, hnb⟩ := varChar_ws ha.1
    obtain ⟨t, h3, ⟨w1, w2, u, hw1, hw2, rfl, hu⟩, _⟩ := h1
    have hflag : flag' = none := by
      cases flag' with
      | none => rfl
      | some f => injection h3 with h3 _; exact absurd h3 hnb
    subst hflag
    have hw : w1 = [] := by
      cases w1 with
      | nil => rfl
      | cons d w =>
        injection h3 with h3 _
        have := hw1 d List.mem_cons_self
        rw [← h3, hws] at this; cases this
    subst hw
    have h3 : c :: (v ++ rest) = written op' ++ (w2 ++ u) := h3
    have key : (c = '+' ∨ c = '.' ∨ c = ':') ∧ v ++ rest = '=' :: (w2 ++ u) := by
      cases op' <;> injection h3 with h3 h4 <;> subst h3
      · exact ⟨by decide, h4⟩
      · exact absurd rfl hnq
      · exact absurd rfl hnq
      · exact ⟨by decide, h4⟩
      · exact absurd rfl hne
      · exact absurd rfl hne
      · exact ⟨by decide, h4⟩
      · exact absurd rfl hne
    obtain ⟨hc, h4⟩ := key
    have hv0 : v = [] := by
      cases v with
      | nil => rfl
      | cons d v =>
        injection h4 with h4 _
        have h5 := ha.2
        rw [List.all_cons, Bool.and_eq_true] at h5
        exact absurd h4 (varChar_ws h5.1).2.1
    subst hv0
    have h4 : rest = '=' :: (w2 ++ u) := h4
    obtain ⟨d, r, hn, n1, n2, n3⟩ := next_char hw2 hu
    obtain ⟨t, h5, ⟨y1, y2, y, hy1, hy2, rfl, hy⟩, _⟩ := h2
    have hflag : flag = none := by
      cases flag with
      | none => rfl
      | some f => rw [h4] at h5; injection h5 with h5 _; exact absurd h5 (by decide)
    subst hflag
    have hw : y1 = [] := by
      cases y1 with
      | nil => rfl
      | cons d w =>
        rw [h4] at h5
        injection h5 with h5 _
        have := hy1 d List.mem_cons_self
        rw [← h5] at this; exact absurd this (by decide)
    subst hw
    have h5 : rest = written op ++ (y2 ++ y) := h5
    have hop : op = .set := by
      rw [h4, hn] at h5
      cases op <;> injection h5 with h5 h6
      · exact absurd h5 (by decide)
      · exact absurd h5 (by decide)
      · exact absurd h5 (by decide)
      · exact absurd h5 (by decide)
      · injection h6 with h6 _; exact absurd h6 n1
      · injection h6 with h6 _; exact absurd h6 n2
      · exact absurd h5 (by decide)
      · rfl
    exact ⟨c, w2, u, rfl, hc, rfl, hop, h4, hw2, hu⟩

/-! ## Whole lines -/

theorem keyword_iff {w s r : Str} : keyword w s = some r ↔
    ∃ y, s = w ++ (y ++ r) ∧ y ≠ [] ∧ White y ∧ ∀ c t, r = c :: t → isWs c = false := by
  constructor
  · intro h
    unfold keyword at h
    split at h
    · next hs =>
      obtain ⟨t, rfl⟩ := startsWith_iff.1 hs
      rw [List.drop_left] at h
      cases t with
      | nil => cases h
      | cons c t =>
        have h : (if isWs c = true then some (lstrip t) else none) = some r := h
        split at h
        · next hc =>
          injection h with h
          obtain ⟨y, r', h1, h2, h3, h4⟩ := lstrip_split t
          rw [h3] at h
          subst h
          refine ⟨c :: y, by rw [h1]; rfl, nofun, fun d hd => ?_, h4⟩
          rcases List.mem_cons.1 hd with rfl | hd
          · exact hc
          · exact h2 d hd
        · cases h
    · cases h
  · rintro ⟨y, rfl, hy, hw, hr⟩
    cases y with
    | nil => exact absurd rfl hy
    | cons c y =>
      unfold keyword
      rw [if_pos (startsWith_iff.2 ⟨_, rfl⟩), List.drop_left]
      show (if isWs c = true then some (lstrip (y ++ r)) else none) = some r
      rw [if_pos (hw c List.mem_cons_self), lstrip_white (fun d hd => hw d (List.mem_cons_of_mem _ hd)) hr]

theorem after_of_assignment {s : Str} {g : Groups} {w0 w1 w2 : Str} {q : Char} (h : Assignment s g w0 w1 w2 q) :
    After ((match g.flag with | none => [] | some f => '[' :: f ++ [']']) ++ (w1 ++ (written g.op ++ (w2 ++ q :: g.value ++ [q]))))
      g.flag g.op g.value := by
  refine ⟨w1 ++ (written g.op ++ (w2 ++ q :: g.value ++ [q])), ?_, ⟨w1, w2, q :: (g.value ++ [q]), h.white.2.1, h.white.2.2, ?_, q, h.quote, rfl, h.inner⟩,
    h.flag⟩
  · cases g.flag <;> rfl
  · rw [List.append_assoc w2]; rfl

theorem assignment_of {g : Groups} {w0 v rest : Str} (hw0 : White w0) (hx : g.exp = true → w0 ≠ []) (hvar : g.var = v)
    (h : Whole (v ++ rest) g v rest) : ∃ w1 w2 q,
      Assignment ((if g.exp = true then "export".toList ++ w0 else []) ++ (v ++ rest)) g w0 w1 w2 q := by
  obtain ⟨_, h2, h3, t, rfl, ⟨w1, w2, u, hw1, hw2, rfl, q, hq, rfl, hc⟩, hf⟩ := h
  refine ⟨w1, w2, q, ?_, hx, ⟨hw0, hw1, hw2⟩, ?_, hf, hq, hc⟩
  · rw [hvar, List.append_assoc w2]
    cases g.flag <;> rfl
  · rw [hvar]
    exact ⟨h2, fun c hc => varChar_iff.1 (List.all_eq_true.1 h3 c hc)⟩

/-- **C138.**  A line that is taken for an assignment is one: it has this variable, flag, operator and value. -/
theorem config_sound {s : Str} {g : Groups} (h : config s = some g) : ∃ w0 w1 w2 q, Assignment s g w0 w1 w2 q := by
  unfold config at h
  rw [orElse_some] at h
  rcases h with h | ⟨_, h⟩
  · obtain ⟨t, ht, hb⟩ := Option.bind_eq_some_iff.1 h
    obtain ⟨y, rfl, hy, hw, _⟩ := keyword_iff.1 ht
    obtain ⟨h1, v, rest, h2, h3⟩ := body_sound hb
    have e := h3.1
    subst e
    obtain ⟨w1, w2, q, ha⟩ := assignment_of (w0 := y) hw (fun _ => hy) h2 h3
    rw [if_pos h1, List.append_assoc] at ha
    exact ⟨y, w1, w2, q, ha⟩
  · obtain ⟨h1, v, rest, h2, h3⟩ := body_sound h
    have e := h3.1
    subst e
    obtain ⟨w1, w2, q, ha⟩ := assignment_of (w0 := []) nofun (fun h => by rw [h1] at h; cases h) h2 h3
    rw [if_neg (by rw [h1]; exact Bool.false_ne_true)] at ha
    exact ⟨[], w1, w2, q, ha⟩

theorem whole_of {s : Str} {g : Groups} {w0 w1 w2 : Str} {q : Char} (h : Assignment s g w0 w1 w2 q) :
    ∃ rest, s = (if g.exp = true then "export".toList ++ w0 else []) ++ (g.var ++ rest) ∧ Whole (g.var ++ rest) g g.var rest ∧
      (∃ z, rest = flagText g.flag ++ (w1 ++ (written g.op ++ z))) := by
  refine ⟨_, h.text, ⟨rfl, h.var.1, List.all_eq_true.2 fun c hc => varChar_iff.2 (h.var.2 c hc), after_of_assignment h⟩, ?_⟩
  refine ⟨w2 ++ q :: g.value ++ [q], ?_⟩
  cases g.flag <;> rfl

theorem var_not_ws {v rest : Str} (hv : v ≠ []) (ha : v.all varChar = true) : ∀ c t, v ++ rest = c :: t → isWs c = false := by
  intro c t h
  cases v with
  | nil => exact absurd rfl hv
  | cons d v =>
    injection h with h _
    rw [List.all_cons, Bool.and_eq_true] at ha
    rw [← h]; exact (varChar_ws ha.1).1

/-- **C138.**  Every line of this form is taken for an assignment. -/
theorem config_accepts {s : Str} {g : Groups} {w0 w1 w2 : Str} {q : Char} (h : Assignment s g w0 w1 w2 q) :
    ∃ g', config s = some g' := by
  obtain ⟨rest, hs, hw, _⟩ := whole_of h
  unfold config
  cases he : g.exp with
  | true =>
    rw [if_pos he, List.append_assoc] at hs
    have hk : keyword "export".toList s = some (g.var ++ rest) :=
      keyword_iff.2 ⟨w0, hs, h.exported he, h.white.1, var_not_ws hw.2.1 hw.2.2.1⟩
    obtain ⟨g', hb⟩ := body_some (exp := true) (pre := []) hw
    refine ⟨g', ?_⟩
    rw [hk]
    show (body true [] (g.var ++ rest) <|> _) = _
    rw [hb]; rfl
  | false =>
    rw [if_neg (by rw [he]; exact Bool.false_ne_true)] at hs
    have hs : s = g.var ++ rest := hs
    subst hs
    obtain ⟨g', hb⟩ := body_some (exp := false) (pre := []) hw
    cases hk : (keyword "export".toList (g.var ++ rest)).bind (body true []) with
    | some g2 => exact ⟨g2, rfl⟩
    | none => exact ⟨g', hb⟩

theorem shortest_of {g : Groups} {w1 rest : Str} (hn : ¬ Glued g w1) (hww : White w1) (hw : Whole (g.var ++ rest) g g.var rest)
    (hz : ∃ z, rest = flagText g.flag ++ (w1 ++ (written g.op ++ z))) : Shortest g.var rest := by
  intro v1 v2 he h1 h2 flag op x ha
  have hall := hw.2.2.1
  rw [he, List.all_append, Bool.and_eq_true] at hall
  obtain ⟨c, y2, u, rfl, hc, hf, ho, hr, _, _⟩ := shorter h2 hall.2 ha hw.2.2.2
  refine hn ⟨hf, ?_, ho, v1, c, he, h1, hc⟩
  obtain ⟨z, hz⟩ := hz
  rw [hf, hr, ho] at hz
  cases w1 with
  | nil => rfl
  | cons d w =>
    injection hz with hz h3
    have := hww d List.mem_cons_self
    rw [← hz] at this; exact absurd this (by decide)

/-- The name `export` and a shorter beginning of it. -/
theorem export_split {v rest y t : Str} (h : v ++ rest = "export".toList ++ (y ++ t)) (hy : y ≠ []) (hw : White y)
    (hv : v.all varChar = true) (hr : ∃ c r, rest = c :: r ∧ varChar c = false ∨ rest = c :: r ∧ c.isAlpha = false) :
    v = "export".toList ∧ rest = y ++ t := by
  rcases List.append_eq_append_iff.1 h with ⟨a, h1, h2⟩ | ⟨a, h1, h2⟩
  · cases a with
    | nil => rw [List.append_nil] at h1; exact ⟨h1.symm, h2⟩
    | cons d a =>
      exfalso
      have hd : d ∈ ['e', 'x', 'p', 'o', 'r', 't'] := by
        have : d ∈ "export".toList := by rw [h1]; exact List.mem_append_right _ List.mem_cons_self
        exact this
      obtain ⟨c, r, hr⟩ := hr
      have hcd : ∀ c r, rest = c :: r → c = d := by
        intro c r h
        rw [h2] at h; injection h with h _; exact h.symm
      rcases hr with ⟨h3, h4⟩ | ⟨h3, h4⟩
      · rw [hcd c r h3] at h4
        revert h4
        simp only [List.mem_cons, List.not_mem_nil, or_false] at hd
        rcases hd with rfl | rfl | rfl | rfl | rfl | rfl <;> decide
      · rw [hcd c r h3] at h4
        revert h4
        simp only [List.mem_cons, List.not_mem_nil, or_false] at hd
        rcases hd with rfl | rfl | rfl | rfl | rfl | rfl <;> decide
  · cases a with
    | nil => rw [List.append_nil] at h1; exact ⟨h1, h2.symm⟩
    | cons d a =>
      exfalso
      cases y with
      | nil => exact hy rfl
      | cons b y =>
        injection h2 with h2 _
        have h3 : varChar d = true := List.all_eq_true.1 hv d (by rw [h1]; exact List.mem_append_right _ List.mem_cons_self)
        have h4 := hw b List.mem_cons_self
        rw [h2, (varChar_ws h3).1] at h4; cases h4

theorem white_prefix {a b x y : Str} (ha : White a) (hb : White b) (hx : ∀ c t, x = c :: t → isWs c = false)
    (hy : ∀ c t, y = c :: t → isWs c = false) (h : a ++ x = b ++ y) : a = b ∧ x = y := by
  have h1 := lstrip_white ha hx
  have h2 := lstrip_white hb hy
  rw [h, h2] at h1
  subst h1
  exact ⟨List.append_cancel_right h, rfl⟩

theorem after_head {rest : Str} {flag : Option Str} {op : Op} {x : Str} (h : After rest flag op x) :
    ∃ c r, rest = c :: r ∧ c.isAlpha = false := by
  obtain ⟨t, rfl, ht, _⟩ := h
  cases flag with
  | some f => exact ⟨'[', _, rfl, by decide⟩
  | none =>
    obtain ⟨c, r, rfl, hc⟩ := tail_head ht
    refine ⟨c, r, rfl, ?_⟩
    rcases hc with hc | rfl | rfl | rfl | rfl | rfl
    · cases h : c.isAlpha with
      | false => rfl
      | true =>
        have hv : varChar c = true := by
          unfold varChar
          have : c.isAlphanum = true := by unfold Char.isAlphanum; rw [h]; rfl
          rw [this]; rfl
        rw [(varChar_ws hv).1] at hc; cases hc
    all_goals decide

/-- **C138.**  A line of this form is taken for this assignment; unless the variable ends with a character that belongs to
the operator, or the line is about a variable with the name `export`. -/
theorem config_exact {s : Str} {g : Groups} {w0 w1 w2 : Str} {q : Char} (h : Assignment s g w0 w1 w2 q) (hg : ¬ Glued g w1)
    (hx : ¬ Exporting g w1) : config s = some g := by
  obtain ⟨rest, hs, hw, hz⟩ := whole_of h
  have hsh := shortest_of hg h.white.2.1 hw hz
  unfold config
  cases he : g.exp with
  | true =>
    rw [if_pos he, List.append_assoc] at hs
    have hk : keyword "export".toList s = some (g.var ++ rest) :=
      keyword_iff.2 ⟨w0, hs, h.exported he, h.white.1, var_not_ws hw.2.1 hw.2.2.1⟩
    have hb : body true [] (g.var ++ rest) = some g := body_complete he hw rfl hsh
    rw [hk]
    show (body true [] (g.var ++ rest) <|> _) = _
    rw [hb]; rfl
  | false =>
    rw [if_neg (by rw [he]; exact Bool.false_ne_true)] at hs
    have hs : s = g.var ++ rest := hs
    subst hs
    have hb : body false [] (g.var ++ rest) = some g := body_complete he hw rfl hsh
    cases hk : (keyword "export".toList (g.var ++ rest)).bind (body true []) with
    | none => exact hb
    | some g2 =>
      exfalso
      obtain ⟨t, ht, h2⟩ := Option.bind_eq_some_iff.1 hk
      obtain ⟨y, h3, hy, hwy, hnt⟩ := keyword_iff.1 ht
      obtain ⟨c, r, hc1, hc2⟩ := after_head hw.2.2.2
      obtain ⟨h4, h5⟩ := export_split h3 hy hwy hw.2.2.1 ⟨c, r, Or.inr ⟨hc1, hc2⟩⟩
      obtain ⟨_, v, rest2, _, h6, h7, h8, _⟩ := body_sound h2
      -- the text after `export` begins with a character of variables
      cases v with
      | nil => exact h7 rfl
      | cons d v =>
        rw [List.all_cons, Bool.and_eq_true] at h8
        obtain ⟨z, hz⟩ := hz
        have hflag : g.flag = none := by
          cases hf : g.flag with
          | none => rfl
          | some f =>
            exfalso
            rw [hf, h5] at hz
            cases y with
            | nil => exact hy rfl
            | cons b y =>
              injection hz with hz _
              have := hwy b List.mem_cons_self
              rw [hz] at this; exact absurd this (by decide)
        rw [hflag, h5] at hz
        have hz : y ++ t = w1 ++ (written g.op ++ z) := hz
        obtain ⟨o, or', ho, hows, _⟩ := op_head g.op
        have := white_prefix hwy h.white.2.1 hnt (by
          intro a b hab; rw [ho] at hab; injection hab with hab _; rw [← hab]; exact hows) hz
        obtain ⟨h9, h10⟩ := this
        refine hx ⟨he, h4, hflag, by rw [← h9]; exact hy, ?_⟩
        rw [h10] at h6
        obtain ⟨_, hne, hnq, _⟩ := varChar_ws h8.1
        cases hop : g.op <;> rw [hop] at h6 <;> injection h6 with h6 _
        · exact Or.inr (Or.inr rfl)
        · exact absurd h6.symm hnq
        · exact absurd h6.symm hnq
        · exact Or.inl rfl
        · exact absurd h6.symm hne
        · exact absurd h6.symm hne
        · exact Or.inr (Or.inl rfl)
        · exact absurd h6.symm hne

/-- **C138.**  A line has one meaning: two readings of it that are not excluded are the same. -/
theorem one_meaning {s : Str} {g g' : Groups} {w0 w1 w2 w0' w1' w2' : Str} {q q' : Char} (h : Assignment s g w0 w1 w2 q)
    (hg : ¬ Glued g w1) (hx : ¬ Exporting g w1) (h' : Assignment s g' w0' w1' w2' q') (hg' : ¬ Glued g' w1') (hx' : ¬ Exporting g' w1') :
    g = g' := by
  have h1 := config_exact h hg hx
  rw [config_exact h' hg' hx'] at h1
  injection h1 with h1
  exact h1.symm

/-! ## Other lines -/

/-- A word and what follows it. -/
def Keyword (w s r : Str) : Prop :=
  ∃ y, s = w ++ y ++ r ∧ y ≠ [] ∧ White y ∧ r ≠ [] ∧ r.head?.all (fun c => !isWs c) = true

theorem head_iff {r : Str} : (∀ c t, r = c :: t → isWs c = false) ↔ r.head?.all (fun c => !isWs c) = true := by
  cases r with
  | nil => exact ⟨fun _ => rfl, fun _ => nofun⟩
  | cons c r =>
    show _ ↔ (!isWs c) = true
    rw [Bool.not_eq_true']
    exact ⟨fun h => h c r rfl, fun h d t e => by injection e with e _; rw [← e]; exact h⟩

theorem keyword_ne {w s r : Str} : keyword w s = some r ∧ r ≠ [] ↔ Keyword w s r := by
  rw [keyword_iff]
  constructor
  · rintro ⟨⟨y, h1, h2, h3, h4⟩, h5⟩
    exact ⟨y, by rw [h1, List.append_assoc], h2, h3, h5, head_iff.1 h4⟩
  · rintro ⟨y, h1, h2, h3, h5, h4⟩
    exact ⟨⟨y, by rw [h1, List.append_assoc], h2, h3, head_iff.2 h4⟩, h5⟩

theorem rest_iff {w s r : Str} : rest w s = some r ↔ Keyword w s r := by
  rw [← keyword_ne]
  unfold rest
  rw [Option.bind_eq_some_iff]
  constructor
  · rintro ⟨a, h1, h2⟩
    split at h2
    · cases h2
    · next hn => injection h2 with h2; subst h2; exact ⟨h1, hn⟩
  · rintro ⟨h1, h2⟩
    exact ⟨r, h1, if_neg h2⟩

/-- A name for `export` and `unset`. -/
def Name (r : Str) : Prop := r ≠ [] ∧ ∀ c, c ∈ r → VarChar c ∧ c ≠ ':'

theorem name_iff {w s r : Str} : name w s = some r ↔ Keyword w s r ∧ Name r := by
  have hall : r.all nameChar = true ↔ ∀ c, c ∈ r → VarChar c ∧ c ≠ ':' := by
    rw [List.all_eq_true]
    unfold nameChar
    exact ⟨fun h c hc => by
      have := h c hc
      rw [Bool.and_eq_true, varChar_iff, bne_iff_ne] at this; exact this,
      fun h c hc => by rw [Bool.and_eq_true, varChar_iff, bne_iff_ne]; exact h c hc⟩
  rw [← keyword_ne]
  unfold name Name
  rw [Option.bind_eq_some_iff]
  constructor
  · rintro ⟨a, h1, h2⟩
    split at h2
    · next hn => injection h2 with h2; subst h2; exact ⟨⟨h1, hn.1⟩, hn.1, hall.1 hn.2⟩
    · cases h2
  · rintro ⟨⟨h1, h2⟩, _, h3⟩
    exact ⟨r, h1, if_pos ⟨h2, hall.2 h3⟩⟩

/-- An assignment is not any of the other lines. -/
theorem feeder_data {b c : Bool} {s : Str} {g : Groups} (h : config s = some g) : feeder b c s = some (.data g) := by
  unfold feeder; rw [h]

theorem feeder_spec (b c : Bool) (s : Str) (st : Stmt) (h : feeder b c s = some st) :
    match st with
    | .data g => ∃ w0 w1 w2 q, Assignment s g w0 w1 w2 q
    | .include what force => Keyword (if force then "require".toList else "include".toList) s what
    | .export v => Keyword "export".toList s v ∧ Name v
    | .unset v => Keyword "unset".toList s v ∧ Name v
    | .unsetFlag v f => Keyword "unset".toList s (v ++ '[' :: f ++ [']']) ∧ Name v ∧ Flag f ∧ 2 ≤ f.length
    | .pyLib d n => b = true ∧ c = true ∧ ∃ y, Keyword "addpylib".toList s (d ++ y :: n) ∧ isWs y = true ∧ d ≠ [] ∧ IsWord n := by
  unfold feeder at h
  split at h
  · next g hg => injection h with h; subst h; exact config_sound hg
  · split at h
    · next r hr => injection h with h; subst h; exact rest_iff.1 hr
    · split at h
      · next r hr => injection h with h; subst h; exact rest_iff.1 hr
      · split at h
        · next r hr => injection h with h; subst h; exact name_iff.1 hr
        · split at h
          · next r hr => injection h with h; subst h; exact name_iff.1 hr
          · split at h
            · next v f hr =>
              injection h with h; subst h
              show Keyword "unset".toList s (v ++ '[' :: f ++ [']']) ∧ Name v ∧ Flag f ∧ 2 ≤ f.length
              unfold unsetFlag at hr
              obtain ⟨r, h1, h2⟩ := Option.bind_eq_some_iff.1 hr
              split at h2
              · cases h2
              · next c1 c2 t hdw hne =>
                split at h2
                · next hc =>
                  injection h2 with h2
                  injection h2 with h2 h3
                  subst h2; subst h3
                  have e1 := List.takeWhile_append_dropWhile (p := nameChar) (l := r)
                  have e2 := List.takeWhile_append_dropWhile (p := flagChar) (l := t)
                  rw [hc.2.2] at e2
                  rw [hdw] at e1
                  have hr : r = r.takeWhile nameChar ++ '[' :: (c1 :: c2 :: t.takeWhile flagChar) ++ [']'] := by
                    rw [List.append_assoc]
                    show r = r.takeWhile nameChar ++ ('[' :: c1 :: c2 :: (t.takeWhile flagChar ++ [']']))
                    rw [e2]; exact e1.symm
                  refine ⟨?_, ⟨fun h => ?_, fun d hd => ?_⟩, ?_, by simp⟩
                  · rw [← hr]
                    refine keyword_ne.1 ⟨h1, fun h => ?_⟩
                    rw [h] at hdw; cases hdw
                  · exact hne h
                  · have := List.all_eq_true.1 (takeWhile_all' nameChar r) d hd
                    unfold nameChar at this
                    rw [Bool.and_eq_true, varChar_iff, bne_iff_ne] at this
                    exact this
                  · refine flag_iff.2 ⟨hc.1, ?_⟩
                    rw [List.all_cons, hc.2.1, takeWhile_all']; rfl
                · cases h2
              · cases h2
            · split at h
              · next hbc =>
                rw [Bool.and_eq_true] at hbc
                obtain ⟨⟨d, n⟩, hp, h⟩ := Option.map_eq_some_iff.1 h
                subst h
                refine ⟨hbc.1, hbc.2, ?_⟩
                unfold pylib at hp
                obtain ⟨r, h1, h2⟩ := Option.bind_eq_some_iff.1 hp
                split at h2
                · cases h2
                · cases h2
                · next hne1 hne2 =>
                  split at h2
                  · cases h2
                  · next hne3 =>
                    injection h2 with h2
                    injection h2 with h2 h3
                    subst h2; subst h3
                    have e := List.takeWhile_append_dropWhile (p := fun c => !isWs c) (l := r.reverse)
                    cases hd : r.reverse.dropWhile (fun c => !isWs c) with
                    | nil => exact absurd (by rw [hd]; rfl) hne2
                    | cons y z =>
                      rw [hd] at e hne3
                      have hy : isWs y = true := by
                        have := List.head?_dropWhile_not (fun c => !isWs c) r.reverse
                        rw [hd] at this
                        simpa using this
                      rw [List.reverse_cons, List.dropLast_concat] at hne3
                      refine ⟨y, ?_, hy, ?_, ?_, ?_⟩
                      · rw [List.reverse_cons, List.dropLast_concat]
                        have hr : r = z.reverse ++ y :: (r.reverse.takeWhile fun c => !isWs c).reverse := by
                          have := congrArg List.reverse e
                          rw [List.reverse_reverse, List.reverse_append, List.reverse_cons, List.append_assoc] at this
                          exact this.symm
                        rw [← hr]
                        refine keyword_ne.1 ⟨h1, fun h => ?_⟩
                        rw [h] at hd; cases hd
                      · rw [List.reverse_cons, List.dropLast_concat]; exact hne3
                      · exact hne1
                      · intro c hc
                        have := List.all_eq_true.1 (takeWhile_all' (fun c => !isWs c) r.reverse) c (List.mem_reverse.1 hc)
                        simpa using this
              · cases h

theorem keyword_none {w s : Str} (h : startsWith s w = false) : keyword w s = none := by
  unfold keyword; rw [if_neg (by rw [h]; exact Bool.false_ne_true)]

theorem config_none {s : Str} (h : ∀ g w0 w1 w2 q, ¬ Assignment s g w0 w1 w2 q) : config s = none := by
  cases hc : config s with
  | none => rfl
  | some g =>
    obtain ⟨w0, w1, w2, q, ha⟩ := config_sound hc
    exact absurd ha (h g w0 w1 w2 q)

/-- **C138.**  The other lines are understood as well. -/
theorem feeder_other {s : Str} (hn : ∀ g w0 w1 w2 q, ¬ Assignment s g w0 w1 w2 q) (b c : Bool) :
    (∀ r, Keyword "include".toList s r → feeder b c s = some (.include r false)) ∧
    (∀ r, Keyword "require".toList s r → feeder b c s = some (.include r true)) ∧
    (∀ v, Keyword "export".toList s v → Name v → feeder b c s = some (.export v)) ∧
    (∀ v, Keyword "unset".toList s v → Name v → feeder b c s = some (.unset v)) ∧
    (∀ v f, Keyword "unset".toList s (v ++ '[' :: f ++ [']']) → Name v → Flag f → 2 ≤ f.length →
      feeder b c s = some (.unsetFlag v f)) := by
  have h0 := config_none hn
  have hrest : ∀ {w : Str}, startsWith s w = false → rest w s = none := fun h => by unfold rest; rw [keyword_none h]; rfl
  have hname : ∀ {w : Str}, startsWith s w = false → name w s = none := fun h => by unfold name; rw [keyword_none h]; rfl
  refine ⟨fun r h => ?_, fun r h => ?_, fun v h hv => ?_, fun v h hv => ?_, fun v f h hv hf hl => ?_⟩
  · unfold feeder; rw [h0, rest_iff.2 h]
  · have h1 : rest "include".toList s = none := hrest (by obtain ⟨y, rfl, _⟩ := h; rw [List.append_assoc]; rfl)
    unfold feeder; rw [h0, h1, rest_iff.2 h]
  · have h1 : rest "include".toList s = none := hrest (by obtain ⟨y, rfl, _⟩ := h; rw [List.append_assoc]; rfl)
    have h2 : rest "require".toList s = none := hrest (by obtain ⟨y, rfl, _⟩ := h; rw [List.append_assoc]; rfl)
    unfold feeder; rw [h0, h1, h2, name_iff.2 ⟨h, hv⟩]
  · have h1 : rest "include".toList s = none := hrest (by obtain ⟨y, rfl, _⟩ := h; rw [List.append_assoc]; rfl)
    have h2 : rest "require".toList s = none := hrest (by obtain ⟨y, rfl, _⟩ := h; rw [List.append_assoc]; rfl)
    have h3 : name "export".toList s = none := hname (by obtain ⟨y, rfl, _⟩ := h; rw [List.append_assoc]; rfl)
    unfold feeder; rw [h0, h1, h2, h3, name_iff.2 ⟨h, hv⟩]
  · have h1 : rest "include".toList s = none := hrest (by obtain ⟨y, rfl, _⟩ := h; rw [List.append_assoc]; rfl)
    have h2 : rest "require".toList s = none := hrest (by obtain ⟨y, rfl, _⟩ := h; rw [List.append_assoc]; rfl)
    have h3 : name "export".toList s = none := hname (by obtain ⟨y, rfl, _⟩ := h; rw [List.append_assoc]; rfl)
    have hk := (keyword_ne.2 h).1
    have hb : nameChar '[' = false := by decide
    have h4 : name "unset".toList s = none := by
      unfold name
      rw [hk]
      refine if_neg fun hh => ?_
      have := List.all_eq_true.1 hh.2 '[' (by simp)
      rw [hb] at this; cases this
    have hva : v.all nameChar = true := List.all_eq_true.2 fun d hd => by
      unfold nameChar
      rw [Bool.and_eq_true, varChar_iff, bne_iff_ne]; exact hv.2 d hd
    obtain ⟨e1, e2⟩ := takeWhile_dropWhile (b := '[' :: (f ++ [']'])) hva (by
      intro d t h; injection h with h _; rw [← h]; exact hb)
    have h5 : unsetFlag s = some (v, f) := by
      unfold unsetFlag
      rw [hk]
      match f, hl with
      | c1 :: c2 :: t, _ =>
        have hfl := flag_iff.1 hf
        rw [List.all_cons, Bool.and_eq_true] at hfl
        obtain ⟨e3, e4⟩ := takeWhile_dropWhile (b := [']']) hfl.2.2 (by
          intro d t h; injection h with h _; rw [← h]; exact bracket_not_flag)
        have e5 : v ++ '[' :: (c1 :: c2 :: t) ++ [']'] = v ++ '[' :: (c1 :: c2 :: t ++ [']']) := List.append_assoc _ _ _
        show (match (v ++ '[' :: (c1 :: c2 :: t) ++ [']']).takeWhile nameChar, (v ++ '[' :: (c1 :: c2 :: t) ++ [']']).dropWhile nameChar with
          | [], _ => none
          | v, '[' :: c :: c2 :: t => if flagHead c = true ∧ flagChar c2 = true ∧ t.dropWhile flagChar = [']'] then
              some (v, c :: c2 :: t.takeWhile flagChar) else none
          | _, _ => none) = _
        rw [e5, e1, e2]
        cases v with
        | nil => exact absurd rfl hv.1
        | cons d v =>
          show (if flagHead c1 = true ∧ flagChar c2 = true ∧ (t ++ [']']).dropWhile flagChar = [']'] then
            some (d :: v, c1 :: c2 :: (t ++ [']']).takeWhile flagChar) else none) = _
          rw [if_pos ⟨hfl.1, hfl.2.1, e4⟩, e3]
    unfold feeder; rw [h0, h1, h2, h3, h4, h5]

/-! ## Lines -/

theorem joined_ne {b : List Str} {s : Str} (h : Joined b s) : b ≠ [] := by cases h <;> exact nofun

theorem joinLines_done {s : Str} (ls : List Str) (hs : s ≠ []) (hl : s.getLast? ≠ some '\\') : joinLines s ls = .ok (s, ls) := by
  cases s with
  | nil => exact absurd rfl hs
  | cons c s =>
    cases ls with
    | nil =>
      show (joinEof (c :: s)).map _ = _
      unfold joinEof
      rw [if_pos hl]; rfl
    | cons l ls =>
      unfold joinLines
      exact if_pos hl

theorem joinLines_more {s l : Str} (ls : List Str) (h : ¬ ((rstrip l).head? ≠ some '#' ∧ (s ++ ['\\']).head? = some '#')) :
    joinLines (s ++ ['\\']) (l :: ls) = joinLines (s ++ rstrip l) ls := by
  have hl : (s ++ ['\\']).getLast? = some '\\' := List.getLast?_concat
  have e : joinLines (s ++ ['\\']) (l :: ls) =
      if (s ++ ['\\']).getLast? ≠ some '\\' then .ok (s ++ ['\\'], l :: ls)
      else if (rstrip l).head? ≠ some '#' ∧ (s ++ ['\\']).head? = some '#' then .fatal
      else joinLines ((s ++ ['\\']).dropLast ++ rstrip l) ls := by
    cases s <;> rfl
  rw [e, if_neg (fun h => h hl), if_neg h, List.dropLast_concat]

theorem getLast_append {a b : Str} {c : Char} (ha : a.getLast? ≠ some c) (hb : b.getLast? ≠ some c) :
    (a ++ b).getLast? ≠ some c := by
  rcases List.eq_nil_or_concat b with rfl | ⟨l, x, rfl⟩
  · rw [List.append_nil]; exact ha
  · rw [List.concat_eq_append, List.getLast?_concat] at hb
    rw [List.concat_eq_append, ← List.append_assoc, List.getLast?_concat]; exact hb

theorem join_statement {b : List Str} {s : Str} (h : Joined b s) : ∀ (l : Str) (b' : List Str), b = l :: b' → ∀ (acc : Str) (ls : List Str),
    acc ++ s ≠ [] → (acc ++ s).head? ≠ some '#' → acc.getLast? ≠ some '\\' → joinLines (acc ++ rstrip l) (b' ++ ls) = .ok (acc ++ s, ls) := by
  induction h with
  | last hl =>
    intro l b' hb acc ls h1 h2 h3
    injection hb with hb1 hb2
    subst hb1; subst hb2
    exact joinLines_done ls h1 (getLast_append h3 hl)
  | @more l0 p s ls0 hl hp hj ih =>
    intro l b' hb acc ls h1 h2 h3
    injection hb with hb1 hb2
    subst hb1; subst hb2
    cases ls0 with
    | nil => exact absurd rfl (joined_ne hj)
    | cons l2 b2 =>
      rw [hl, ← List.append_assoc, List.cons_append, joinLines_more]
      · have := ih l2 b2 rfl (acc ++ p) ls (by rw [List.append_assoc]; exact h1) (by rw [List.append_assoc]; exact h2)
          (getLast_append h3 hp)
        rw [this, List.append_assoc]
      · rintro ⟨_, hh⟩
        rw [← List.append_assoc] at h2
        cases hap : acc ++ p with
        | nil => rw [hap] at hh; exact absurd hh (by decide)
        | cons d r =>
          rw [hap] at hh h2
          exact h2 hh

theorem join_comment {b : List Str} {s : Str} (h : Joined b s) : ∀ (l : Str) (b' : List Str), b = l :: b' → ∀ (acc : Str) (ls : List Str),
    (∀ x, x ∈ b → (rstrip x).head? = some '#') → acc.getLast? ≠ some '\\' → joinLines (acc ++ rstrip l) (b' ++ ls) = .ok (acc ++ s, ls) := by
  induction h with
  | last hl =>
    intro l b' hb acc ls h1 h3
    injection hb with hb1 hb2
    subst hb1; subst hb2
    refine joinLines_done ls (fun h => ?_) (getLast_append h3 hl)
    have := h1 _ List.mem_cons_self
    rw [(List.append_eq_nil_iff.1 h).2] at this; cases this
  | @more l0 p s ls0 hl hp hj ih =>
    intro l b' hb acc ls h1 h3
    injection hb with hb1 hb2
    subst hb1; subst hb2
    cases ls0 with
    | nil => exact absurd rfl (joined_ne hj)
    | cons l2 b2 =>
      rw [hl, ← List.append_assoc, List.cons_append, joinLines_more]
      · have := ih l2 b2 rfl (acc ++ p) ls (fun x hx => h1 x (List.mem_cons_of_mem _ hx)) (getLast_append h3 hp)
        rw [this, List.append_assoc]
      · rintro ⟨hh, _⟩
        exact hh (h1 l2 (List.mem_cons_of_mem _ List.mem_cons_self))

theorem joined_head {b : List Str} {s l : Str} {b' : List Str} (h : Joined b s) (hb : b = l :: b')
    (hc : ∀ x, x ∈ b → (rstrip x).head? = some '#') : s.head? = some '#' := by
  cases h with
  | last hl =>
    injection hb with hb1 hb2
    exact hc _ List.mem_cons_self
  | @more l0 p s ls hl hp hj =>
    have h1 := hc _ List.mem_cons_self
    rw [hl] at h1
    cases p with
    | nil => exact absurd h1 (by decide)
    | cons d p => exact h1

theorem joinLines_le {ls : List Str} : ∀ {s r : Str} {ls' : List Str}, joinLines s ls = .ok (r, ls') → ls'.length ≤ ls.length := by
  induction ls with
  | nil =>
    intro s r ls' h
    cases s with
    | nil => cases h
    | cons c s =>
      have h : (joinEof (c :: s)).map (fun r => (r, ([] : List Str))) = .ok (r, ls') := h
      cases he : joinEof (c :: s) with
      | ok a => rw [he] at h; injection h with h; injection h with _ h; rw [← h]; exact Nat.le_refl _
      | fatal => rw [he] at h; cases h
      | crash => rw [he] at h; cases h
  | cons l ls ih =>
    intro s r ls' h
    cases s with
    | nil => cases h
    | cons c s =>
      unfold joinLines at h
      split at h
      · injection h with h; injection h with _ h; rw [← h]; exact Nat.le_refl _
      · split at h
        · cases h
        · exact Nat.le_succ_of_le (ih h)

/-- The bound for the rounds does not matter. -/
theorem statements_fuel : ∀ (n m : Nat) (ls : List Str), ls.length ≤ n → ls.length ≤ m → statements n ls = statements m ls
  | 0, m, [], _, _ => by cases m <;> rfl
  | n + 1, 0, [], _, _ => rfl
  | n + 1, m + 1, [], _, _ => rfl
  | n + 1, m + 1, l :: ls, hn, hm => by
    have hn : ls.length ≤ n := Nat.le_of_succ_le_succ hn
    have hm : ls.length ≤ m := Nat.le_of_succ_le_succ hm
    unfold statements
    split
    · exact statements_fuel n m ls hn hm
    · split
      · rfl
      · rfl
      · next s ls' hj =>
        have hl := joinLines_le hj
        rw [statements_fuel n m ls' (Nat.le_trans hl hn) (Nat.le_trans hl hm)]

theorem white_strip {l : Str} (h : White l) : strip l = [] := by
  unfold strip
  have : lstrip l = [] := by
    have := lstrip_white (w := l) (r := []) h nofun
    rw [List.append_nil] at this; exact this
  rw [this]; rfl

theorem rstrip_ne {l : Str} (h : rstrip l ≠ []) : strip l ≠ [] := by
  intro hs
  apply h
  unfold strip at hs
  have h1 : lstrip l = [] := by
    obtain ⟨w, r, h1, h2, h3, h4⟩ := lstrip_split l
    rw [h3] at hs ⊢
    cases r with
    | nil => rfl
    | cons c r =>
      exfalso
      unfold rstrip at hs
      rw [List.reverse_eq_nil_iff] at hs
      have hall : ∀ x ∈ (c :: r).reverse, isWs x = true := by
        have e := List.takeWhile_append_dropWhile (p := isWs) (l := (c :: r).reverse)
        rw [hs, List.append_nil] at e
        intro x hx
        rw [← e] at hx
        exact List.all_eq_true.1 (takeWhile_all' isWs _) x hx
      have := hall c (List.mem_reverse.2 List.mem_cons_self)
      rw [h4 c r rfl] at this; cases this
  obtain ⟨w, r, h2, h3, h4, _⟩ := lstrip_split l
  rw [h1] at h4
  rw [← h4, List.append_nil] at h2
  unfold rstrip
  rw [List.reverse_eq_nil_iff]
  have e := List.takeWhile_append_dropWhile (p := isWs) (l := l.reverse)
  cases hd : l.reverse.dropWhile isWs with
  | nil => rfl
  | cons c t =>
    exfalso
    have hc : isWs c = false := by
      have := List.head?_dropWhile_not isWs l.reverse
      rw [hd] at this
      simpa using this
    have : c ∈ l := by
      rw [← List.mem_reverse, ← e, hd]; simp
    rw [h2] at this
    rw [h3 c this] at hc; cases hc

theorem Out.map_map {α β γ : Type} (f : α → β) (g : β → γ) (o : Out α) : (o.map f).map g = o.map (g ∘ f) := by cases o <;> rfl

theorem statements_cons (n : Nat) (l : Str) (ls : List Str) : statements (n + 1) (l :: ls) =
    if strip l = [] then statements n ls
    else match joinLines (rstrip l) ls with
      | .fatal => .fatal
      | .crash => .crash
      | .ok (s, ls') => if s.head? = some '#' then statements n ls' else (statements n ls').map (s :: ·) := rfl

theorem statements_step {n : Nat} {l : Str} {ls : List Str} (h : rstrip l ≠ []) : statements (n + 1) (l :: ls) =
    match joinLines (rstrip l) ls with
    | .fatal => .fatal
    | .crash => .crash
    | .ok (s, ls') => if s.head? = some '#' then statements n ls' else (statements n ls').map (s :: ·) := by
  rw [statements_cons, if_neg (rstrip_ne h)]

/-- The statements of a file that is well formed come first, whatever follows. -/
theorem file_prefix {pre out : List Str} (h : File pre out) (post : List Str) :
    statements (pre ++ post).length (pre ++ post) = (statements post.length post).map (out ++ ·) := by
  induction h with
  | nil =>
    show statements post.length post = _
    cases statements post.length post <;> rfl
  | @blank l ls out hw hf ih =>
    show statements ((ls ++ post).length + 1) (l :: (ls ++ post)) = _
    rw [statements_cons, if_pos (white_strip hw)]
    exact ih
  | @comment b ls out s hj hc hf ih =>
    cases b with
    | nil => exact absurd rfl (joined_ne hj)
    | cons l b =>
      have hne : rstrip l ≠ [] := fun h => by have := hc l List.mem_cons_self; rw [h] at this; cases this
      have hjl : joinLines (rstrip l) (b ++ (ls ++ post)) = .ok (s, ls ++ post) :=
        join_comment hj l b rfl [] (ls ++ post) hc nofun
      have hhead := joined_head hj rfl hc
      rw [List.append_assoc]
      show statements ((b ++ (ls ++ post)).length + 1) (l :: (b ++ (ls ++ post))) = _
      rw [statements_step hne, hjl]
      show (if s.head? = some '#' then statements (b ++ (ls ++ post)).length (ls ++ post) else _) = _
      rw [if_pos hhead, ← ih]
      exact statements_fuel _ _ _ (by simp) (Nat.le_refl _)
  | @statement b ls out s hj hs hh hf ih =>
    cases b with
    | nil => exact absurd rfl (joined_ne hj)
    | cons l b =>
      have hne : rstrip l ≠ [] := by
        cases hj with
        | last hl => exact hs
        | @more _ p s' _ hl hp hj' => intro h; rw [h] at hl; cases p <;> cases hl
      have hjl : joinLines (rstrip l) (b ++ (ls ++ post)) = .ok (s, ls ++ post) :=
        join_statement hj l b rfl [] (ls ++ post) hs hh nofun
      rw [List.append_assoc]
      show statements ((b ++ (ls ++ post)).length + 1) (l :: (b ++ (ls ++ post))) = _
      rw [statements_step hne, hjl]
      show (if s.head? = some '#' then _ else (statements (b ++ (ls ++ post)).length (ls ++ post)).map (s :: ·)) = _
      rw [if_neg hh]
      have : statements (b ++ (ls ++ post)).length (ls ++ post) = statements (ls ++ post).length (ls ++ post) :=
        statements_fuel _ _ _ (by simp) (Nat.le_refl _)
      rw [this, ih, Out.map_map]
      rfl

/-- **C139.**  The statements of a file are its lines without blank ones and comments, with continued lines joined, in
their order. -/
theorem file_statements {ls out : List Str} (h : File ls out) : statements ls.length ls = .ok out := by
  have := file_prefix h []
  rw [List.append_nil] at this
  rw [this]
  show Out.ok (out ++ []) = _
  rw [List.append_nil]

/-- **C139.**  A comment that is continued by something that is no comment is an error. -/
theorem comment_continued {pre out post : List Str} {l l2 p : Str} (h : File pre out) (hl : rstrip l = '#' :: p ++ ['\\'])
    (h2 : (rstrip l2).head? ≠ some '#') : statements (pre ++ l :: l2 :: post).length (pre ++ l :: l2 :: post) = .fatal := by
  rw [file_prefix h]
  show (statements ((l2 :: post).length + 1) (l :: l2 :: post)).map _ = _
  rw [statements_step (by rw [hl]; exact nofun), hl]
  have : joinLines ('#' :: p ++ ['\\']) (l2 :: post) = .fatal := by
    unfold joinLines
    have hlast : ('#' :: p ++ ['\\']).getLast? = some '\\' := List.getLast?_concat
    show (if ('#' :: p ++ ['\\']).getLast? ≠ some '\\' then _ else if (rstrip l2).head? ≠ some '#' ∧ some '#' = some '#' then Out.fatal else _) = _
    rw [if_neg (fun h => h hlast), if_pos ⟨h2, rfl⟩]
  rw [this]; rfl

/-! ## Examples -/

/-- `export FOO[doc] ??= 'it says "a = b"'` -/
example : config "export FOO[doc] ??= 'it says \"a = b\"'".toList =
    some ⟨true, "FOO".toList, some "doc".toList, .lazyques, "it says \"a = b\"".toList⟩ := by decide +kernel

example : Assignment "A:append = \"x\"".toList ⟨false, "A:append".toList, none, .set, "x".toList⟩ [] [' '] [' '] '"' :=
  ⟨by decide, nofun, ⟨nofun, by unfold White; decide, by unfold White; decide⟩, ⟨by decide, by unfold VarChar; decide⟩, nofun, Or.inr rfl, by decide⟩

example : feeder false true "unset FOO[doc]".toList = some (.unsetFlag "FOO".toList "doc".toList) ∧
    feeder false true "require conf/${X}.inc".toList = some (.include "conf/${X}.inc".toList true) := by decide +kernel

example : Keyword "include".toList "include a b".toList "a b".toList :=
  ⟨[' '], by decide, by decide, by unfold White; decide, by decide, by decide⟩

/-- A file with a comment of two lines, and a statement of two. -/
example : File ["# a \\".toList, "# b".toList, [], "A = \"1 \\".toList, "  2\"".toList] ["A = \"1   2\"".toList] := by
  have c : Joined ["# a \\".toList, "# b".toList] "# a # b".toList :=
    .more (p := "# a ".toList) (by decide) (by decide) (.last (by decide))
  have s : Joined ["A = \"1 \\".toList, "  2\"".toList] "A = \"1   2\"".toList :=
    .more (p := "A = \"1 ".toList) (s := "  2\"".toList) (by decide) (by decide) (.last (by decide))
  exact .comment c (by decide) (.blank nofun (.statement s (by decide) (by decide) .nil))

/-- The two cases that are left out. -/
theorem glued_appends : config "A+=\"x\"".toList = some ⟨false, "A".toList, none, .append, "x".toList⟩ ∧
    config "export += \"x\"".toList = some ⟨true, "+".toList, none, .set, "x".toList⟩ := by decide +kernel

/-- Against C138: a flag of one letter can be set, but not unset; two spaces belong to the directory. -/
theorem short_flag_stays : config "A[x] = \"1\"".toList = some ⟨false, "A".toList, some "x".toList, .set, "1".toList⟩ ∧
    feeder false true "unset A[x]".toList = none ∧
    feeder true true "addpylib lib  mod".toList = some (.pyLib "lib ".toList "mod".toList) := by decide +kernel

/-- Against C139: a comment between the lines of a statement becomes a part of the value. -/
theorem comment_in_value : statements 3 ["A = \"a \\".toList, "# b \\".toList, "c\"".toList] = .ok ["A = \"a # b c\"".toList] := by
  decide +kernel

/-- Against C139: a backslash on its own line, before a blank line, ends the program with an error that says nothing. -/
theorem backslash_crashes : statements 2 ["\\".toList, []] = .crash := by decide +kernel

/-- A file that ends within a comment that is continued is rejected. -/
theorem comment_unfinished {l p : Str} (hl : rstrip l = '#' :: p ++ ['\\']) : statements 1 [l] = .fatal := by
  have h0 : rstrip l ≠ [] := by rw [hl]; exact nofun
  rw [statements_step h0, hl]
  show (match (joinEof ('#' :: p ++ ['\\'])).map fun r => (r, ([] : List Str)) with
    | .fatal => Out.fatal
    | .crash => .crash
    | .ok (s, ls') => if s.head? = some '#' then statements 0 ls' else (statements 0 ls').map (s :: ·)) = _
  unfold joinEof
  rw [if_neg (fun h => h (by rw [List.getLast?_concat])), if_pos (show ('#' :: p ++ ['\\']).head? = some '#' from rfl)]
  rfl

/-- Against C139: a file that ends within a continued line is accepted; the backslash goes away. -/
theorem end_continued : statements 1 ["A = \"a\" \\".toList] = .ok ["A = \"a\" ".toList] := by decide +kernel

end Bb.Conf
