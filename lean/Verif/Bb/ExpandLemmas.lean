import Verif.Bb.ExpandSpec
/-! # Lemmas about expansion: pieces, passes without a cache, and the cache -/

namespace Bb.Expand
open Py

def isName (k : Str) : Bool := decide (k ≠ []) && k.all nameChar

theorem isName_iff {k : Str} : isName k = true ↔ k ≠ [] ∧ ∀ c, c ∈ k → nameChar c = true := by
  unfold isName
  rw [Bool.and_eq_true, decide_eq_true_iff, List.all_eq_true]

theorem nameChar_spec {c : Char} :
    nameChar c = true ↔ c.isAlphanum = true ∨ c ∈ ['-', '_', '+', '.', '/', '~', ':'] := by
  unfold nameChar
  simp only [Bool.or_eq_true, beq_iff_eq, List.mem_cons, List.not_mem_nil, or_false]
  constructor
  · rintro (((((((h | h) | h) | h) | h) | h) | h) | h) <;> simp [h]
  · rintro (h | h | h | h | h | h | h | h) <;> simp [h]

theorem isName_spec {k : Str} : isName k = true ↔ Spec.IsName k := by
  rw [isName_iff]
  unfold Spec.IsName
  constructor
  · rintro ⟨h, h'⟩; exact ⟨h, fun c hc => nameChar_spec.1 (h' c hc)⟩
  · rintro ⟨h, h'⟩; exact ⟨h, fun c hc => nameChar_spec.2 (h' c hc)⟩

theorem takeWhile_stop {p : Char → Bool} : ∀ {a : Str} {c : Char} {b : Str}, (∀ x, x ∈ a → p x = true) →
    p c = false → (a ++ c :: b).takeWhile p = a
  | [], c, b, _, hc => by rw [List.nil_append, List.takeWhile_cons, hc]; rfl
  | x :: a, c, b, h, hc => by
    rw [List.cons_append, List.takeWhile_cons, if_pos (h x List.mem_cons_self),
      takeWhile_stop (fun y hy => h y (List.mem_cons_of_mem _ hy)) hc]

theorem refAt_name {k r : Str} (h : isName k = true) : refAt ('{' :: (k ++ '}' :: r)) = some k := by
  obtain ⟨h1, h2⟩ := isName_iff.1 h
  have h3 : (k ++ '}' :: r).dropWhile nameChar = '}' :: r := by
    have := List.takeWhile_append_dropWhile (p := nameChar) (l := k ++ '}' :: r)
    rw [takeWhile_stop h2 (by decide)] at this
    exact List.append_cancel_left this
  show (if (k ++ '}' :: r).takeWhile nameChar ≠ [] ∧ ((k ++ '}' :: r).dropWhile nameChar).head? = some '}' then
    some ((k ++ '}' :: r).takeWhile nameChar) else none) = some k
  rw [takeWhile_stop h2 (by decide), h3]
  exact if_pos ⟨h1, rfl⟩

theorem refAt_some {s k : Str} (h : refAt s = some k) : isName k = true ∧ ∃ r, s = '{' :: (k ++ '}' :: r) := by
  unfold refAt at h
  split at h
  · rename_i s
    split at h
    · rename_i hc
      cases h
      refine ⟨isName_iff.2 ⟨hc.1, fun c hc => ?_⟩, ?_⟩
      · have := List.all_takeWhile (l := s) (p := nameChar)
        exact List.all_eq_true.1 this c hc
      · have hd := hc.2
        cases hs : s.dropWhile nameChar with
        | nil => rw [hs] at hd; cases hd
        | cons a r =>
          rw [hs] at hd
          have ha : a = '}' := Option.some.inj hd
          refine ⟨r, ?_⟩
          rw [← ha, ← hs, List.takeWhile_append_dropWhile]
    · cases h
  · cases h

theorem scan_skip : ∀ (a s : Str), scan a.length (a ++ s) = scan 0 s
  | [], _ => rfl
  | _ :: a, s => scan_skip a s

theorem scan_lit {c : Char} {s : Str} (h : c ≠ '$') : scan 0 (c :: s) = .lit c :: scan 0 s := by
  rw [scan, if_neg h]

theorem scan_dollar {s : Str} (h : refAt s = none) : scan 0 ('$' :: s) = .lit '$' :: scan 0 s := by
  rw [scan, if_pos rfl, h]

theorem scan_ref {k s : Str} (h : isName k = true) :
    scan 0 ('$' :: '{' :: (k ++ '}' :: s)) = .ref k :: scan 0 s := by
  rw [scan, if_pos rfl, refAt_name h]
  show Seg.ref k :: scan (k.length + 2) _ = _
  have := scan_skip ('{' :: (k ++ ['}'])) s
  rw [show ('{' :: (k ++ ['}'])).length = k.length + 2 by rw [List.length_cons, List.length_append]; rfl] at this
  rw [show '{' :: (k ++ '}' :: s) = '{' :: (k ++ ['}']) ++ s by
    rw [List.cons_append, List.append_assoc]; rfl, this]

/-- The text of a piece. -/
def Seg.text : Seg → Str
  | .lit c => [c]
  | .ref k => refText k

def flat (ss : List Seg) : Str := (ss.map Seg.text).flatten

theorem refText_append (k s : Str) : refText k ++ s = '$' :: '{' :: (k ++ '}' :: s) := by
  unfold refText
  rw [List.cons_append, List.cons_append, List.append_assoc]; rfl

/-- Induction along `scan`. -/
theorem scan_ind {P : Str → Prop} (nil : P []) (lit : ∀ c s, c ≠ '$' → P s → P (c :: s))
    (dollar : ∀ s, refAt s = none → P s → P ('$' :: s))
    (ref : ∀ k s, isName k = true → P s → P ('$' :: '{' :: (k ++ '}' :: s))) : ∀ s, P s := by
  have : ∀ n s, s.length ≤ n → P s := by
    intro n
    induction n with
    | zero => intro s h; rw [List.length_eq_zero_iff.1 (Nat.le_zero.1 h)]; exact nil
    | succ n ih =>
      intro s h
      cases s with
      | nil => exact nil
      | cons c s =>
        have hl : s.length ≤ n := Nat.le_of_succ_le_succ h
        by_cases hc : c = '$'
        · subst hc
          cases hr : refAt s with
          | none => exact dollar s hr (ih s hl)
          | some k =>
            obtain ⟨hk, r, rfl⟩ := refAt_some hr
            refine ref k r hk (ih r ?_)
            rw [List.length_cons, List.length_append, List.length_cons] at hl
            omega
        · exact lit c s hc (ih s hl)
  exact fun s => this s.length s (Nat.le_refl _)

theorem flat_scan (s : Str) : flat (scan 0 s) = s := by
  refine scan_ind (P := fun s => flat (scan 0 s) = s) rfl ?_ ?_ ?_ s
  · intro c s hc ih; rw [scan_lit hc]; show [c] ++ flat _ = _; rw [ih]; rfl
  · intro s hr ih; rw [scan_dollar hr]; show ['$'] ++ flat _ = _; rw [ih]; rfl
  · intro k s hk ih
    rw [scan_ref hk]
    show refText k ++ flat _ = _
    rw [ih, refText_append]

theorem scan_names (s : Str) : ∀ k, Seg.ref k ∈ scan 0 s → isName k = true := by
  refine scan_ind (P := fun s => ∀ k, Seg.ref k ∈ scan 0 s → isName k = true) (fun _ h => nomatch h) ?_ ?_ ?_ s
  · intro c s hc ih k h
    rw [scan_lit hc] at h
    rcases List.mem_cons.1 h with h | h
    · cases h
    · exact ih k h
  · intro s hr ih k h
    rw [scan_dollar hr] at h
    rcases List.mem_cons.1 h with h | h
    · cases h
    · exact ih k h
  · intro k s hk ih j h
    rw [scan_ref hk] at h
    rcases List.mem_cons.1 h with h | h
    · cases h; exact hk
    · exact ih j h

theorem dollar_not_name {k : Str} (h : isName k = true) : '$' ∉ k := fun hm => by
  have := (isName_iff.1 h).2 _ hm
  revert this; decide

/-- Every reference in a text is found. -/
theorem scan_finds {k : Str} (hk : isName k = true) (s : Str) : ∀ a b, s = a ++ refText k ++ b → Seg.ref k ∈ scan 0 s := by
  refine scan_ind (P := fun s => ∀ a b, s = a ++ refText k ++ b → Seg.ref k ∈ scan 0 s) ?_ ?_ ?_ ?_ s
  · intro a b h; cases a <;> cases h
  · intro c s hc ih a b h
    rw [scan_lit hc]
    cases a with
    | nil => exact absurd (List.cons.inj h).1 hc
    | cons x a => exact List.mem_cons_of_mem _ (ih a b (List.cons.inj h).2)
  · intro s hr ih a b h
    rw [scan_dollar hr]
    cases a with
    | nil =>
      rw [List.nil_append, refText_append] at h
      rw [(List.cons.inj h).2, refAt_name hk] at hr
      cases hr
    | cons x a => exact List.mem_cons_of_mem _ (ih a b (List.cons.inj h).2)
  · intro j s hj ih a b h
    rw [scan_ref hj]
    -- the reference begins after the one at the beginning, or is it
    rw [List.append_assoc] at h
    have key : ∀ (p : Str), '$' ∉ p → ∀ (a s : Str), p ++ s = a ++ (refText k ++ b) → ∃ a', s = a' ++ (refText k ++ b) := by
      intro p
      induction p with
      | nil => intro _ a s h; exact ⟨a, h⟩
      | cons x p ihp =>
        intro hx a s h
        cases a with
        | nil =>
          rw [List.nil_append, refText_append] at h
          exact absurd ((List.cons.inj h).1 ▸ List.mem_cons_self) hx
        | cons y a => exact ihp (fun hp => hx (List.mem_cons_of_mem _ hp)) a s (List.cons.inj h).2
    cases a with
    | nil =>
      rw [List.nil_append, refText_append] at h
      have h2 := (List.cons.inj (List.cons.inj h).2).2
      have hc : ∀ {u v x y : Str}, '}' ∉ u → '}' ∉ v → u ++ '}' :: x = v ++ '}' :: y → u = v := by
        intro u
        induction u with
        | nil =>
          intro v x y _ hv h
          cases v with
          | nil => rfl
          | cons z v => exact absurd ((List.cons.inj h).1 ▸ List.mem_cons_self) hv
        | cons w u ihu =>
          intro v x y hu hv h
          cases v with
          | nil => exact absurd ((List.cons.inj h).1 ▸ List.mem_cons_self) hu
          | cons z v =>
            obtain ⟨h1, h2⟩ := List.cons.inj h
            rw [h1, ihu (fun hp => hu (List.mem_cons_of_mem _ hp)) (fun hp => hv (List.mem_cons_of_mem _ hp)) h2]
      have hb : ∀ {u : Str}, isName u = true → '}' ∉ u := fun h hm => by
        have := (isName_iff.1 h).2 _ hm
        revert this; decide
      rw [hc (hb hj) (hb hk) h2]
      exact List.mem_cons_self
    | cons y a =>
      obtain ⟨a', h'⟩ := key ('{' :: (j ++ ['}']))
        (fun hm => by
          rcases List.mem_cons.1 hm with h | h
          · revert h; decide
          · rcases List.mem_append.1 h with h | h
            · exact dollar_not_name hj h
            · revert h; decide) a s
        (Eq.trans (by rw [List.cons_append, List.append_assoc]; rfl) (List.cons.inj h).2)
      exact List.mem_cons_of_mem _ (ih a' b (by rw [h', List.append_assoc]))

/-- A piece that is found is in the text. -/
theorem scan_in {k s : Str} (h : Seg.ref k ∈ scan 0 s) : ∃ a b, s = a ++ refText k ++ b := by
  obtain ⟨x, y, hxy⟩ := List.append_of_mem h
  refine ⟨flat x, flat y, ?_⟩
  have := flat_scan s
  rw [hxy] at this
  rw [← this]
  unfold flat
  rw [List.map_append, List.flatten_append, List.map_cons, List.flatten_cons, List.append_assoc]
  rfl

/-! ## Without a cache -/

def substP (get : Str → Except Err (Option Str)) (self : Option Str) : List Seg → Except Err Str
  | [] => .ok []
  | .lit a :: ss =>
    match substP get self ss with
    | .ok r => .ok (a :: r)
    | .error e => .error e
  | .ref k :: ss =>
    if self = some k then .error (.self k)
    else
      match get k with
      | .error e => .error e
      | .ok v =>
        match substP get self ss with
        | .ok r => .ok (v.getD (refText k) ++ r)
        | .error e => .error e

def loopP (get : Str → Except Err (Option Str)) (self : Option Str) : Nat → Str → Except Err Str
  | 0, _ => .error .running
  | n + 1, s =>
    if isSub ['$', '{'] s then
      match substP get self (scan 0 s) with
      | .error e => .error e
      | .ok s' => if s' = s then .ok s else loopP get self n s'
    else .ok s

def valueP (env : Str → Option Str) (fuel : Nat) : Nat → Str → Except Err (Option Str)
  | 0, _ => .error .depth
  | d + 1, k =>
    match env k with
    | none => .ok none
    | some t =>
      match loopP (valueP env fuel d) (some k) fuel t with
      | .error e => .error e
      | .ok v => .ok (some v)

def Below (g g' : Str → Except Err (Option Str)) : Prop := ∀ k v, g k = .ok v → g' k = .ok v

theorem substP_lit {get : Str → Except Err (Option Str)} {self : Option Str} {a : Char} {ss : List Seg} {r : Str} :
    substP get self (.lit a :: ss) = .ok r ↔ ∃ r', substP get self ss = .ok r' ∧ r = a :: r' := by
  rw [substP]
  cases substP get self ss with
  | error e => exact ⟨fun h => (nomatch h), fun ⟨_, h, _⟩ => (nomatch h)⟩
  | ok x => exact ⟨fun h => ⟨x, rfl, (Except.ok.inj h).symm⟩, fun ⟨_, h, h'⟩ => by cases h; rw [h']⟩

theorem substP_ref {get : Str → Except Err (Option Str)} {self : Option Str} {k : Str} {ss : List Seg} {r : Str} :
    substP get self (.ref k :: ss) = .ok r ↔
      self ≠ some k ∧ ∃ v r', get k = .ok v ∧ substP get self ss = .ok r' ∧ r = v.getD (refText k) ++ r' := by
  rw [substP]
  by_cases hs : self = some k
  · rw [if_pos hs]; exact ⟨fun h => (nomatch h), fun h => absurd hs h.1⟩
  · rw [if_neg hs]
    cases get k with
    | error e => exact ⟨fun h => (nomatch h), fun ⟨_, _, _, h, _⟩ => (nomatch h)⟩
    | ok v =>
      cases substP get self ss with
      | error e => exact ⟨fun h => (nomatch h), fun ⟨_, _, _, _, h, _⟩ => (nomatch h)⟩
      | ok x =>
        exact ⟨fun h => ⟨hs, v, x, rfl, rfl, (Except.ok.inj h).symm⟩, fun ⟨_, _, _, h1, h2, h3⟩ => by
          cases h1; cases h2; rw [h3]⟩

theorem substP_mono {g g' : Str → Except Err (Option Str)} (hb : Below g g') {self : Option Str} :
    ∀ {ss : List Seg} {r : Str}, substP g self ss = .ok r → substP g' self ss = .ok r
  | [], _, h => h
  | .lit a :: ss, r, h => by
    obtain ⟨r', h1, h2⟩ := substP_lit.1 h
    exact substP_lit.2 ⟨r', substP_mono hb h1, h2⟩
  | .ref k :: ss, r, h => by
    obtain ⟨hs, v, r', h1, h2, h3⟩ := substP_ref.1 h
    exact substP_ref.2 ⟨hs, v, r', hb k v h1, substP_mono hb h2, h3⟩

theorem loopP_ok {get : Str → Except Err (Option Str)} {self : Option Str} {n : Nat} {s r : Str} :
    loopP get self (n + 1) s = .ok r ↔
      (isSub ['$', '{'] s = false ∧ r = s) ∨
      (isSub ['$', '{'] s = true ∧ substP get self (scan 0 s) = .ok s ∧ r = s) ∨
      (isSub ['$', '{'] s = true ∧ ∃ s', substP get self (scan 0 s) = .ok s' ∧ s' ≠ s ∧ loopP get self n s' = .ok r) := by
  rw [loopP]
  cases hi : isSub ['$', '{'] s with
  | false =>
    rw [if_neg (by simp)]
    exact ⟨fun h => Or.inl ⟨rfl, (Except.ok.inj h).symm⟩, fun h => by
      rcases h with ⟨_, rfl⟩ | ⟨h, _⟩ | ⟨h, _⟩
      · rfl
      · cases h
      · cases h⟩
  | true =>
    rw [if_pos rfl]
    cases hs : substP get self (scan 0 s) with
    | error e =>
      exact ⟨fun h => (nomatch h), fun h => by
        rcases h with ⟨h, _⟩ | ⟨_, h, _⟩ | ⟨_, _, h, _⟩ <;> cases h⟩
    | ok x =>
      show (if x = s then Except.ok s else loopP get self n x) = .ok r ↔ _
      by_cases hx : x = s
      · rw [if_pos hx]
        subst hx
        exact ⟨fun h => Or.inr (Or.inl ⟨rfl, rfl, (Except.ok.inj h).symm⟩), fun h => by
          rcases h with ⟨h, _⟩ | ⟨_, _, rfl⟩ | ⟨_, s', h, h', _⟩
          · cases h
          · rfl
          · cases h; exact absurd rfl h'⟩
      · rw [if_neg hx]
        exact ⟨fun h => Or.inr (Or.inr ⟨rfl, x, rfl, hx, h⟩), fun h => by
          rcases h with ⟨h, _⟩ | ⟨_, h, _⟩ | ⟨_, s', h, h', h''⟩
          · cases h
          · cases h; exact absurd rfl hx
          · cases h; exact h''⟩

theorem loopP_mono {g g' : Str → Except Err (Option Str)} (hb : Below g g') {self : Option Str} :
    ∀ {n m : Nat} {s r : Str}, n ≤ m → loopP g self n s = .ok r → loopP g' self m s = .ok r
  | 0, _, _, _, _, h => nomatch h
  | n + 1, 0, _, _, hm, _ => absurd hm (Nat.not_succ_le_zero _)
  | n + 1, m + 1, s, r, hm, h => by
    rcases loopP_ok.1 h with h | ⟨h1, h2, h3⟩ | ⟨h1, s', h2, h3, h4⟩
    · exact loopP_ok.2 (Or.inl h)
    · exact loopP_ok.2 (Or.inr (Or.inl ⟨h1, substP_mono hb h2, h3⟩))
    · exact loopP_ok.2 (Or.inr (Or.inr ⟨h1, s', substP_mono hb h2, h3,
        loopP_mono hb (Nat.le_of_succ_le_succ hm) h4⟩))

theorem valueP_ok {env : Str → Option Str} {f d : Nat} {k : Str} {v : Option Str} :
    valueP env f (d + 1) k = .ok v ↔
      (env k = none ∧ v = none) ∨
      ∃ t r, env k = some t ∧ loopP (valueP env f d) (some k) f t = .ok r ∧ v = some r := by
  rw [valueP]
  cases env k with
  | none =>
    exact ⟨fun h => Or.inl ⟨rfl, (Except.ok.inj h).symm⟩, fun h => by
      rcases h with ⟨_, rfl⟩ | ⟨_, _, h, _⟩
      · rfl
      · cases h⟩
  | some t =>
    show (match loopP (valueP env f d) (some k) f t with
      | .error e => Except.error e
      | .ok v => .ok (some v)) = _ ↔ _
    cases hl : loopP (valueP env f d) (some k) f t with
    | error e =>
      exact ⟨fun h => (nomatch h), fun h => by
        rcases h with ⟨h, _⟩ | ⟨_, _, h, h', _⟩
        · cases h
        · cases h; rw [hl] at h'; cases h'⟩
    | ok r =>
      exact ⟨fun h => Or.inr ⟨t, r, rfl, hl, (Except.ok.inj h).symm⟩, fun h => by
        rcases h with ⟨h, _⟩ | ⟨_, _, h, h', h''⟩
        · cases h
        · cases h; rw [hl] at h'; cases h'; rw [h'']⟩

theorem valueP_mono {env : Str → Option Str} {f f' : Nat} (hf : f ≤ f') :
    ∀ {d d' : Nat}, d ≤ d' → Below (valueP env f d) (valueP env f' d')
  | 0, _, _, _, _, h => nomatch h
  | d + 1, 0, hd, _, _, _ => absurd hd (Nat.not_succ_le_zero _)
  | d + 1, d' + 1, hd, k, v, h => by
    rcases valueP_ok.1 h with h | ⟨t, r, h1, h2, h3⟩
    · exact valueP_ok.2 (Or.inl h)
    · exact valueP_ok.2 (Or.inr ⟨t, r, h1, loopP_mono (valueP_mono hf (Nat.le_of_succ_le_succ hd)) hf h2, h3⟩)

/-- The value of a variable, at whatever depth it is found. -/
def Val (env : Str → Option Str) (k : Str) (v : Option Str) : Prop := ∃ f d, valueP env f d k = .ok v

theorem Val.unique {env : Str → Option Str} {k : Str} {v v' : Option Str} (h : Val env k v) (h' : Val env k v') :
    v = v' := by
  obtain ⟨f, d, h⟩ := h
  obtain ⟨f', d', h'⟩ := h'
  have h1 := valueP_mono (Nat.le_max_left f f') (Nat.le_max_left d d') k v h
  have h2 := valueP_mono (Nat.le_max_right f f') (Nat.le_max_right d d') k v' h'
  rw [h1] at h2
  exact Except.ok.inj h2

/-! ## With the cache -/

/-- What is in the cache is right. -/
def Sound (env : Str → Option Str) (c : Cache) : Prop := ∀ k v, c.lookup k = some v → Val env k v

/-- A reader with a cache that reads what a reader without reads, and possibly more. -/
structure Reads (env : Str → Option Str) (g : Str → Except Err (Option Str))
    (get : Str → Cache → Except Err (Option Str) × Cache) : Prop where
  sound : ∀ k c, Sound env c → Sound env (get k c).2
  right : ∀ k c v, Sound env c → (get k c).1 = .ok v → Val env k v
  full : ∀ k c v, Sound env c → g k = .ok v → (get k c).1 = .ok v

theorem subst_lit (get : Str → Cache → Except Err (Option Str) × Cache) (self : Option Str) (a : Char) (ss : List Seg)
    (c : Cache) : (subst get self (.lit a :: ss) c).2 = (subst get self ss c).2 ∧
      (∀ r, (subst get self (.lit a :: ss) c).1 = .ok r ↔ ∃ r', (subst get self ss c).1 = .ok r' ∧ r = a :: r') := by
  rw [subst]
  obtain ⟨x, c'⟩ := subst get self ss c
  cases x with
  | error e => exact ⟨rfl, fun r => ⟨fun h => (nomatch h), fun ⟨_, h, _⟩ => (nomatch h)⟩⟩
  | ok y => exact ⟨rfl, fun r => ⟨fun h => ⟨y, rfl, (Except.ok.inj h).symm⟩, fun ⟨_, h, h'⟩ => by cases h; rw [h']⟩⟩

/-- A pass with the cache: the cache stays right, results are those of a reader without a cache. -/
theorem subst_reads {env : Str → Option Str} {g : Str → Except Err (Option Str)}
    {get : Str → Cache → Except Err (Option Str) × Cache} (hr : Reads env g get) (self : Option Str) :
    ∀ (ss : List Seg) (c : Cache), Sound env c → Sound env (subst get self ss c).2 ∧
      (∀ r, (subst get self ss c).1 = .ok r → ∃ f d, substP (valueP env f d) self ss = .ok r) ∧
      (∀ r, substP g self ss = .ok r → (subst get self ss c).1 = .ok r)
  | [], c, hc => ⟨hc, fun r h => ⟨0, 0, h⟩, fun r h => h⟩
  | .lit a :: ss, c, hc => by
    obtain ⟨h1, h2, h3⟩ := subst_reads hr self ss c hc
    obtain ⟨e1, e2⟩ := subst_lit get self a ss c
    refine ⟨e1 ▸ h1, fun r h => ?_, fun r h => ?_⟩
    · obtain ⟨r', h0, rfl⟩ := (e2 r).1 h
      obtain ⟨f, d, h'⟩ := h2 r' h0
      exact ⟨f, d, substP_lit.2 ⟨r', h', rfl⟩⟩
    · obtain ⟨r', h0, rfl⟩ := substP_lit.1 h
      exact (e2 _).2 ⟨r', h3 r' h0, rfl⟩
  | .ref k :: ss, c, hc => by
    rw [subst]
    by_cases hs : self = some k
    · rw [if_pos hs]
      exact ⟨hc, fun r h => (nomatch h), fun r h => absurd hs (substP_ref.1 h).1⟩
    · rw [if_neg hs]
      have g1 := hr.sound k c hc
      have g2 := fun v => hr.right k c v hc
      have g3 := fun v => hr.full k c v hc
      cases hg : get k c with
      | mk x c' =>
        rw [hg] at g1 g2 g3
        cases x with
        | error e =>
          refine ⟨g1, fun r h => (nomatch h), fun r h => ?_⟩
          obtain ⟨_, v, _, h, _⟩ := substP_ref.1 h
          cases g3 v h
        | ok v =>
          obtain ⟨h1, h2, h3⟩ := subst_reads hr self ss c' g1
          dsimp only
          cases hss : subst get self ss c' with
          | mk y c'' =>
            rw [hss] at h1 h2 h3
            cases y with
            | error e =>
              refine ⟨h1, fun r h => (nomatch h), fun r h => ?_⟩
              obtain ⟨_, v', r', _, h, _⟩ := substP_ref.1 h
              cases h3 r' h
            | ok w =>
              refine ⟨h1, fun r h => ?_, fun r h => ?_⟩
              · cases h
                obtain ⟨f, d, hw⟩ := h2 w rfl
                obtain ⟨f', d', hv⟩ := g2 v rfl
                exact ⟨max f f', max d d', substP_ref.2 ⟨hs, v, w,
                  valueP_mono (Nat.le_max_right _ _) (Nat.le_max_right _ _) k v hv,
                  substP_mono (valueP_mono (Nat.le_max_left _ _) (Nat.le_max_left _ _)) hw, rfl⟩⟩
              · obtain ⟨_, v', r', hv, hr', rfl⟩ := substP_ref.1 h
                cases g3 v' hv
                cases h3 r' hr'
                rfl

/-- The loop with the cache. -/
theorem loop_reads {env : Str → Option Str} {g : Str → Except Err (Option Str)}
    {get : Str → Cache → Except Err (Option Str) × Cache} (hr : Reads env g get) (self : Option Str) :
    ∀ (n : Nat) (s : Str) (c : Cache), Sound env c → Sound env (loop get self n s c).2 ∧
      (∀ r, (loop get self n s c).1 = .ok r → ∃ f d, loopP (valueP env f d) self n s = .ok r) ∧
      (∀ r, loopP g self n s = .ok r → (loop get self n s c).1 = .ok r)
  | 0, s, c, hc => ⟨hc, fun r h => (nomatch h), fun r h => (nomatch h)⟩
  | n + 1, s, c, hc => by
    rw [loop]
    cases hi : isSub ['$', '{'] s with
    | false =>
      rw [if_neg (by simp)]
      refine ⟨hc, fun r h => ⟨0, 0, ?_⟩, fun r h => ?_⟩
      · cases h; exact loopP_ok.2 (Or.inl ⟨hi, rfl⟩)
      · rcases loopP_ok.1 h with ⟨_, rfl⟩ | ⟨h, _⟩ | ⟨h, _⟩
        · rfl
        · rw [hi] at h; cases h
        · rw [hi] at h; cases h
    | true =>
      rw [if_pos rfl]
      obtain ⟨h1, h2, h3⟩ := subst_reads hr self (scan 0 s) c hc
      cases hss : subst get self (scan 0 s) c with
      | mk x c' =>
        rw [hss] at h1 h2 h3
        cases x with
        | error e =>
          refine ⟨h1, fun r h => (nomatch h), fun r h => ?_⟩
          rcases loopP_ok.1 h with ⟨h, _⟩ | ⟨_, h, _⟩ | ⟨_, s', h, _⟩
          · rw [hi] at h; cases h
          · cases h3 _ h
          · cases h3 _ h
        | ok s' =>
          dsimp only
          by_cases he : s' = s
          · rw [if_pos he]
            subst he
            refine ⟨h1, fun r h => ?_, fun r h => ?_⟩
            · cases h
              obtain ⟨f, d, h⟩ := h2 _ rfl
              exact ⟨f, d, loopP_ok.2 (Or.inr (Or.inl ⟨hi, h, rfl⟩))⟩
            · rcases loopP_ok.1 h with ⟨h, _⟩ | ⟨_, h, rfl⟩ | ⟨_, s'', h, h', _⟩
              · rw [hi] at h; cases h
              · rfl
              · cases h3 _ h; exact absurd rfl h'
          · rw [if_neg he]
            obtain ⟨l1, l2, l3⟩ := loop_reads hr self n s' c' h1
            refine ⟨l1, fun r h => ?_, fun r h => ?_⟩
            · obtain ⟨f, d, hl⟩ := l2 r h
              obtain ⟨f', d', hs⟩ := h2 s' rfl
              exact ⟨max f f', max d d', loopP_ok.2 (Or.inr (Or.inr ⟨hi, s',
                substP_mono (valueP_mono (Nat.le_max_right _ _) (Nat.le_max_right _ _)) hs, he,
                loopP_mono (valueP_mono (Nat.le_max_left _ _) (Nat.le_max_left _ _)) (Nat.le_refl _) hl⟩))⟩
            · rcases loopP_ok.1 h with ⟨h, _⟩ | ⟨_, h, _⟩ | ⟨_, s'', h, _, h'⟩
              · rw [hi] at h; cases h
              · cases h3 _ h; exact absurd rfl he
              · cases h3 _ h; exact l3 r h'

theorem Sound.set {env : Str → Option Str} {c : Cache} (hc : Sound env c) {k : Str} {v : Option Str}
    (h : Val env k v) : Sound env (c.set k v) := by
  intro j w hj
  rw [Dict.lookup_set] at hj
  by_cases e : j = k
  · rw [if_pos e] at hj
    cases hj
    exact e ▸ h
  · rw [if_neg e] at hj
    exact hc j w hj

/-- Reading a variable through the cache. -/
theorem getVar_reads (vars : Dict Var) (fuel : Nat) : ∀ d, Reads (raw vars false) (valueP (raw vars false) fuel d)
    (getVar vars fuel d false)
  | 0 => ⟨fun _ _ h => h, fun _ _ _ _ h => (nomatch h), fun _ _ _ _ h => (nomatch h)⟩
  | d + 1 => by
    have ih := getVar_reads vars fuel d
    have main : ∀ k c, Sound (raw vars false) c → Sound (raw vars false) (getVar vars fuel (d + 1) false k c).2 ∧
        (∀ v, (getVar vars fuel (d + 1) false k c).1 = .ok v → Val (raw vars false) k v) ∧
        (∀ v, valueP (raw vars false) fuel (d + 1) k = .ok v → (getVar vars fuel (d + 1) false k c).1 = .ok v) := by
      intro k c hc
      rw [getVar]
      cases hl : c.lookup k with
      | some v =>
        refine ⟨hc, fun w h => ?_, fun w h => ?_⟩
        · cases h; exact hc k v hl
        · show Except.ok v = .ok w
          rw [(hc k v hl).unique ⟨fuel, d + 1, h⟩]
      | none =>
        cases hr : raw vars false k with
        | none =>
          have hv : Val (raw vars false) k none := ⟨0, 1, valueP_ok.2 (Or.inl ⟨hr, rfl⟩)⟩
          refine ⟨hc.set hv, fun w h => ?_, fun w h => ?_⟩
          · cases h; exact hv
          · show Except.ok none = .ok w
            rw [hv.unique ⟨fuel, d + 1, h⟩]
        | some t =>
          obtain ⟨h1, h2, h3⟩ := loop_reads ih (some k) fuel t c hc
          dsimp only
          cases hlo : loop (getVar vars fuel d false) (some k) fuel t c with
          | mk x c' =>
            rw [hlo] at h1 h2 h3
            cases x with
            | error e =>
              refine ⟨h1, fun w h => ?_, fun w h => ?_⟩
              · cases h
              · rcases valueP_ok.1 h with ⟨h, _⟩ | ⟨t', r, h, h', _⟩
                · rw [hr] at h; cases h
                · rw [hr] at h; cases h; cases h3 r h'
            | ok v =>
              have hv : Val (raw vars false) k (some v) := by
                obtain ⟨f, d', h⟩ := h2 v rfl
                refine ⟨max fuel f, d' + 1, valueP_ok.2 (Or.inr ⟨t, v, hr, ?_, rfl⟩)⟩
                exact loopP_mono (valueP_mono (Nat.le_max_right _ _) (Nat.le_refl _)) (Nat.le_max_left _ _) h
              refine ⟨h1.set hv, fun w h => ?_, fun w h => ?_⟩
              · cases h; exact hv
              · show Except.ok (some v) = .ok w; rw [hv.unique ⟨fuel, d + 1, h⟩]
    exact ⟨fun k c h => (main k c h).1, fun k c v h => (main k c h).2.1 v, fun k c v h => (main k c h).2.2 v⟩

end Bb.Expand
