import Verif.Bb.ChunkModel
/-!
# What is sent is what is received
-/

namespace Bb.Chunk

open Py

/-! ## Lines -/

theorem take_line {l r : Str} (h : '\n' ∉ l) : (l ++ '\n' :: r).takeWhile (· ≠ '\n') = l ∧
    (l ++ '\n' :: r).dropWhile (· ≠ '\n') = '\n' :: r := by
  induction l with
  | nil => exact ⟨rfl, rfl⟩
  | cons c l ih =>
    have hc : c ≠ '\n' := fun e => h (e ▸ List.mem_cons_self)
    obtain ⟨h1, h2⟩ := ih fun hx => h (List.mem_cons_of_mem _ hx)
    constructor
    · rw [List.cons_append, List.takeWhile_cons_of_pos (p := fun x => decide (x ≠ '\n')) (decide_eq_true hc), h1]
    · rw [List.cons_append, List.dropWhile_cons_of_pos (p := fun x => decide (x ≠ '\n')) (decide_eq_true hc), h2]

theorem no_line {l : Str} (h : '\n' ∉ l) : l.dropWhile (· ≠ '\n') = [] := by
  induction l with
  | nil => rfl
  | cons c l ih =>
    have hc : c ≠ '\n' := fun e => h (e ▸ List.mem_cons_self)
    rw [List.dropWhile_cons_of_pos (p := fun x => decide (x ≠ '\n')) (decide_eq_true hc), ih fun hx => h (List.mem_cons_of_mem _ hx)]

/-- The last character of a text is no white space. -/
def EndsClean (l : Str) : Prop := ∀ a c, l = a ++ [c] → isWs c = false

theorem rstrip_nl (l : Str) : rstrip (l ++ ['\n']) = rstrip l := by
  unfold rstrip
  rw [List.reverse_append]
  show ((('\n' :: l.reverse).dropWhile isWs).reverse) = _
  rw [List.dropWhile_cons_of_pos (by decide)]

theorem rstrip_clean {l : Str} (h : EndsClean l) : rstrip l = l := by
  unfold rstrip
  cases hr : l.reverse with
  | nil => rw [List.reverse_eq_nil_iff.1 hr]; rfl
  | cons c r =>
    have e : l = r.reverse ++ [c] := by
      rw [← List.reverse_reverse l, hr, List.reverse_cons]
    rw [List.dropWhile_cons_of_neg (by rw [h _ _ e]; exact Bool.false_ne_true), ← hr, List.reverse_reverse]

theorem rstrip_sp {l : Str} (h : EndsClean l) : rstrip (l ++ [' ']) = l := by
  have : rstrip (l ++ [' ']) = rstrip l := by
    unfold rstrip
    rw [List.reverse_append]
    show (((' ' :: l.reverse).dropWhile isWs).reverse) = _
    rw [List.dropWhile_cons_of_pos (by decide)]
  rw [this, rstrip_clean h]

theorem recv_line {l r : Str} (h : '\n' ∉ l) : recv (l ++ '\n' :: r) = .ok (rstrip l, r) := by
  unfold recv
  obtain ⟨h1, h2⟩ := take_line (r := r) h
  rw [if_neg (by simp), h2, h1, rstrip_nl]

theorem recv_cut {l : Str} (h : '\n' ∉ l) : ∃ e, recv l = .error e := by
  unfold recv
  by_cases hl : l = []
  · exact ⟨_, if_pos hl⟩
  · rw [if_neg hl, no_line h]
    exact ⟨_, rfl⟩

/-! ## Pieces -/

theorem piecesGo_eq {n : Nat} (hn : 0 < n) : ∀ (k : Nat) (s : Str), s.length ≤ k →
    (piecesGo n k s).flatten = s
  | 0, [], _ => rfl
  | 0, _ :: _, h => by simp at h
  | k + 1, [], _ => rfl
  | k + 1, c :: s, h => by
    unfold piecesGo
    rw [List.flatten_cons, piecesGo_eq hn k _ (by simp only [List.length_drop, List.length_cons] at *; omega),
      List.take_append_drop]

/-- Where a piece of a text is: after full pieces, and full or the last one. -/
theorem piecesGo_mem {n : Nat} (hn : 0 < n) : ∀ (k : Nat) (s p : Str), s.length ≤ k → p ∈ piecesGo n k s →
    ∃ a b, s = a ++ p ++ b ∧ n ∣ a.length ∧ p ≠ [] ∧ (p.length = n ∨ b = []) ∧ p.length ≤ n
  | 0, _, _, _, h => (nomatch h)
  | k + 1, [], _, _, h => (nomatch h)
  | k + 1, c :: s, p, hk, h => by
    unfold piecesGo at h
    rcases List.mem_cons.1 h with rfl | h
    · refine ⟨[], (c :: s).drop n, by rw [List.nil_append, List.take_append_drop], ⟨0, rfl⟩, ?_, ?_, ?_⟩
      · cases n with
        | zero => omega
        | succ n => exact List.cons_ne_nil _ _
      · by_cases hl : n ≤ (c :: s).length
        · left; rw [List.length_take]; omega
        · right; rw [List.drop_eq_nil_iff]; omega
      · rw [List.length_take]; omega
    · obtain ⟨a, b, e, h1, h2, h3, h4⟩ := piecesGo_mem hn k _ p
        (by simp only [List.length_drop, List.length_cons] at *; omega) h
      refine ⟨(c :: s).take n ++ a, b, ?_, ?_, h2, h3, h4⟩
      · rw [List.append_assoc, List.append_assoc, ← List.append_assoc a, ← e, List.take_append_drop]
      · rw [List.length_append, List.length_take]
        by_cases hl : n ≤ (c :: s).length
        · rw [Nat.min_eq_left hl]
          exact (Nat.dvd_add_right (Nat.dvd_refl n)).2 h1
        · have : (c :: s).drop n = [] := List.drop_eq_nil_iff.2 (by omega)
          rw [this] at e
          have := congrArg List.length e
          simp only [List.length_nil, List.length_append] at this
          have hp := List.length_pos_iff.2 h2
          omega

/-! ## Messages -/

/-- A message that arrives: it has no line ends, it is not itself the announcement of a message in pieces, and
there is no white space at its end or where it is cut. -/
structure Fine (isMark : Str → Bool) (max : Nat) (msg : Str) : Prop where
  line : '\n' ∉ msg
  mark : isMark msg = false
  clean : ∀ a c b, msg = a ++ c :: b → ((a.length + 1) % (max - 1) = 0 ∨ b = []) → isWs c = false

theorem Fine.ends {isMark : Str → Bool} {max : Nat} {msg : Str} (h : Fine isMark max msg) : EndsClean msg :=
  fun a c e => h.clean a c [] e (Or.inr rfl)

theorem Fine.piece {isMark : Str → Bool} {max : Nat} {msg p : Str} (h : Fine isMark max msg) (hm : 2 ≤ max)
    (hp : p ∈ pieces (max - 1) msg) : '\n' ∉ p ∧ p ≠ [] ∧ rstrip p = p := by
  obtain ⟨a, b, e, h1, h2, h3, _⟩ := piecesGo_mem (by omega) _ _ _ (Nat.le_refl _) hp
  refine ⟨fun hx => h.line ?_, h2, rstrip_clean fun x c ex => ?_⟩
  · rw [e]
    exact List.mem_append_left _ (List.mem_append_right _ hx)
  · refine h.clean (a ++ x) c b ?_ ?_
    · rw [e, ex]
      simp only [List.append_assoc, List.cons_append, List.nil_append]
    · rcases h3 with h3 | h3
      · left
        have : (a ++ x).length + 1 = a.length + p.length := by
          rw [ex]
          simp only [List.length_append, List.length_cons, List.length_nil]
          omega
        rw [this, h3]
        obtain ⟨q, hq⟩ := h1
        rw [hq, Nat.mul_comm, Nat.add_mod_right, Nat.mul_mod_left]
      · exact Or.inr h3

theorem recvLines_pieces {ps : List Str} (hp : ∀ p ∈ ps, '\n' ∉ p ∧ p ≠ [] ∧ rstrip p = p) :
    ∀ (k : Nat) (acc r : Str), ps.length < k →
      recvLines k acc ((ps.map (· ++ ['\n'])).flatten ++ '\n' :: r) = .ok (acc ++ ps.flatten, r) := by
  induction ps with
  | nil =>
    intro k acc r hk
    cases k with
    | zero => simp at hk
    | succ k =>
      have e : recv ('\n' :: r) = .ok (rstrip [], r) := recv_line (l := []) (fun h => nomatch h)
      show recvLines (k + 1) acc ('\n' :: r) = _
      unfold recvLines
      rw [e]
      show (if rstrip [] = [] then Except.ok (acc, r) else _) = _
      rw [if_pos (show rstrip [] = [] from rfl), List.flatten_nil, List.append_nil]
  | cons p ps ih =>
    intro k acc r hk
    cases k with
    | zero => simp at hk
    | succ k =>
      obtain ⟨h1, h2, h3⟩ := hp p List.mem_cons_self
      have e : ((p :: ps).map (· ++ ['\n'])).flatten ++ '\n' :: r =
          p ++ '\n' :: ((ps.map (· ++ ['\n'])).flatten ++ '\n' :: r) := by
        rw [List.map_cons, List.flatten_cons]
        simp only [List.append_assoc, List.cons_append, List.nil_append]
      rw [e]
      unfold recvLines
      rw [recv_line h1]
      dsimp only
      rw [h3, if_neg h2, ih (fun q hq => hp q (List.mem_cons_of_mem _ hq)) k _ _
        (by simp only [List.length_cons] at hk; omega), List.flatten_cons, List.append_assoc]

theorem pieces_length (n : Nat) (s : Str) : (pieces n s).length ≤ s.length := by
  unfold pieces
  have : ∀ (k : Nat) (s : Str), (piecesGo n k s).length ≤ k := by
    intro k
    induction k with
    | zero => intro s; exact Nat.le_refl _
    | succ k ih =>
      intro s
      cases s with
      | nil => exact Nat.zero_le _
      | cons c s =>
        unfold piecesGo
        rw [List.length_cons]
        have := ih ((c :: s).drop n)
        omega
  exact this _ _

/-- The stream that a long message is written as. -/
theorem written_long {max : Nat} {msg : Str} (hl : ¬ msg.length < max - 1) (r : Str) :
    written max msg ++ r = marker ++ '\n' :: (((pieces (max - 1) msg).map (· ++ ['\n'])).flatten ++ '\n' :: r) := by
  unfold written chunkify
  rw [if_neg hl]
  simp only [List.flatten_append, List.flatten_cons, List.flatten_nil, List.append_nil, List.append_assoc,
    List.cons_append, List.nil_append]

theorem marker_line : '\n' ∉ marker := by decide

theorem marker_rstrip : rstrip marker = marker := by decide +kernel

theorem lines_length : ∀ (ps : List Str), ps.length ≤ ((ps.map (· ++ ['\n'])).flatten).length
  | [] => Nat.le_refl _
  | p :: ps => by
    have := lines_length ps
    simp only [List.map_cons, List.flatten_cons, List.length_append, List.length_cons, List.length_nil]
    omega

/-- **What is sent is received**, and what comes after it is left on the stream. -/
theorem received_partial {isMark : Str → Bool} (hk : isMark marker = true) {max : Nat} (hm : 2 ≤ max) {msg : Str}
    (h : Fine isMark max msg) (r : Str) : recvMessage isMark (written max msg ++ r) = .ok (msg, r) := by
  by_cases hl : msg.length < max - 1
  · have e : written max msg ++ r = msg ++ '\n' :: r := by
      unfold written chunkify
      rw [if_pos hl]
      simp only [List.flatten_cons, List.flatten_nil, List.append_nil, List.append_assoc, List.cons_append,
        List.nil_append]
    unfold recvMessage
    rw [e, recv_line h.line, rstrip_clean h.ends]
    dsimp only
    rw [h.mark]
    rfl
  · rw [written_long hl]
    unfold recvMessage
    rw [recv_line marker_line, marker_rstrip]
    dsimp only
    rw [if_pos hk, recvLines_pieces (fun p hp => h.piece hm hp) _ _ _ ?_, List.nil_append]
    · have : (pieces (max - 1) msg).flatten = msg := piecesGo_eq (by omega) _ _ (Nat.le_refl _)
      rw [this]
    · have := lines_length (pieces (max - 1) msg)
      rw [List.length_append]
      omega

/-- **Messages one after the other.** -/
theorem all_received_partial {isMark : Str → Bool} (hk : isMark marker = true) {max : Nat} (hm : 2 ≤ max) :
    ∀ (ms : List Str), (∀ m ∈ ms, Fine isMark max m) → ∀ k, ms.length ≤ k →
      recvAll isMark k (ms.flatMap (written max)) = ms
  | [], _, k, _ => by
    cases k with
    | zero => rfl
    | succ k => rfl
  | m :: ms, h, 0, hl => by simp at hl
  | m :: ms, h, k + 1, hl => by
    unfold recvAll
    rw [List.flatMap_cons, received_partial hk hm (h m List.mem_cons_self)]
    dsimp only
    rw [all_received_partial hk hm ms (fun x hx => h x (List.mem_cons_of_mem _ hx)) k
      (by simp only [List.length_cons] at hl; omega)]

/-- A reader that knows the announcement as it is written. -/
def isM (s : Str) : Bool := s == marker

/-- A message with a space in it, that is cut beside it. -/
theorem fine_example : Fine isM 5 "{\"a\": 12}".toList where
  line := by decide
  mark := by decide
  clean := by
    intro a c b e h
    have hl : a.length < 9 := by
      have := congrArg List.length e
      simp only [List.length_append, List.length_cons] at this
      have h9 : "{\"a\": 12}".toList.length = 9 := by decide
      omega
    have hc : "{\"a\": 12}".toList[a.length]? = some c := by
      rw [e, List.getElem?_append_right (Nat.le_refl _), Nat.sub_self]
      rfl
    have hb : b = [] → a.length = 8 := by
      intro hb
      subst hb
      have := congrArg List.length e
      simp only [List.length_append, List.length_cons, List.length_nil] at this
      have h9 : "{\"a\": 12}".toList.length = 9 := by decide
      omega
    generalize a.length = n at *
    have : ∀ m, m < 9 → ((m + 1) % 4 = 0 ∨ m = 8) → (("{\"a\": 12}".toList[m]?).map isWs) = some false := by
      decide
    have h2 := this n hl (h.imp (fun x => x) hb)
    rw [hc] at h2
    exact Option.some.inj h2

example : written 5 "{\"a\": 12}".toList = marker ++ "\n{\"a\"\n: 12\n}\n\n".toList ∧
    recvAll isM 9 (written 5 "{\"a\": 12}".toList ++ written 50 "{}".toList) =
      ["{\"a\": 12}".toList, "{}".toList] := by decide +kernel

/-- **Lines fit into the buffer of the reader**: none is longer than the maximum, line end included. -/
theorem line_length {max : Nat} (hm : 23 ≤ max) {msg l : Str} (h : l ∈ chunkify msg max) : l.length ≤ max := by
  unfold chunkify at h
  by_cases hl : msg.length < max - 1
  · rw [if_pos hl, List.mem_singleton] at h
    rw [h, List.length_append, List.length_singleton]
    omega
  · rw [if_neg hl] at h
    rcases List.mem_append.1 h with h | h
    · rcases List.mem_append.1 h with h | h
      · rw [List.mem_singleton.1 h]
        have : (marker ++ ['\n']).length = 23 := by decide
        omega
      · obtain ⟨p, hp, rfl⟩ := List.mem_map.1 h
        obtain ⟨_, _, _, _, _, _, h4⟩ := piecesGo_mem (by omega) _ _ _ (Nat.le_refl _) hp
        rw [List.length_append, List.length_singleton]
        omega
    · rw [List.mem_singleton.1 h]
      show 1 ≤ max
      omega

/-! ## A writer that is cut off -/

theorem recvLines_cut {ps : List Str} (hp : ∀ p ∈ ps, '\n' ∉ p ∧ p ≠ [] ∧ rstrip p = p) :
    ∀ (k : Nat) (acc t : Str), t <+: (ps.map (· ++ ['\n'])).flatten → ∃ e, recvLines k acc t = .error e := by
  induction ps with
  | nil =>
    intro k acc t ht
    cases k with
    | zero => exact ⟨_, rfl⟩
    | succ k =>
      have : t = [] := List.prefix_nil.1 ht
      subst this
      exact ⟨.closed, rfl⟩
  | cons p ps ih =>
    intro k acc t ht
    cases k with
    | zero => exact ⟨_, rfl⟩
    | succ k =>
      obtain ⟨h1, h2, h3⟩ := hp p List.mem_cons_self
      have e : ((p :: ps).map (· ++ ['\n'])).flatten = p ++ '\n' :: (ps.map (· ++ ['\n'])).flatten := by
        rw [List.map_cons, List.flatten_cons]
        simp only [List.append_assoc, List.cons_append, List.nil_append]
      rw [e] at ht
      by_cases hl : t.length ≤ p.length
      · have hn : '\n' ∉ t := fun hx =>
          h1 ((List.prefix_of_prefix_length_le ht ⟨_, rfl⟩ hl).subset hx)
        obtain ⟨er, he⟩ := recv_cut hn
        unfold recvLines
        rw [he]
        exact ⟨er, rfl⟩
      · have h5 : p ++ ['\n'] <+: t := by
          refine List.prefix_of_prefix_length_le (l₃ := p ++ '\n' :: (ps.map (· ++ ['\n'])).flatten) ?_ ht ?_
          · exact ⟨(ps.map (· ++ ['\n'])).flatten, by simp⟩
          · rw [List.length_append, List.length_singleton]; omega
        obtain ⟨t', rfl⟩ := h5
        have ht' : t' <+: (ps.map (· ++ ['\n'])).flatten := by
          have e2 : p ++ ['\n'] ++ t' = p ++ '\n' :: t' := by simp
          rw [e2] at ht
          exact ((List.cons_prefix_cons.1 ((List.prefix_append_right_inj p).1 ht))).2
        have e2 : p ++ ['\n'] ++ t' = p ++ '\n' :: t' := by simp
        rw [e2]
        unfold recvLines
        rw [recv_line h1]
        dsimp only
        rw [h3, if_neg h2]
        exact ih (fun q hq => hp q (List.mem_cons_of_mem _ hq)) k _ _ ht'

/-- **No half messages.** If the writer is cut off within a message, the reader gets an error, not a part of
the message. -/
theorem cut_off {isMark : Str → Bool} (hk : isMark marker = true) {max : Nat} (hm : 2 ≤ max) {msg : Str}
    (h : Fine isMark max msg) {t : Str} (ht : t <+: written max msg) (hne : t ≠ written max msg) :
    ∃ e, recvMessage isMark t = .error e := by
  have hlt : t.length < (written max msg).length :=
    Nat.lt_of_le_of_ne ht.length_le fun e => hne (ht.eq_of_length e)
  by_cases hl : msg.length < max - 1
  · have e : written max msg = msg ++ ['\n'] := by
      unfold written chunkify
      rw [if_pos hl, List.flatten_cons, List.flatten_nil, List.append_nil]
    rw [e] at ht hlt
    have hp : t <+: msg := List.prefix_of_prefix_length_le ht ⟨_, rfl⟩
      (by rw [List.length_append, List.length_singleton] at hlt; omega)
    obtain ⟨er, he⟩ := recv_cut fun hx => h.line (hp.subset hx)
    unfold recvMessage
    rw [he]
    exact ⟨er, rfl⟩
  · have e := written_long hl []
    rw [List.append_nil] at e
    rw [e] at ht hlt
    by_cases h1 : t.length ≤ marker.length
    · have hp : t <+: marker := List.prefix_of_prefix_length_le ht ⟨_, rfl⟩ h1
      obtain ⟨er, he⟩ := recv_cut fun hx => marker_line (hp.subset hx)
      unfold recvMessage
      rw [he]
      exact ⟨er, rfl⟩
    · have h5 : marker ++ ['\n'] <+: t := by
        refine List.prefix_of_prefix_length_le
          (l₃ := marker ++ '\n' :: (((pieces (max - 1) msg).map (· ++ ['\n'])).flatten ++ ['\n'])) ?_ ht ?_
        · exact ⟨((pieces (max - 1) msg).map (· ++ ['\n'])).flatten ++ ['\n'],
            by rw [List.append_assoc]; rfl⟩
        · rw [List.length_append, List.length_singleton]; omega
      obtain ⟨t', rfl⟩ := h5
      have e2 : marker ++ ['\n'] ++ t' = marker ++ '\n' :: t' := by rw [List.append_assoc]; rfl
      rw [e2] at ht hlt ⊢
      have ht' := (List.cons_prefix_cons.1 ((List.prefix_append_right_inj marker).1 ht)).2
      have hlt' : t'.length < (((pieces (max - 1) msg).map (· ++ ['\n'])).flatten ++ ['\n']).length := by
        rw [List.length_append, List.length_append, List.length_cons, List.length_cons] at hlt
        omega
      have hp : t' <+: ((pieces (max - 1) msg).map (· ++ ['\n'])).flatten :=
        List.prefix_of_prefix_length_le ht' ⟨_, rfl⟩
          (by rw [List.length_append, List.length_singleton] at hlt'; omega)
      obtain ⟨er, he⟩ := recvLines_cut (fun p hp => h.piece hm hp) (t'.length + 1) [] t' hp
      unfold recvMessage
      rw [recv_line marker_line, marker_rstrip]
      dsimp only
      rw [if_pos hk, he]
      exact ⟨er, rfl⟩

/-- **At any point.** However much of what was written arrives, the reader gets the first of the messages,
each as a whole, and nothing else. -/
theorem any_cut_partial {isMark : Str → Bool} (hk : isMark marker = true) {max : Nat} (hm : 2 ≤ max) :
    ∀ (ms : List Str), (∀ m ∈ ms, Fine isMark max m) → ∀ (k : Nat) (t : Str), t <+: ms.flatMap (written max) →
      recvAll isMark k t <+: ms
  | _, _, 0, _, _ => List.nil_prefix
  | [], _, k + 1, t, ht => by
    have : t = [] := List.prefix_nil.1 ht
    subst this
    exact List.nil_prefix
  | m :: ms, h, k + 1, t, ht => by
    rw [List.flatMap_cons] at ht
    by_cases hl : t.length < (written max m).length
    · have hp : t <+: written max m := List.prefix_of_prefix_length_le ht ⟨_, rfl⟩ (by omega)
      obtain ⟨er, he⟩ := cut_off hk hm (h m List.mem_cons_self) hp (by rintro rfl; omega)
      unfold recvAll
      rw [he]
      exact List.nil_prefix
    · obtain ⟨t', rfl⟩ : written max m <+: t := List.prefix_of_prefix_length_le ⟨_, rfl⟩ ht (by omega)
      unfold recvAll
      rw [received_partial hk hm (h m List.mem_cons_self)]
      dsimp only
      exact List.cons_prefix_cons.2 ⟨rfl, any_cut_partial hk hm ms (fun x hx => h x (List.mem_cons_of_mem _ hx)) k t'
        ((List.prefix_append_right_inj _).1 ht)⟩

/-! ## Where it goes wrong -/

/-- The full claim is false: a line is read without the white space at its end, so that a space at the place
where a long message is cut is lost, also with the maximum that is used. -/
theorem space_lost {isMark : Str → Bool} (hk : isMark marker = true) {max : Nat} {a b : Str} (hm : 3 ≤ max)
    (ha : a.length + 2 = max) (hb : b.length ≤ max - 1) (hbn : b ≠ []) (hna : '\n' ∉ a) (hnb : '\n' ∉ b)
    (ca : EndsClean a) (cb : EndsClean b) (r : Str) :
    recvMessage isMark (written max (a ++ ' ' :: b) ++ r) = .ok (a ++ b, r) := by
  have hl : ¬ (a ++ ' ' :: b).length < max - 1 := by
    rw [List.length_append, List.length_cons]; omega
  have hane : a ≠ [] := by rintro rfl; simp at ha; omega
  have hp : pieces (max - 1) (a ++ ' ' :: b) = [a ++ [' '], b] := by
    have e1 : a ++ ' ' :: b = (a ++ [' ']) ++ b := by rw [List.append_assoc]; rfl
    have hlen : (a ++ [' ']).length = max - 1 := by rw [List.length_append, List.length_singleton]; omega
    have step : ∀ (k : Nat) (s : Str), s ≠ [] → piecesGo (max - 1) (k + 1) s =
        s.take (max - 1) :: piecesGo (max - 1) k (s.drop (max - 1)) := by
      intro k s hs
      cases s with
      | nil => exact absurd rfl hs
      | cons c s => rfl
    obtain ⟨k, hk'⟩ : ∃ k, (a ++ ' ' :: b).length = k + 2 := by
      refine ⟨(a ++ ' ' :: b).length - 2, ?_⟩
      have := List.length_pos_iff.2 hbn
      rw [List.length_append, List.length_cons]
      omega
    unfold pieces
    rw [hk', e1, step (k + 1) _ (by simp), List.take_append_of_le_length (by omega),
      List.take_of_length_le (by omega), List.drop_append_of_le_length (by omega),
      List.drop_of_length_le (by omega), List.nil_append, step k b hbn, List.take_of_length_le hb,
      List.drop_of_length_le hb]
    cases k <;> rfl
  rw [written_long hl, hp]
  unfold recvMessage
  rw [recv_line marker_line, marker_rstrip]
  dsimp only
  rw [if_pos hk]
  have e3 : (([a ++ [' '], b].map (· ++ ['\n'])).flatten ++ '\n' :: r) =
      (a ++ [' ']) ++ '\n' :: (b ++ '\n' :: ('\n' :: r)) := by
    simp only [List.map_cons, List.map_nil, List.flatten_cons, List.flatten_nil, List.append_nil,
      List.append_assoc, List.cons_append, List.nil_append]
  rw [e3]
  have hna' : '\n' ∉ a ++ [' '] := by
    intro h
    rcases List.mem_append.1 h with h | h
    · exact hna h
    · exact absurd (List.mem_singleton.1 h) (by decide)
  have hlen3 : ∃ k, (a ++ [' '] ++ '\n' :: (b ++ '\n' :: '\n' :: r)).length + 1 = k + 3 :=
    ⟨a.length + b.length + r.length + 2, by
      simp only [List.length_append, List.length_cons, List.length_nil]; omega⟩
  obtain ⟨k, hk3⟩ := hlen3
  rw [hk3]
  have s1 : recvLines (k + 3) [] (a ++ [' '] ++ '\n' :: (b ++ '\n' :: '\n' :: r)) =
      recvLines (k + 2) ([] ++ a) (b ++ '\n' :: '\n' :: r) := by
    conv => lhs; unfold recvLines
    rw [recv_line hna', rstrip_sp ca]
    dsimp only
    rw [if_neg hane]
  have s2 : recvLines (k + 2) ([] ++ a) (b ++ '\n' :: '\n' :: r) =
      recvLines (k + 1) ([] ++ a ++ b) ('\n' :: r) := by
    conv => lhs; unfold recvLines
    rw [recv_line hnb, rstrip_clean cb]
    dsimp only
    rw [if_neg hbn]
  rw [s1, s2]
  rfl

example : recvAll isM 1 (written 21 "{\"owner\": \"some one who has a name\"}".toList) =
    ["{\"owner\": \"some onewho has a name\"}".toList] := by decide +kernel

/-- A piece of white space only ends the message before its end: the rest is taken for further messages. -/
theorem blank_ends : recvAll isM 9 (written 4 "{\"a   b\"}".toList) = ["{\"a".toList, "b\"}".toList, []] := by
  decide +kernel

end Bb.Chunk
