import Verif.Bb.PipeModel

/- Lemmas about places in bytes, and about reading in pieces. -/

namespace Bb.Pipe

theorem positions_short {pat : Bytes} : ∀ {q : Bytes}, q.length < pat.length → positions pat q = []
  | [], h => by
    unfold positions
    rw [if_neg]
    intro e; rw [e] at h; exact absurd h (Nat.lt_irrefl 0)
  | x :: q, h => by
    unfold positions
    rw [if_neg, positions_short (q := q) (Nat.lt_of_succ_lt h)]
    · rfl
    · intro hp
      exact absurd (List.isPrefixOf_iff_prefix.1 hp).length_le (Nat.not_le.2 h)

/-- Places in the first part come first. -/
theorem positions_append (pat b : Bytes) (hp : pat ≠ []) : ∀ (a : Bytes), ∃ l, (∀ i ∈ l, i < a.length) ∧
    positions pat (a ++ b) = l ++ (positions pat b).map (· + a.length)
  | [] => ⟨[], nofun, by rw [List.nil_append, List.nil_append]; exact (List.map_id _).symm⟩
  | x :: a => by
    obtain ⟨l, h1, h2⟩ := positions_append pat b hp a
    have hm : ((positions pat b).map (· + a.length)).map (· + 1) = (positions pat b).map (· + (x :: a).length) := by
      rw [List.map_map]; rfl
    have hl : ∀ i ∈ l.map (· + 1), i < (x :: a).length := by
      intro i hi
      obtain ⟨j, hj, rfl⟩ := List.mem_map.1 hi
      exact Nat.succ_lt_succ (h1 j hj)
    have e : positions pat (x :: a ++ b) = if pat.isPrefixOf (x :: (a ++ b)) then 0 :: (positions pat (a ++ b)).map (· + 1)
      else (positions pat (a ++ b)).map (· + 1) := rfl
    rw [e, h2, List.map_append, hm]
    split
    · refine ⟨0 :: l.map (· + 1), fun i hi => ?_, rfl⟩
      rcases List.mem_cons.1 hi with rfl | hi
      · exact Nat.succ_pos _
      · exact hl i hi
    · exact ⟨_, hl, rfl⟩

/-- More bytes do not change what was found. -/
theorem positions_more {pat : Bytes} (hp : pat ≠ []) (c : Bytes) : ∀ (q : Bytes), ∃ z, positions pat (q ++ c) = positions pat q ++ z
  | [] => ⟨positions pat c, by rw [List.nil_append]; unfold positions; rw [if_neg hp]; rfl⟩
  | x :: q => by
    obtain ⟨z, hz⟩ := positions_more hp c q
    by_cases h : pat.isPrefixOf (x :: q) = true
    · refine ⟨z.map (· + 1), ?_⟩
      have h' : pat.isPrefixOf (x :: (q ++ c)) = true := List.isPrefixOf_iff_prefix.2 ((List.isPrefixOf_iff_prefix.1 h).trans ⟨c, rfl⟩)
      rw [List.cons_append]
      conv => lhs; unfold positions
      conv => rhs; unfold positions
      rw [if_pos h, if_pos h', hz, List.map_append]; rfl
    · by_cases h' : pat.isPrefixOf (x :: (q ++ c)) = true
      · have hq : q.length < pat.length := by
          apply Nat.lt_of_not_le
          intro hle
          rcases Nat.lt_or_ge q.length (pat.length) with h1 | h1
          · exact absurd hle (Nat.not_le.2 h1)
          · exact h (List.isPrefixOf_iff_prefix.2 (List.prefix_of_prefix_length_le (List.isPrefixOf_iff_prefix.1 h') ⟨c, rfl⟩
              (Nat.le_trans h1 (Nat.le_succ _))))
        rcases Nat.lt_or_ge (x :: q).length pat.length with h1 | h1
        · rw [positions_short h1]; exact ⟨_, rfl⟩
        · exact absurd (List.isPrefixOf_iff_prefix.2 (List.prefix_of_prefix_length_le (List.isPrefixOf_iff_prefix.1 h') ⟨c, rfl⟩ h1)) h
      · refine ⟨z.map (· + 1), ?_⟩
        rw [List.cons_append]
        conv => lhs; unfold positions
        conv => rhs; unfold positions
        rw [if_neg h, if_neg h', hz, List.map_append]

/-- A place is where the bytes are. -/
theorem positions_at {pat : Bytes} (hp : pat ≠ []) : ∀ {q : Bytes} {i : Nat}, i ∈ positions pat q → ∃ a b, a.length = i ∧ q = a ++ pat ++ b
  | [], i, h => by unfold positions at h; rw [if_neg hp] at h; exact nomatch h
  | x :: q, i, h => by
    have tail : i ∈ (positions pat q).map (· + 1) → ∃ a b, a.length = i ∧ x :: q = a ++ pat ++ b := by
      intro h
      obtain ⟨j, hj, rfl⟩ := List.mem_map.1 h
      obtain ⟨a, b, h1, h2⟩ := positions_at hp hj
      exact ⟨x :: a, b, by rw [List.length_cons, h1], by rw [h2]; rfl⟩
    unfold positions at h
    split at h
    · rename_i hpre
      rcases List.mem_cons.1 h with rfl | h
      · obtain ⟨b, hb⟩ := List.isPrefixOf_iff_prefix.1 hpre
        exact ⟨[], b, rfl, hb.symm⟩
      · exact tail h
    · exact tail h

theorem positions_end {pat : Bytes} (hp : pat ≠ []) {q : Bytes} {i : Nat} (h : i ∈ positions pat q) : i + pat.length ≤ q.length := by
  obtain ⟨a, b, h1, h2⟩ := positions_at hp h
  rw [h2, List.length_append, List.length_append, h1]
  exact Nat.le_add_right _ _

theorem positions_self (pat r : Bytes) (hp : pat ≠ []) : ∃ z, positions pat (pat ++ r) = 0 :: z := by
  cases pat with
  | nil => exact absurd rfl hp
  | cons x t =>
    rw [List.cons_append]
    unfold positions
    rw [if_pos (List.isPrefixOf_iff_prefix.2 (show x :: t <+: x :: (t ++ r) from ⟨r, rfl⟩))]
    exact ⟨_, rfl⟩

/-- Bytes whose first one occurs only there do not begin before a place and end after it. -/
theorem no_straddle {x : Nat} {t b y : Bytes} (hx : x ∉ t) (hb : b ≠ []) (hy : y = [] ∨ y.head? = some x)
    (h : x :: t <+: b ++ y) : x :: t <+: b := by
  rcases Nat.lt_or_ge b.length (x :: t).length with hl | hl
  · exfalso
    have hbp : b <+: x :: t := List.prefix_of_prefix_length_le ⟨y, rfl⟩ h (Nat.le_of_lt hl)
    obtain ⟨z, hz⟩ := hbp
    cases b with
    | nil => exact hb rfl
    | cons b0 b =>
      have hzt : b ++ z = t := (List.cons.inj hz).2
      obtain ⟨w, hw⟩ := h
      rw [← hz, List.append_assoc] at hw
      have hzw : z ++ w = y := List.append_cancel_left hw
      cases z with
      | nil => rw [← hz, List.append_nil] at hl; exact absurd hl (Nat.lt_irrefl _)
      | cons z0 z =>
        rcases hy with rfl | hy
        · exact nomatch hzw
        · rw [← hzw] at hy
          have : z0 = x := Option.some.inj hy
          exact hx (hzt ▸ List.mem_append_right _ (this ▸ List.mem_cons_self))
  · exact List.prefix_of_prefix_length_le h ⟨y, rfl⟩ hl

theorem positions_skip {x : Nat} {t y : Bytes} (hx : x ∉ t) (hy : y = [] ∨ y.head? = some x) :
    ∀ {pre : Bytes}, ¬ x :: t <:+: pre → positions (x :: t) (pre ++ y) = (positions (x :: t) y).map (· + pre.length)
  | [], _ => by rw [List.nil_append]; exact (List.map_id _).symm
  | p :: pre, hp => by
    have h1 : ¬ x :: t <:+: pre := fun ⟨a, b, h⟩ => hp ⟨p :: a, b, by rw [← h]; rfl⟩
    rw [List.cons_append]
    conv => lhs; unfold positions
    rw [if_neg, positions_skip hx hy h1, List.map_map]
    · rfl
    · intro h
      have := no_straddle (b := p :: pre) hx (by exact nofun) hy (List.isPrefixOf_iff_prefix.1 h)
      exact hp this.isInfix

/-- The first place. -/
theorem find_first {x : Nat} {t pre r : Bytes} (hx : x ∉ t) (hp : ¬ x :: t <:+: pre) :
    (positions (x :: t) (pre ++ (x :: t) ++ r)).head? = some pre.length := by
  rw [List.append_assoc, positions_skip hx (Or.inr rfl) hp]
  obtain ⟨z, hz⟩ := positions_self (x :: t) r nofun
  rw [hz]
  show some (0 + pre.length) = _
  rw [Nat.zero_add]

/-- No place while the bytes are not complete. -/
theorem find_none {x : Nat} {t pre s : Bytes} (hx : x ∉ t) (hp : ¬ x :: t <:+: pre) (hs : s <+: x :: t) (hn : s ≠ x :: t) :
    positions (x :: t) (pre ++ s) = [] := by
  have hl : s.length < (x :: t).length := Nat.lt_of_le_of_ne hs.length_le fun e => hn (hs.eq_of_length e)
  rw [positions_skip hx _ hp, positions_short hl]
  · rfl
  · cases s with
    | nil => exact Or.inl rfl
    | cons s0 s =>
      obtain ⟨w, hw⟩ := hs
      right
      exact congrArg some (List.cons.inj hw).1

theorem find_none' {x : Nat} {t pre : Bytes} (hx : x ∉ t) (hp : ¬ x :: t <:+: pre) : positions (x :: t) pre = [] := by
  have := find_none (s := []) hx hp (List.nil_prefix) nofun
  rwa [List.append_nil] at this

/-! ### Reading in pieces -/

/-- More bytes do not change what is at the front. -/
structure Mono {M : Type} (next : Bytes → Step M) : Prop where
  msg : ∀ {q m r}, next q = .msg m r → ∀ c, next (q ++ c) = .msg m (r ++ c)
  dead : ∀ {q}, next q = .dead → ∀ c, next (q ++ c) = .dead
  less : ∀ {q m r}, next q = .msg m r → r.length < q.length
  empty : next [] = .wait

section
variable {M : Type} {next : Bytes → Step M}

theorem drain_enough (hm : Mono next) : ∀ (n k : Nat) (q : Bytes), q.length < n → q.length < k → drain next n q = drain next k q
  | 0, _, _, h, _ => absurd h (Nat.not_lt_zero _)
  | _, 0, _, _, h => absurd h (Nat.not_lt_zero _)
  | n + 1, k + 1, q, h1, h2 => by
    unfold drain
    cases hn : next q with
    | wait => rfl
    | dead => rfl
    | msg m r =>
      have hr := hm.less hn
      dsimp only
      rw [drain_enough hm n k r (by omega) (by omega)]

theorem drain_append (hm : Mono next) (c : Bytes) : ∀ (n k : Nat) (q : Bytes), q.length < n → (q ++ c).length < k →
    drain next k (q ++ c) = (match (drain next n q).2 with
      | none => drain next n q
      | some r => ((drain next n q).1 ++ (drain next k (r ++ c)).1, (drain next k (r ++ c)).2))
  | 0, _, _, h, _ => absurd h (Nat.not_lt_zero _)
  | _, 0, _, _, h => absurd h (Nat.not_lt_zero _)
  | n + 1, k + 1, q, h1, h2 => by
    have e : drain next (n + 1) q = (match next q with
      | .wait => ([], some q)
      | .dead => ([], none)
      | .msg m r => (m :: (drain next n r).1, (drain next n r).2)) := rfl
    cases hn : next q with
    | wait => rw [e, hn]; rfl
    | dead =>
      have := hm.dead hn c
      rw [e, hn]
      dsimp only
      unfold drain
      rw [this]
    | msg m r =>
      have hr := hm.less hn
      have h3 := hm.msg hn c
      rw [List.length_append] at h2
      have ih := drain_append hm c n (k + 1) r (by omega) (by rw [List.length_append]; omega)
      have e2 : drain next (k + 1) (q ++ c) = (m :: (drain next k (r ++ c)).1, (drain next k (r ++ c)).2) := by
        conv => lhs; unfold drain
        rw [h3]
      have h4 := drain_enough hm k (k + 1) (r ++ c) (by rw [List.length_append]; omega) (by rw [List.length_append]; omega)
      rw [e2, e, hn, h4, ih]
      dsimp only
      cases hd : (drain next n r).2 with
      | none => dsimp only; rw [hd]
      | some r' => rfl

/-- What is read does not depend on the pieces. -/
theorem feed_flatten (hm : Mono next) : ∀ (cs : List Bytes), cs.foldl (feed next) ([], some []) = feed next ([], some []) cs.flatten := by
  have two : ∀ (st : List M × Option Bytes) (a b : Bytes), feed next (feed next st a) b = feed next st (a ++ b) := by
    intro st a b
    obtain ⟨o, q⟩ := st
    cases q with
    | none => rfl
    | some q =>
      have h := drain_append hm b ((q ++ a).length + 1) ((q ++ (a ++ b)).length + 1) (q ++ a) (Nat.lt_succ_self _)
        (by rw [List.append_assoc]; exact Nat.lt_succ_self _)
      rw [List.append_assoc] at h
      unfold feed
      dsimp only
      rw [h]
      cases hd : (drain next ((q ++ a).length + 1) (q ++ a)).2 with
      | none => dsimp only; rw [hd]
      | some r =>
        dsimp only
        have hl : (drain next ((q ++ a).length + 1) (q ++ a)).2 = some r → r.length ≤ (q ++ a).length := by
          have : ∀ (n : Nat) (q r : Bytes), (drain next n q).2 = some r → r.length ≤ q.length := by
            intro n
            induction n with
            | zero => intro q r h; exact Nat.le_of_eq (congrArg List.length (Option.some.inj h)).symm
            | succ n ih =>
              intro q r h
              unfold drain at h
              cases hn : next q with
              | wait => rw [hn] at h; exact Nat.le_of_eq (congrArg List.length (Option.some.inj h)).symm
              | dead => rw [hn] at h; exact nomatch h
              | msg m r' =>
                rw [hn] at h
                exact Nat.le_trans (ih r' r h) (Nat.le_of_lt (hm.less hn))
          exact this _ _ _
        have hl := hl hd
        rw [List.length_append] at hl
        rw [drain_enough hm ((q ++ (a ++ b)).length + 1) ((r ++ b).length + 1) (r ++ b)
          (by simp only [List.length_append]; omega) (Nat.lt_succ_self _), List.append_assoc]
  have key : ∀ (cs : List Bytes) (st : List M × Option Bytes), (∀ st', st' = st → feed next st [] = st) → cs.foldl (feed next) st = feed next st cs.flatten := by
    intro cs
    induction cs with
    | nil => intro st h; exact (h st rfl).symm
    | cons c cs ih =>
      intro st h
      rw [List.foldl_cons, List.flatten_cons, ← two]
      refine ih _ fun _ _ => ?_
      rw [two, List.append_nil]
  intro cs
  refine key cs _ fun _ _ => ?_
  show (match next [] with
      | .wait => (([], some []) : List M × Option Bytes)
      | .dead => ([], none)
      | .msg m r => (m :: (drain next 0 r).1, (drain next 0 r).2)) = _
  rw [hm.empty]

/-- Whole messages are read, and parts of them are not. -/
structure Codec (next : Bytes → Step M) (frame : M → Bytes) (good : M → Prop) : Prop where
  full : ∀ {m}, good m → ∀ r, next (frame m ++ r) = .msg m r
  part : ∀ {m}, good m → ∀ {p}, p <+: frame m → p ≠ frame m → next p = .wait

variable {frame : M → Bytes} {good : M → Prop}

/-- A part of the bytes of messages gives the messages that are complete in it. -/
theorem drain_prefix (hm : Mono next) (hc : Codec next frame good) : ∀ (ms : List M) (q : Bytes) (n : Nat), q.length < n → (∀ m ∈ ms, good m) →
    q <+: ms.flatMap frame → ∃ done ms' rest, ms = done ++ ms' ∧ q = done.flatMap frame ++ rest ∧ drain next n q = (done, some rest) ∧
      (∀ m ∈ ms'.head?, rest <+: frame m ∧ rest ≠ frame m) ∧ (ms' = [] → rest = [])
  | _, _, 0, h, _, _ => absurd h (Nat.not_lt_zero _)
  | [], q, n + 1, _, _, hq => by
    have : q = [] := List.prefix_nil.1 hq
    subst this
    refine ⟨[], [], [], rfl, rfl, ?_, nofun, fun _ => rfl⟩
    unfold drain
    rw [hm.empty]
  | m :: ms, q, n + 1, hn, hg, hq => by
    have hgm := hg m List.mem_cons_self
    rw [List.flatMap_cons] at hq
    rcases Nat.lt_or_ge q.length (frame m).length with hl | hl
    · have hp : q <+: frame m := List.prefix_of_prefix_length_le hq ⟨_, rfl⟩ (Nat.le_of_lt hl)
      have hne : q ≠ frame m := fun e => absurd hl (by rw [e]; exact Nat.lt_irrefl _)
      refine ⟨[], m :: ms, q, rfl, rfl, ?_, ?_, nofun⟩
      · unfold drain
        rw [hc.part hgm hp hne]
      · intro m' h
        cases h
        exact ⟨hp, hne⟩
    · obtain ⟨r, hr⟩ : frame m <+: q := List.prefix_of_prefix_length_le ⟨_, rfl⟩ hq hl
      subst hr
      have hr : r <+: ms.flatMap frame := (List.prefix_append_right_inj _).1 hq
      have hnx := hc.full hgm r
      have hless := hm.less hnx
      obtain ⟨done, ms', rest, h1, h2, h3, h4, h5⟩ := drain_prefix hm hc ms r n (by omega) (fun m' h => hg m' (List.mem_cons_of_mem _ h)) hr
      refine ⟨m :: done, ms', rest, by rw [h1]; rfl, by rw [List.flatMap_cons, List.append_assoc, ← h2], ?_, h4, h5⟩
      unfold drain
      rw [hnx]
      dsimp only
      rw [h3]

/-- Then all messages are read, in any pieces. -/
theorem feed_prefix (hm : Mono next) (hc : Codec next frame good) {ms : List M} (hg : ∀ m ∈ ms, good m) {cs : List Bytes}
    (hq : cs.flatten <+: ms.flatMap frame) : ∃ done ms' rest, ms = done ++ ms' ∧ cs.flatten = done.flatMap frame ++ rest ∧
      cs.foldl (feed next) ([], some []) = (done, some rest) ∧ (cs.flatten = ms.flatMap frame → done = ms ∧ rest = []) := by
  obtain ⟨done, ms', rest, h1, h2, h3, h4, h5⟩ := drain_prefix hm hc ms cs.flatten (cs.flatten.length + 1) (Nat.lt_succ_self _) hg hq
  refine ⟨done, ms', rest, h1, h2, ?_, fun he => ?_⟩
  · rw [feed_flatten hm]
    unfold feed
    dsimp only
    rw [List.nil_append, List.nil_append, h3]
  · cases ms' with
    | nil => rw [List.append_nil] at h1; exact ⟨h1.symm, h5 rfl⟩
    | cons m ms' =>
      exfalso
      obtain ⟨h6, h7⟩ := h4 m rfl
      rw [h1, List.flatMap_append, List.flatMap_cons] at he
      rw [he] at h2
      have h8 := List.append_cancel_left h2
      have h9 := h6.length_le
      have : rest.length = (frame m).length := by
        have := congrArg List.length h8
        rw [List.length_append] at this
        omega
      exact h7 (h6.eq_of_length this)

end

end Bb.Pipe
