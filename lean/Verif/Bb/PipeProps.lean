import Verif.Bb.PipeLemmas

/- C154: messages between the cooker, the worker and the tasks. -/

namespace Bb.Pipe

/-! ### Tags -/

/-- A name that may be in a tag. -/
structure Name (n : Bytes) : Prop where
  lt : 60 ∉ n
  gt : 62 ∉ n
  slash : 47 ∉ n

theorem name_ev : Name evName := ⟨by decide, by decide, by decide⟩
theorem name_ex : Name exName := ⟨by decide, by decide, by decide⟩

theorem closing_tail {n : Bytes} (h : Name n) : 60 ∉ 47 :: (n ++ [62]) := by
  intro hm
  rcases List.mem_cons.1 hm with h1 | h1
  · exact absurd h1 (by decide)
  · rcases List.mem_append.1 h1 with h1 | h1
    · exact h.lt h1
    · exact absurd (List.mem_singleton.1 h1) (by decide)

theorem opening_tail {n : Bytes} (h : Name n) : 60 ∉ n ++ [62] := fun hm => closing_tail h (List.mem_cons_of_mem _ hm)

theorem infix_cons {x y : Nat} {t p : Bytes} (h : x :: t <:+: y :: p) (hn : ¬ x :: t <+: y :: p) : x :: t <:+: p := by
  obtain ⟨a, b, h⟩ := h
  cases a with
  | nil => exact absurd ⟨b, h⟩ hn
  | cons a0 a => exact ⟨a, b, (List.cons.inj h).2⟩

theorem infix_skip {x : Nat} {t p : Bytes} : ∀ {a : Bytes}, x ∉ a → x :: t <:+: a ++ p → x :: t <:+: p
  | [], _, h => h
  | y :: a, hx, h => by
    refine infix_skip (fun hm => hx (List.mem_cons_of_mem _ hm)) (infix_cons h fun ⟨b, hb⟩ => ?_)
    exact hx ((List.cons.inj hb).1 ▸ List.mem_cons_self)

/-- The closing tag is not found in the opening tag. -/
theorem closing_skip {n p : Bytes} (h : Name n) (hp : ¬ closing n <:+: p) : ¬ closing n <:+: opening n ++ p := by
  intro hi
  refine hp (infix_skip (opening_tail h) (infix_cons (y := 60) hi ?_))
  rintro ⟨b, hb⟩
  have hb := (List.cons.inj hb).2
  cases n with
  | nil => exact absurd (List.cons.inj hb).1 (by decide)
  | cons n0 n => exact h.slash ((List.cons.inj hb).1 ▸ List.mem_cons_self)

/-- Names are told from opening tags. -/
theorem opening_inj {n m : Bytes} (hn : Name n) (hm : Name m) {a b : Bytes} (h : opening n ++ a = opening m ++ b) : n = m := by
  have h := (List.cons.inj h).2
  simp only [List.append_eq, List.append_assoc, List.cons_append, List.nil_append] at h
  have key : ∀ (n m : Bytes), 62 ∉ n → 62 ∉ m → n ++ 62 :: a = m ++ 62 :: b → n = m := by
    intro n
    induction n with
    | nil =>
      intro m _ hm h
      cases m with
      | nil => rfl
      | cons y m => exact absurd ((List.cons.inj h).1 ▸ List.mem_cons_self) hm
    | cons x n ih =>
      intro m hn hm h
      cases m with
      | nil => exact absurd ((List.cons.inj h).1.symm ▸ List.mem_cons_self) hn
      | cons y m =>
        have h := List.cons.inj h
        rw [h.1, ih m (fun hh => hn (List.mem_cons_of_mem _ hh)) (fun hh => hm (List.mem_cons_of_mem _ hh)) h.2]
  exact key n m hn.gt hm.gt h

/-! ### From a task to the worker -/

/-- Bytes in which no tag of events is. -/
def NoTag (p : Bytes) : Prop := ¬ opening evName <:+: p ∧ ¬ closing evName <:+: p

theorem mono_child : Mono childNext where
  empty := rfl
  msg := by
    intro q m r h c
    unfold childNext at h ⊢
    obtain ⟨z, hz⟩ := positions_more (pat := closing evName) nofun c q
    cases hq : (positions (closing evName) q) with
    | nil => rw [hq] at h; exact nomatch h
    | cons i l =>
      have hi : i + 8 ≤ q.length := positions_end (pat := closing evName) nofun (hq ▸ List.mem_cons_self)
      rw [hq] at h
      rw [hz, hq]
      dsimp only [List.head?_cons, List.cons_append] at h ⊢
      rw [List.take_append_of_le_length hi, List.drop_append_of_le_length hi]
      split at h
      · rename_i hc
        rw [if_pos hc]
        cases h
        rfl
      · exact nomatch h
  dead := by
    intro q h c
    unfold childNext at h ⊢
    obtain ⟨z, hz⟩ := positions_more (pat := closing evName) nofun c q
    cases hq : (positions (closing evName) q) with
    | nil => rw [hq] at h; exact nomatch h
    | cons i l =>
      have hi : i + 8 ≤ q.length := positions_end (pat := closing evName) nofun (hq ▸ List.mem_cons_self)
      rw [hq] at h
      rw [hz, hq]
      dsimp only [List.head?_cons, List.cons_append] at h ⊢
      rw [List.take_append_of_le_length hi]
      split at h
      · exact nomatch h
      · rename_i hc
        rw [if_neg hc]
  less := by
    intro q m r h
    unfold childNext at h
    cases hq : (positions (closing evName) q) with
    | nil => rw [hq] at h; exact nomatch h
    | cons i l =>
      have hi : i + 8 ≤ q.length := positions_end (pat := closing evName) nofun (hq ▸ List.mem_cons_self)
      rw [hq] at h
      dsimp only [List.head?_cons] at h
      split at h
      · cases h
        rw [List.length_drop]
        omega
      · exact nomatch h

theorem frame_length (n p : Bytes) : (frame n p).length = (opening n ++ p).length + (n.length + 3) := by
  unfold frame closing
  rw [List.length_append]
  simp only [List.length_cons, List.length_append, List.length_nil]

theorem frame_prefix (n p : Bytes) : opening n <+: frame n p := ⟨p ++ closing n, by unfold frame; rw [List.append_assoc]⟩

/-- The opening tags in a message. -/
theorem count_open {p : Bytes} : positions (opening evName) (frame evName p) =
    0 :: ((positions (opening evName) (evName ++ [62] ++ p ++ closing evName)).map (· + 1)) := by
  show positions (opening evName) (60 :: (evName ++ [62] ++ p ++ closing evName)) = _
  conv => lhs; unfold positions
  rw [if_pos]
  exact List.isPrefixOf_iff_prefix.2 ⟨p ++ closing evName, by unfold opening; simp only [List.cons_append, List.append_assoc]⟩

theorem count_one {p : Bytes} (h : ¬ opening evName <:+: p) : positions (opening evName) (frame evName p) = [0] := by
  rw [count_open]
  have h1 : ¬ opening evName <:+: evName ++ [62] ++ p := fun hi => h (infix_skip (opening_tail name_ev) hi)
  have := positions_skip (y := closing evName) (opening_tail name_ev) (Or.inr rfl) h1
  rw [show positions (opening evName) (evName ++ [62] ++ p ++ closing evName) = _ from this]
  rfl

theorem child_take {p r : Bytes} (hc : ¬ closing evName <:+: p) : (positions (closing evName) (frame evName p ++ r)).head? = some (opening evName ++ p).length :=
  find_first (closing_tail name_ev) (closing_skip name_ev hc)

theorem child_full {p : Bytes} (h : NoTag p) (r : Bytes) : childNext (frame evName p ++ r) = .msg (frame evName p) r := by
  unfold childNext
  rw [child_take h.2]
  dsimp only
  have hl : (opening evName ++ p).length + 8 = (frame evName p).length := by rw [frame_length]; rfl
  rw [hl, List.take_left, List.drop_left, if_pos]
  exact ⟨List.isPrefixOf_iff_prefix.2 (frame_prefix _ _), by rw [count_one h.1]; rfl⟩

/-- Proper parts of `a ++ b` are parts of `a`, or `a` and proper parts of `b`. -/
theorem prefix_cases {a b q : Bytes} (h : q <+: a ++ b) (hn : q ≠ a ++ b) : q <+: a ∨ ∃ s, q = a ++ s ∧ s <+: b ∧ s ≠ b := by
  rcases Nat.lt_or_ge q.length a.length with hl | hl
  · exact Or.inl (List.prefix_of_prefix_length_le h ⟨_, rfl⟩ (Nat.le_of_lt hl))
  · obtain ⟨s, hs⟩ : a <+: q := List.prefix_of_prefix_length_le ⟨_, rfl⟩ h hl
    subst hs
    exact Or.inr ⟨s, rfl, (List.prefix_append_right_inj _).1 h, fun e => hn (by rw [e])⟩

theorem no_close_part {n p q : Bytes} (hn : Name n) (hc : ¬ closing n <:+: p) (hq : q <+: frame n p) (hne : q ≠ frame n p) :
    positions (closing n) q = [] := by
  have h1 := closing_skip hn hc
  rcases prefix_cases hq hne with h | ⟨s, rfl, h2, h3⟩
  · exact find_none' (closing_tail hn) fun hi => h1 (hi.trans h.isInfix)
  · exact find_none (closing_tail hn) h1 h2 h3

theorem codec_child : Codec childNext id (fun m => ∃ p, NoTag p ∧ m = frame evName p) where
  full := by rintro m ⟨p, hp, rfl⟩ r; exact child_full hp r
  part := by
    rintro m ⟨p, hp, rfl⟩ q hq hne
    unfold childNext
    rw [no_close_part name_ev hp.2 hq hne]
    rfl

/-- Against C154: an event in which the opening tag is, such as a message of the log with this text, makes the worker fail. -/
theorem event_opening {p : Bytes} (ho : opening evName <:+: p) (hc : ¬ closing evName <:+: p) (r : Bytes) : childNext (frame evName p ++ r) = .dead := by
  unfold childNext
  rw [child_take hc]
  dsimp only
  have hl : (opening evName ++ p).length + 8 = (frame evName p).length := by rw [frame_length]; rfl
  rw [hl, List.take_left, if_neg]
  rintro ⟨_, h⟩
  rw [count_open] at h
  obtain ⟨a, b, hab⟩ := ho
  obtain ⟨l, _, h2⟩ := positions_append (opening evName) (opening evName ++ (b ++ closing evName)) nofun (evName ++ [62] ++ a)
  obtain ⟨z, hz⟩ := positions_self (opening evName) (b ++ closing evName) nofun
  rw [hz] at h2
  rw [← hab, show evName ++ [62] ++ (a ++ opening evName ++ b) ++ closing evName = evName ++ [62] ++ a ++ (opening evName ++ (b ++ closing evName)) from by
    simp only [List.append_assoc], h2] at h
  simp only [List.map_append, List.length_cons, List.length_append, List.length_map, List.map_cons] at h
  omega

theorem first_split {x : Nat} {t : Bytes} : ∀ {p : Bytes}, x :: t <:+: p → ∃ a b, p = a ++ (x :: t) ++ b ∧
    ∀ c d, a = c ++ d → d ≠ [] → ¬ x :: t <+: d ++ (x :: t) ++ b
  | [], ⟨a, b, h⟩ => by
    have := congrArg List.length h
    simp only [List.length_append, List.length_cons, List.length_nil] at this
    omega
  | y :: p, h => by
    by_cases hp : x :: t <+: y :: p
    · obtain ⟨b, hb⟩ := hp
      exact ⟨[], b, hb.symm, fun c d e hd => absurd (List.append_eq_nil_iff.1 e.symm).2 hd⟩
    · obtain ⟨a, b, h1, h2⟩ := first_split (infix_cons h hp)
      refine ⟨y :: a, b, by rw [h1]; rfl, fun c d e hd => ?_⟩
      cases c with
      | nil =>
        rw [List.nil_append] at e
        rw [← e, List.cons_append, List.cons_append, ← h1]
        exact hp
      | cons c0 c => exact h2 c d (List.cons.inj e).2 hd

/-- Bytes have a first place. -/
theorem first_place {x : Nat} {t p : Bytes} (h : x :: t <:+: p) : ∃ a b, p = a ++ (x :: t) ++ b ∧ ¬ x :: t <:+: a := by
  obtain ⟨a, b, h1, h2⟩ := first_split h
  refine ⟨a, b, h1, fun ⟨c, d, e⟩ => ?_⟩
  refine h2 c (x :: t ++ d) (by rw [← e, List.append_assoc]) nofun ?_
  exact ⟨d ++ (x :: t) ++ b, by simp only [List.append_assoc, List.cons_append]⟩

/-- Against C154: an event in which the closing tag is makes the worker fail, after it passed on a part of the event. -/
theorem event_closing {p : Bytes} (ho : ¬ opening evName <:+: p) (hc : closing evName <:+: p) :
    ∃ a b, p = a ++ b ∧ b ≠ [] ∧ ∀ r, drain childNext ((frame evName p ++ r).length + 1) (frame evName p ++ r) = ([frame evName a], none) := by
  obtain ⟨a, b, hp, ha⟩ := first_place (x := 60) hc
  refine ⟨a, closing evName ++ b, by rw [hp, List.append_assoc]; rfl, nofun, fun r => ?_⟩
  have hoa : ¬ opening evName <:+: a := fun hi => ho (hi.trans ⟨[], closing evName ++ b, by rw [hp, List.nil_append, List.append_assoc]; rfl⟩)
  have h1 : frame evName p ++ r = frame evName a ++ (b ++ closing evName ++ r) := by
    unfold frame
    rw [hp]
    show opening evName ++ (a ++ closing evName ++ b) ++ closing evName ++ r = _
    simp only [List.append_assoc]
  have h2 := child_full ⟨hoa, ha⟩ (b ++ closing evName ++ r)
  have h3 : childNext (b ++ closing evName ++ r) = .dead := by
    unfold childNext
    have hmem : ∃ i, (positions (closing evName) (b ++ closing evName ++ r)).head? = some i := by
      obtain ⟨l, _, hl⟩ := positions_append (closing evName) (closing evName ++ r) nofun b
      obtain ⟨z, hz⟩ := positions_self (closing evName) r nofun
      rw [List.append_assoc, hl, hz]
      cases l with
      | nil => exact ⟨_, rfl⟩
      | cons l0 l => exact ⟨_, rfl⟩
    obtain ⟨i, hi⟩ := hmem
    rw [hi]
    dsimp only
    rw [if_neg]
    rintro ⟨hpre, _⟩
    have hpre := (List.isPrefixOf_iff_prefix.1 hpre).trans (List.take_prefix _ _)
    rw [List.append_assoc] at hpre
    cases b with
    | nil =>
      obtain ⟨w, hw⟩ := hpre
      exact absurd (List.cons.inj (List.cons.inj hw).2).1 (by decide)
    | cons b0 b =>
      have := no_straddle (x := 60) (t := evName ++ [62]) (b := b0 :: b) (y := closing evName ++ r) (opening_tail name_ev) nofun (Or.inr rfl) hpre
      exact ho (this.isInfix.trans ⟨a ++ closing evName, [], by rw [List.append_nil, hp]; rfl⟩)
  rw [h1]
  conv => lhs; unfold drain
  rw [h2]
  dsimp only
  have hk : ∃ k, (frame evName a ++ (b ++ closing evName ++ r)).length = k + 1 := ⟨_, rfl⟩
  obtain ⟨k, hk⟩ := hk
  rw [hk]
  unfold drain
  rw [h3]

/-! ### From the worker to the cooker -/

section
variable {V : Type}

/-- What is known of `pickle`: data can be read, and of proper parts of it it is said that they are truncated. -/
structure Pickles (dumps : V → Bytes) (loads : Bytes → Load V) : Prop where
  some : ∀ v, dumps v ≠ []
  whole : ∀ v, loads (dumps v) = .ok v
  part : ∀ v p, p <+: dumps v → p ≠ dumps v → loads p = .truncated

/-- Messages to the cooker: events and exit codes. -/
def cookerFrame (dumps : V → Bytes) (m : Bool × V) : Bytes := frame (if m.1 then evName else exName) (dumps m.2)

/-- An exit code in which its closing tag is not. -/
def Clean (dumps : V → Bytes) (m : Bool × V) : Prop := m.1 = true ∨ ¬ closing exName <:+: dumps m.2

theorem opening_none {n m : Bytes} (hn : Name n) (hm : Name m) (h : n ≠ m) (p r : Bytes) : (opening n).isPrefixOf (frame m p ++ r) = false := by
  cases hb : (opening n).isPrefixOf (frame m p ++ r) with
  | false => rfl
  | true =>
    obtain ⟨w, hw⟩ := List.isPrefixOf_iff_prefix.1 hb
    exact absurd (opening_inj hn hm (a := w) (b := p ++ closing m ++ r) (by rw [hw]; unfold frame; simp only [List.append_assoc])) h

theorem ev_ex : exName ≠ evName := by decide

theorem payload_take {n p r : Bytes} {k i : Nat} (hk : k = (opening n).length) (hi : i ≤ (opening n ++ p).length) :
    ((frame n p ++ r).take i).drop k = p.take (i - k) := by
  unfold frame
  subst hk
  rw [List.append_assoc, List.take_append_of_le_length hi]
  rw [List.drop_take, List.drop_left]

/-- More bytes after a result. -/
def Step.more {M : Type} (c : Bytes) : Step M → Step M
  | .wait => .wait
  | .dead => .dead
  | .msg m r => .msg m (r ++ c)

theorem tryEvent_more {loads : Bytes → Load V} {q c : Bytes} {i : Nat} (hi : i + 8 ≤ q.length) :
    tryEvent loads (q ++ c) i = (tryEvent loads q i).map (Step.more c) := by
  unfold tryEvent
  rw [List.take_append_of_le_length (by omega), List.drop_append_of_le_length hi]
  split
  · rfl
  · rfl
  · rfl

theorem findSome_more {loads : Bytes → Load V} {q c : Bytes} : ∀ {l : List Nat}, (∀ i ∈ l, i + 8 ≤ q.length) →
    l.findSome? (tryEvent loads (q ++ c)) = (l.findSome? (tryEvent loads q)).map (Step.more c)
  | [], _ => rfl
  | i :: l, h => by
    rw [List.findSome?_cons, List.findSome?_cons, tryEvent_more (h i List.mem_cons_self), findSome_more fun j hj => h j (List.mem_cons_of_mem _ hj)]
    cases tryEvent loads q i with
    | none => rfl
    | some s => rfl

theorem cooker_more {loads : Bytes → Load V} {q c : Bytes} (h : cookerNext loads q ≠ .wait) :
    cookerNext loads (q ++ c) = (cookerNext loads q).more c := by
  unfold cookerNext at h ⊢
  by_cases h1 : (opening evName).isPrefixOf q = true
  · have h1' : (opening evName).isPrefixOf (q ++ c) = true := List.isPrefixOf_iff_prefix.2 ((List.isPrefixOf_iff_prefix.1 h1).trans ⟨c, rfl⟩)
    rw [if_pos h1] at h ⊢
    rw [if_pos h1']
    obtain ⟨z, hz⟩ := positions_more (pat := closing evName) nofun c q
    rw [hz, List.findSome?_append, findSome_more fun i hi => positions_end (pat := closing evName) nofun hi]
    cases hf : (positions (closing evName) q).findSome? (tryEvent loads q) with
    | none => rw [hf] at h; exact absurd rfl h
    | some s => rfl
  · rw [if_neg h1] at h ⊢
    by_cases h2 : (opening exName).isPrefixOf q = true
    · have h2' : (opening exName).isPrefixOf (q ++ c) = true := List.isPrefixOf_iff_prefix.2 ((List.isPrefixOf_iff_prefix.1 h2).trans ⟨c, rfl⟩)
      have h1' : ¬ (opening evName).isPrefixOf (q ++ c) = true := by
        intro h3
        obtain ⟨a, ha⟩ := List.isPrefixOf_iff_prefix.1 h3
        obtain ⟨b, hb⟩ := List.isPrefixOf_iff_prefix.1 h2'
        exact ev_ex (opening_inj name_ex name_ev (hb.trans ha.symm))
      rw [if_pos h2] at h ⊢
      rw [if_neg h1', if_pos h2']
      obtain ⟨z, hz⟩ := positions_more (pat := closing exName) nofun c q
      cases hq : positions (closing exName) q with
      | nil => rw [hq] at h; exact absurd rfl h
      | cons i l =>
        have hi : i + 11 ≤ q.length := positions_end (pat := closing exName) nofun (hq ▸ List.mem_cons_self)
        rw [hz, hq]
        dsimp only [List.head?_cons, List.cons_append]
        rw [List.take_append_of_le_length (by omega), List.drop_append_of_le_length hi]
        cases loads ((q.take i).drop 10) with
        | ok v => rfl
        | truncated => rfl
        | bad => rfl
    · rw [if_neg h2] at h; exact absurd rfl h

theorem mono_cooker (loads : Bytes → Load V) : Mono (cookerNext loads) where
  empty := rfl
  msg := by
    intro q m r h c
    rw [cooker_more (by rw [h]; exact nofun), h]; rfl
  dead := by
    intro q h c
    rw [cooker_more (by rw [h]; exact nofun), h]; rfl
  less := by
    intro q m r h
    unfold cookerNext at h
    split at h
    · cases hf : (positions (closing evName) q).findSome? (tryEvent loads q) with
      | none => rw [hf] at h; exact nomatch h
      | some s =>
        rw [hf] at h
        have h : s = .msg m r := h
        subst h
        obtain ⟨i, hi, ht⟩ := List.exists_of_findSome?_eq_some hf
        have hi := positions_end (pat := closing evName) nofun hi
        have h8 : (closing evName).length = 8 := rfl
        unfold tryEvent at ht
        split at ht
        · exact nomatch ht
        · cases ht
          rw [List.length_drop]
          omega
        · exact nomatch ht
    · split at h
      · cases hq : positions (closing exName) q with
        | nil => rw [hq] at h; exact nomatch h
        | cons i l =>
          have hi := positions_end (pat := closing exName) nofun (hq ▸ List.mem_cons_self)
          have h8 : (closing exName).length = 11 := rfl
          rw [hq] at h
          dsimp only [List.head?_cons] at h
          split at h
          · cases h
            rw [List.length_drop]
            omega
          · exact nomatch h
      · exact nomatch h

theorem codec_cooker {dumps : V → Bytes} {loads : Bytes → Load V} (hp : Pickles dumps loads) :
    Codec (cookerNext loads) (cookerFrame dumps) (Clean dumps) where
  full := by
    rintro ⟨b, v⟩ hg r
    unfold cookerNext cookerFrame
    cases b with
    | true =>
      dsimp only
      rw [if_pos rfl, if_pos (List.isPrefixOf_iff_prefix.2 ((frame_prefix _ _).trans ⟨r, rfl⟩))]
      obtain ⟨l, h1, h2⟩ := positions_append (closing evName) (closing evName ++ r) nofun (opening evName ++ dumps v)
      obtain ⟨z, hz⟩ := positions_self (closing evName) r nofun
      rw [hz] at h2
      have h3 : positions (closing evName) (frame evName (dumps v) ++ r) = _ := (congrArg _ (by unfold frame; rw [List.append_assoc])).trans h2
      have h7 : (opening evName).length = 7 := rfl
      have h4 : l.findSome? (tryEvent loads (frame evName (dumps v) ++ r)) = none := by
        rw [List.findSome?_eq_none_iff]
        intro i hi
        have hlt := h1 i hi
        unfold tryEvent
        rw [payload_take (k := 7) rfl (Nat.le_of_lt hlt), hp.part v]
        · exact List.take_prefix _ _
        · intro e
          have := congrArg List.length e
          rw [List.length_take] at this
          rw [List.length_append] at hlt
          have h0 : 0 < (dumps v).length := List.length_pos_iff.2 (hp.some v)
          omega
      have h5 : tryEvent loads (frame evName (dumps v) ++ r) (0 + (opening evName ++ dumps v).length) = some (.msg (true, v) r) := by
        unfold tryEvent
        rw [Nat.zero_add, payload_take (k := 7) rfl (Nat.le_refl _), List.length_append, h7, Nat.add_sub_cancel_left, List.take_length, hp.whole]
        dsimp only
        have : 7 + (dumps v).length + 8 = (frame evName (dumps v)).length := by
          rw [frame_length, List.length_append, h7]; rfl
        rw [this, List.drop_left]
      rw [h3, List.findSome?_append, h4, List.map_cons, List.findSome?_cons, h5]
      rfl
    | false =>
      have e : (if (false, v).1 = true then evName else exName) = exName := rfl
      rw [e]
      rw [if_neg (by rw [opening_none name_ev name_ex (Ne.symm ev_ex)]; exact nofun),
        if_pos (List.isPrefixOf_iff_prefix.2 ((frame_prefix _ _).trans ⟨r, rfl⟩))]
      have hc : ¬ closing exName <:+: dumps v := hg.resolve_left nofun
      have h3 : (positions (closing exName) (frame exName (dumps v) ++ r)).head? = some (opening exName ++ dumps v).length :=
        find_first (closing_tail name_ex) (closing_skip name_ex hc)
      have h7 : (opening exName).length = 10 := rfl
      rw [h3]
      dsimp only
      rw [payload_take (k := 10) rfl (Nat.le_refl _), List.length_append, h7, Nat.add_sub_cancel_left, List.take_length, hp.whole]
      dsimp only
      have : 10 + (dumps v).length + 11 = (frame exName (dumps v)).length := by
        rw [frame_length, List.length_append, h7]; rfl
      rw [this, List.drop_left]
  part := by
    rintro ⟨b, v⟩ hg q hpre hne
    unfold cookerFrame at hpre hne
    unfold cookerNext
    have other : ∀ {n m : Bytes}, Name n → Name m → n ≠ m → q <+: frame m (dumps v) → ¬ (opening n).isPrefixOf q = true := by
      intro n m hn hm hnm hq hb
      have h1 := opening_none hn hm hnm (dumps v) []
      rw [List.append_nil] at h1
      rw [List.isPrefixOf_iff_prefix.2 ((List.isPrefixOf_iff_prefix.1 hb).trans hq)] at h1
      exact nomatch h1
    cases b with
    | true =>
      rw [if_pos rfl] at hpre hne
      by_cases h1 : (opening evName).isPrefixOf q = true
      · rw [if_pos h1]
        have : (positions (closing evName) q).findSome? (tryEvent loads q) = none := by
          rw [List.findSome?_eq_none_iff]
          intro i hi
          have hi := positions_end (pat := closing evName) nofun hi
          have h8 : (closing evName).length = 8 := rfl
          have hl : q.length < (frame evName (dumps v)).length := Nat.lt_of_le_of_ne hpre.length_le fun e => hne (hpre.eq_of_length e)
          obtain ⟨w, hw⟩ := hpre
          have h9 : (frame evName (dumps v)).length = (opening evName ++ dumps v).length + 8 := by rw [frame_length]; rfl
          have ht : q.take i = (frame evName (dumps v) ++ []).take i := by
            rw [List.append_nil, ← hw, List.take_append_of_le_length (by omega)]
          have h7 : (opening evName).length = 7 := rfl
          unfold tryEvent
          rw [ht, payload_take (k := 7) rfl (by omega), hp.part v]
          · exact List.take_prefix _ _
          · intro e
            have := congrArg List.length e
            rw [List.length_take] at this
            rw [List.length_append] at h9
            have h0 : 0 < (dumps v).length := List.length_pos_iff.2 (hp.some v)
            omega
        rw [this]
        rfl
      · rw [if_neg h1, if_neg (other name_ex name_ev ev_ex hpre)]
    | false =>
      rw [if_neg nofun] at hpre hne
      rw [if_neg (other name_ev name_ex (Ne.symm ev_ex) hpre)]
      split
      · have hc : ¬ closing exName <:+: dumps v := hg.resolve_left nofun
        rw [no_close_part name_ex hc hpre hne]
        rfl
      · rfl

/-! ### The worker -/

/-- What a task has written so far, in pieces. -/
def bytesOf (t : Nat) (acts : List (Act V)) : Bytes := acts.flatMap fun a => match a with
  | .read t' c => if t' = t then c else []
  | .reap t' c _ => if t' = t then c else []
  | _ => []

/-- The exit codes of a task. -/
def exitsOf (t : Nat) (acts : List (Act V)) : List V := acts.flatMap fun a => match a with
  | .reap t' _ v => if t' = t then [v] else []
  | _ => []

def Act.task : Act V → Option Nat
  | .read t _ => some t
  | .reap t _ _ => some t
  | _ => none

/-- `events t` are the events of the task: all that is read from its pipe is of these messages; when it ends, all of them were
written, and no part of one more; after that there is nothing of this task. -/
structure Valid (dumps : V → Bytes) (events : Nat → List V) (acts : List (Act V)) : Prop where
  bytes : ∀ t, bytesOf t acts <+: (events t).flatMap fun v => frame evName (dumps v)
  ends : ∀ pre t c v post, acts = pre ++ Act.reap t c v :: post →
    bytesOf t (pre ++ [Act.reap t c v]) = ((events t).flatMap fun v => frame evName (dumps v)) ∧ ∀ a ∈ post, a.task ≠ some t

theorem bytesOf_append (t : Nat) (a b : List (Act V)) : bytesOf t (a ++ b) = bytesOf t a ++ bytesOf t b := List.flatMap_append

theorem exitsOf_append (t : Nat) (a b : List (Act V)) : exitsOf t (a ++ b) = exitsOf t a ++ exitsOf t b := List.flatMap_append

theorem exits_mem {t : Nat} : ∀ {acts : List (Act V)}, exitsOf t acts ≠ [] → ∃ pre c v post, acts = pre ++ Act.reap t c v :: post
  | [], h => absurd rfl h
  | a :: acts, h => by
    by_cases ha : exitsOf t [a] = []
    · have : exitsOf t acts ≠ [] := fun e => h (by rw [show a :: acts = [a] ++ acts from rfl, exitsOf_append, ha, e]; rfl)
      obtain ⟨pre, c, v, post, e⟩ := exits_mem this
      exact ⟨a :: pre, c, v, post, by rw [e]; rfl⟩
    · cases a with
      | read t' c => exact absurd rfl ha
      | start => exact absurd rfl ha
      | write n => exact absurd rfl ha
      | reap t' c v =>
        by_cases e : t' = t
        · subst e; exact ⟨[], c, v, acts, rfl⟩
        · refine absurd ?_ ha
          show (if t' = t then [v] else []) ++ [] = []
          rw [if_neg e]; rfl

/-- What is known of the worker after these acts. -/
def Inv (dumps : V → Bytes) (events : Nat → List V) (past : List (Act V)) (w : Worker) (log : List (Nat × Bool × V)) : Prop :=
  w.dead = false ∧ w.printed = [] ∧ w.chan ++ w.pending = (log.map (·.2)).flatMap (cookerFrame dumps) ∧
  ∀ t, ∃ done todo, events t = done ++ todo ∧ bytesOf t past = (done.flatMap fun v => frame evName (dumps v)) ++ w.pipes t ∧
    (todo = [] → w.pipes t = []) ∧ (∀ v ∈ todo.head?, w.pipes t <+: frame evName (dumps v) ∧ w.pipes t ≠ frame evName (dumps v)) ∧
    (log.filter fun x => x.1 = t).map (·.2) = done.map (fun v => (true, v)) ++ (exitsOf t past).map fun v => (false, v)

theorem log_append (log new : List (Nat × Bool × V)) (t : Nat) : ((log ++ new).filter fun x => x.1 = t).map (·.2) =
    (log.filter fun x => x.1 = t).map (·.2) ++ (new.filter fun x => x.1 = t).map (·.2) := by
  rw [List.filter_append, List.map_append]

theorem flatMap_id {f : V → Bytes} (l : List V) : (l.map f).flatMap id = l.flatMap f := by
  induction l with
  | nil => rfl
  | cons x l ih => rw [List.map_cons, List.flatMap_cons, List.flatMap_cons, ih]; rfl

theorem flatten_map {f : V → Bytes} (l : List V) : (l.map f).flatten = l.flatMap f := by
  rw [List.flatMap_def]

variable {dumps : V → Bytes} {loads : Bytes → Load V} {events : Nat → List V} {repr : Bytes → Bytes}

/-- A read of the pipe of a task which goes on. -/
theorem read_inv (hn : ∀ t, ∀ v ∈ events t, NoTag (dumps v)) {past : List (Act V)} {w : Worker} {log : List (Nat × Bool × V)}
    (h : Inv dumps events past w log) {t : Nat} {c : Bytes} {a : Act V} (ha : ∀ u, bytesOf u [a] = if u = t then c else [])
    (hx : ∀ u, exitsOf u [a] = []) (hfree : exitsOf t past = [])
    (hb : bytesOf t (past ++ [a]) <+: (events t).flatMap fun v => frame evName (dumps v)) :
    ∃ log', Inv dumps events (past ++ [a]) (readPipe w t c) log' := by
  obtain ⟨h1, h2, h3, h4⟩ := h
  obtain ⟨done, todo, e1, e2, e3, e4, e5⟩ := h4 t
  rw [bytesOf_append, ha, if_pos rfl, e2, e1, List.flatMap_append, List.append_assoc] at hb
  have hb := (List.prefix_append_right_inj _).1 hb
  rw [← flatMap_id] at hb
  have hgood : ∀ m ∈ todo.map (fun v => frame evName (dumps v)), ∃ p, NoTag p ∧ m = frame evName p := by
    intro m hm
    obtain ⟨v, hv, rfl⟩ := List.mem_map.1 hm
    exact ⟨dumps v, hn t v (e1 ▸ List.mem_append_right _ hv), rfl⟩
  obtain ⟨d, ms', rest, k1, k2, k3, k4, k5⟩ := drain_prefix mono_child codec_child _ (w.pipes t ++ c) ((w.pipes t ++ c).length + 1) (Nat.lt_succ_self _) hgood hb
  obtain ⟨d1, d2, f1, f2, f3⟩ := List.map_eq_append_iff.1 k1
  subst f2
  subst f3
  rw [flatMap_id] at k2
  refine ⟨log ++ d1.map fun v => (t, true, v), ?_⟩
  unfold readPipe
  dsimp only
  rw [k3]
  dsimp only
  refine ⟨h1, h2, ?_, fun u => ?_⟩
  · rw [← List.append_assoc, h3, List.map_append, List.flatMap_append, flatten_map, List.map_map]
    congr 1
    rw [List.flatMap_def, List.flatMap_def, List.map_map]
    rfl
  · by_cases hu : u = t
    · subst hu
      refine ⟨done ++ d1, d2, by rw [e1, f1, List.append_assoc], ?_, ?_, ?_, ?_⟩
      · dsimp only
        rw [if_pos rfl, bytesOf_append, ha, if_pos rfl, e2, List.append_assoc, k2, List.flatMap_append, List.append_assoc]
      · intro hd
        dsimp only
        rw [if_pos rfl]
        exact k5 (by rw [hd]; rfl)
      · intro v hv
        dsimp only
        rw [if_pos rfl]
        refine k4 _ ?_
        rw [List.head?_map, hv]
        rfl
      · rw [log_append, e5, exitsOf_append, hx, hfree, List.map_append]
        rw [List.filter_eq_self.2 (by
          intro x hx
          obtain ⟨v, _, rfl⟩ := List.mem_map.1 hx
          exact decide_eq_true rfl), List.map_map]
        show done.map _ ++ [] ++ _ = _ ++ []
        rw [List.append_nil, List.append_nil]
        rfl
    · obtain ⟨done', todo', g1, g2, g3, g4, g5⟩ := h4 u
      dsimp only
      refine ⟨done', todo', g1, ?_, ?_, ?_, ?_⟩
      · rw [if_neg hu, bytesOf_append, ha, if_neg hu, List.append_nil]; exact g2
      · rw [if_neg hu]; exact g3
      · rw [if_neg hu]; exact g4
      · rw [log_append, g5, exitsOf_append, hx, List.append_nil]
        rw [List.filter_eq_nil_iff.2 (by
          intro x hx
          obtain ⟨v, _, rfl⟩ := List.mem_map.1 hx
          exact fun h => hu (of_decide_eq_true h).symm)]
        exact List.append_nil _

theorem free_of_valid {past rest : List (Act V)} {a : Act V} {t : Nat} (hv : Valid dumps events (past ++ a :: rest)) (ha : a.task = some t) :
    exitsOf t past = [] := by
  by_cases h : exitsOf t past = []
  · exact h
  · exfalso
    obtain ⟨pre, c, v, post, e⟩ := exits_mem h
    refine (hv.ends pre t c v (post ++ a :: rest) (by rw [e, List.append_assoc]; rfl)).2 a ?_ ha
    exact List.mem_append_right _ List.mem_cons_self

theorem act_inv (hn : ∀ t, ∀ v ∈ events t, NoTag (dumps v)) {past rest : List (Act V)} {a : Act V} {w : Worker} {log : List (Nat × Bool × V)}
    (hv : Valid dumps events (past ++ a :: rest)) (h : Inv dumps events past w log) : ∃ log', Inv dumps events (past ++ [a]) (act repr dumps w a) log' := by
  have hb : ∀ t, bytesOf t (past ++ [a]) <+: (events t).flatMap fun v => frame evName (dumps v) := by
    intro t
    refine List.IsPrefix.trans ⟨bytesOf t rest, ?_⟩ (hv.bytes t)
    rw [← bytesOf_append, List.append_assoc]; rfl
  have hdead := h.1
  cases a with
  | write n =>
    obtain ⟨h1, h2, h3, h4⟩ := h
    refine ⟨log, h1, h2, ?_, fun t => ?_⟩
    · show w.chan ++ w.pending.take n ++ w.pending.drop n = _
      rw [List.append_assoc, List.take_append_drop, h3]
    · obtain ⟨done, todo, e1, e2, e3, e4, e5⟩ := h4 t
      refine ⟨done, todo, e1, ?_, e3, e4, ?_⟩
      · rw [bytesOf_append]; exact (List.append_nil _).trans e2
      · rw [exitsOf_append]
        show _ = _ ++ (exitsOf t past ++ []).map _
        rw [List.append_nil]; exact e5
  | start =>
    obtain ⟨h1, h2, h3, h4⟩ := h
    refine ⟨log, ?_⟩
    unfold act
    dsimp only
    rw [if_neg (by rw [h1]; exact nofun), h2]
    refine ⟨h1, rfl, ?_, fun t => ?_⟩
    · dsimp only; rw [List.append_nil]; exact h3
    · obtain ⟨done, todo, e1, e2, e3, e4, e5⟩ := h4 t
      refine ⟨done, todo, e1, ?_, e3, e4, ?_⟩
      · rw [bytesOf_append]; exact (List.append_nil _).trans e2
      · rw [exitsOf_append]
        show _ = _ ++ (exitsOf t past ++ []).map _
        rw [List.append_nil]; exact e5
  | read t c =>
    unfold act
    dsimp only
    rw [if_neg (by rw [hdead]; exact nofun)]
    refine read_inv hn h (t := t) (c := c) (fun u => ?_) (fun u => rfl) (free_of_valid hv rfl) (hb t)
    show (if t = u then c else []) ++ [] = _
    rw [List.append_nil]
    by_cases e : t = u
    · rw [if_pos e, if_pos e.symm]
    · rw [if_neg e, if_neg (Ne.symm e)]
  | reap t c v =>
    have hbytes : ∀ u, bytesOf u [Act.read t c] = bytesOf u [Act.reap t c v] := fun u => rfl
    have hb' : bytesOf t (past ++ [Act.read t c]) <+: (events t).flatMap fun v => frame evName (dumps v) := by
      rw [bytesOf_append, hbytes, ← bytesOf_append]; exact hb t
    have hfree := free_of_valid hv rfl
    obtain ⟨log', g1, g2, g3, g4⟩ := read_inv hn h (t := t) (c := c) (a := Act.read t c) (fun u => by
      show (if t = u then c else []) ++ [] = _
      rw [List.append_nil]
      by_cases e : t = u
      · rw [if_pos e, if_pos e.symm]
      · rw [if_neg e, if_neg (Ne.symm e)]) (fun u => rfl) hfree hb'
    have hend := (hv.ends past t c v rest rfl).1
    have hempty : (readPipe w t c).pipes t = [] := by
      obtain ⟨done, todo, e1, e2, e3, e4, e5⟩ := g4 t
      cases todo with
      | nil => exact e3 rfl
      | cons x todo =>
        exfalso
        obtain ⟨e6, e7⟩ := e4 x rfl
        rw [bytesOf_append, hbytes, ← bytesOf_append, hend, e1, List.flatMap_append, List.flatMap_cons] at e2
        have e8 := List.append_cancel_left e2
        have e9 := e6.length_le
        have : ((readPipe w t c).pipes t).length = (frame evName (dumps x)).length := by
          have := congrArg List.length e8
          rw [List.length_append] at this
          omega
        exact e7 (e6.eq_of_length this)
    refine ⟨log' ++ [(t, false, v)], ?_⟩
    unfold act
    dsimp only
    rw [if_neg (by rw [hdead]; exact nofun), if_neg (by rw [g1]; exact nofun), if_pos hempty]
    refine ⟨g1, g2, ?_, fun u => ?_⟩
    · dsimp only
      rw [← List.append_assoc, g3, List.map_append, List.flatMap_append]
      congr 1
      exact (List.append_nil _).symm
    · obtain ⟨done, todo, e1, e2, e3, e4, e5⟩ := g4 u
      refine ⟨done, todo, e1, ?_, e3, e4, ?_⟩
      · rw [bytesOf_append, ← hbytes, ← bytesOf_append]; exact e2
      · rw [log_append, e5, exitsOf_append, exitsOf_append, List.map_append, List.append_assoc]
        congr 1
        rw [List.map_append, List.append_assoc]
        congr 1
        show _ = ((if t = u then [v] else []) ++ []).map _
        rw [List.append_nil, List.filter_cons, List.filter_nil]
        by_cases e : t = u
        · rw [if_pos (decide_eq_true e), if_pos e]; rfl
        · rw [if_neg (by rw [decide_eq_true_eq]; exact e), if_neg e]; rfl

theorem run_inv (hn : ∀ t, ∀ v ∈ events t, NoTag (dumps v)) {acts : List (Act V)} (hv : Valid dumps events acts) :
    ∃ log, Inv dumps events acts (runWorker repr dumps acts) log := by
  have key : ∀ (acts past : List (Act V)) (w : Worker) (log : List (Nat × Bool × V)), Valid dumps events (past ++ acts) → Inv dumps events past w log →
      ∃ log', Inv dumps events (past ++ acts) (acts.foldl (act repr dumps) w) log' := by
    intro acts
    induction acts with
    | nil => intro past w log _ h; rw [List.append_nil]; exact ⟨log, h⟩
    | cons a acts ih =>
      intro past w log hv h
      obtain ⟨log', h'⟩ := act_inv (repr := repr) hn hv h
      have := ih (past ++ [a]) _ log' (by rw [List.append_assoc]; exact hv) h'
      rw [List.append_assoc] at this
      exact this
  refine key acts [] {} [] hv ⟨rfl, rfl, rfl, fun t => ⟨[], events t, rfl, rfl, fun _ => rfl, fun v _ => ⟨List.nil_prefix, nofun⟩, rfl⟩⟩

/-- C154, the part that holds: when no event has the text of a tag in it and no task is stopped while it writes an event, the
worker does not fail, and the cooker reads, in whatever pieces pipes are read and written, one sequence of messages.  In it are
for each task its events in order, each once, then its exit code. -/
theorem delivered_partial (hp : Pickles dumps loads) (hn : ∀ t, ∀ v ∈ events t, NoTag (dumps v)) {acts : List (Act V)}
    (hx : ∀ t, ∀ v ∈ exitsOf t acts, ¬ closing exName <:+: dumps v) (hv : Valid dumps events acts) :
    ∃ log : List (Nat × Bool × V),
      (∀ t, ∃ done, done <+: events t ∧ (exitsOf t acts ≠ [] → done = events t) ∧
        (bytesOf t acts = ((events t).flatMap fun v => frame evName (dumps v)) → done = events t) ∧
        (log.filter fun x => x.1 = t).map (·.2) = done.map (fun v => (true, v)) ++ (exitsOf t acts).map fun v => (false, v)) ∧
      ∀ cs : List Bytes, cs.flatten = (runWorker repr dumps acts).chan →
        ∃ n rest, cs.foldl (feed (cookerNext loads)) ([], some []) = ((log.map (·.2)).take n, some rest) ∧
          ((runWorker repr dumps acts).pending = [] → (log.map (·.2)).take n = log.map (·.2) ∧ rest = []) := by
  obtain ⟨log, h1, h2, h3, h4⟩ := run_inv (repr := repr) hn hv
  refine ⟨log, fun t => ?_, fun cs hcs => ?_⟩
  · obtain ⟨done, todo, e1, e2, e3, e4, e5⟩ := h4 t
    have whole : bytesOf t acts = ((events t).flatMap fun v => frame evName (dumps v)) → done = events t := by
      intro hb
      cases todo with
      | nil => rw [List.append_nil] at e1; exact e1.symm
      | cons x todo =>
        exfalso
        obtain ⟨e6, e7⟩ := e4 x rfl
        rw [hb, e1, List.flatMap_append, List.flatMap_cons] at e2
        have e8 := List.append_cancel_left e2
        have e9 := e6.length_le
        have : ((runWorker repr dumps acts).pipes t).length = (frame evName (dumps x)).length := by
          have := congrArg List.length e8
          rw [List.length_append] at this
          omega
        exact e7 (e6.eq_of_length this)
    refine ⟨done, ⟨todo, e1.symm⟩, fun hne => whole ?_, whole, e5⟩
    obtain ⟨pre, c, v, post, e⟩ := exits_mem hne
    have hend := hv.ends pre t c v post e
    rw [e, show pre ++ Act.reap t c v :: post = (pre ++ [Act.reap t c v]) ++ post from by rw [List.append_assoc]; rfl, bytesOf_append, hend.1]
    have : ∀ (post : List (Act V)), (∀ a ∈ post, a.task ≠ some t) → bytesOf t post = [] := by
      intro post
      induction post with
      | nil => intro _; rfl
      | cons a post ih =>
        intro h
        rw [show a :: post = [a] ++ post from rfl, bytesOf_append, ih fun b hb => h b (List.mem_cons_of_mem _ hb), List.append_nil]
        have := h a List.mem_cons_self
        cases a with
        | read t' c' =>
          show (if t' = t then c' else []) ++ [] = []
          rw [if_neg (fun e => this (congrArg some e))]; rfl
        | reap t' c' v' =>
          show (if t' = t then c' else []) ++ [] = []
          rw [if_neg (fun e => this (congrArg some e))]; rfl
        | start => rfl
        | write n => rfl
    rw [this post hend.2, List.append_nil]
  · have hgood : ∀ m ∈ log.map (·.2), Clean dumps m := by
      intro m hm
      obtain ⟨⟨t, b, v⟩, hx', rfl⟩ := List.mem_map.1 hm
      obtain ⟨done, todo, e1, e2, e3, e4, e5⟩ := h4 t
      have : (b, v) ∈ (log.filter fun x => x.1 = t).map (·.2) := List.mem_map.2 ⟨(t, b, v), List.mem_filter.2 ⟨hx', decide_eq_true rfl⟩, rfl⟩
      rw [e5] at this
      rcases List.mem_append.1 this with h | h
      · obtain ⟨v', _, e⟩ := List.mem_map.1 h
        cases e
        exact Or.inl rfl
      · obtain ⟨v', hv', e⟩ := List.mem_map.1 h
        cases e
        exact Or.inr (hx t v hv')
    obtain ⟨done, ms', rest, k1, k2, k3, k4⟩ := feed_prefix (mono_cooker loads) (codec_cooker hp) hgood (cs := cs) (by rw [hcs, ← h3]; exact ⟨_, rfl⟩)
    refine ⟨done.length, rest, ?_, fun hpend => ?_⟩
    · rw [k3, k1, List.take_left]
    · obtain ⟨e1, e2⟩ := k4 (by rw [hcs, ← h3, hpend, List.append_nil])
      refine ⟨?_, e2⟩
      rw [← e1, List.take_length]

/-- Bytes that are not the begin of a message stay in the queue of the cooker, and so does all that comes after them. -/
theorem cooker_stuck (loads : Bytes → Load V) {x : Nat} {q : Bytes} (hx : x ≠ 60) (cs : List Bytes) :
    cs.foldl (feed (cookerNext loads)) ([], some (x :: q)) = ([], some (x :: (q ++ cs.flatten))) := by
  have hw : ∀ q, cookerNext loads (x :: q) = .wait := by
    intro q
    unfold cookerNext
    rw [if_neg, if_neg]
    · intro h; exact hx (Option.some.inj (congrArg List.head? (List.isPrefixOf_iff_prefix.1 h).choose_spec)).symm
    · intro h; exact hx (Option.some.inj (congrArg List.head? (List.isPrefixOf_iff_prefix.1 h).choose_spec)).symm
  induction cs generalizing q with
  | nil => rw [List.flatten_nil, List.append_nil]; rfl
  | cons c cs ih =>
    rw [List.foldl_cons]
    have : feed (cookerNext loads) ([], some (x :: q)) c = ([], some (x :: (q ++ c))) := by
      unfold feed
      dsimp only
      unfold drain
      rw [List.cons_append, hw]
      rfl
    rw [this, ih, List.flatten_cons, List.append_assoc]

/-- The worker only writes more. -/
theorem chan_more (w : Worker) (acts : List (Act V)) : w.chan <+: (acts.foldl (act repr dumps) w).chan := by
  induction acts generalizing w with
  | nil => exact List.prefix_refl _
  | cons a acts ih =>
    refine List.IsPrefix.trans ?_ (ih _)
    have hr : ∀ t c, (readPipe w t c).chan = w.chan := by
      intro t c
      unfold readPipe
      dsimp only
      split <;> rfl
    cases a with
    | read t c =>
      show w.chan <+: (if w.dead then w else readPipe w t c).chan
      split
      · exact List.prefix_refl _
      · rw [hr]; exact List.prefix_refl _
    | reap t c v =>
      unfold act
      dsimp only
      split
      · exact List.prefix_refl _
      · split
        · rw [hr]; exact List.prefix_refl _
        · dsimp only; rw [hr]; exact List.prefix_refl _
    | start =>
      show w.chan <+: (if w.dead then w else { w with chan := w.chan ++ w.printed, printed := [] }).chan
      split
      · exact List.prefix_refl _
      · exact ⟨_, rfl⟩
    | write n => exact ⟨_, rfl⟩

/-- Against C154: when a task is stopped while it writes an event, the worker prints a warning to the pipe of the cooker.
After that the cooker reads nothing any more, whatever tasks do. -/
theorem stopped_task (repr : Bytes → Bytes) (dumps : V → Bytes) (loads : Bytes → Load V) {p : Bytes} (hp : p ≠ []) (hc : ¬ closing evName <:+: p)
    (t : Nat) (v : V) (acts : List (Act V)) {cs : List Bytes} (hcs : cs.flatten = (runWorker repr dumps (.reap t p v :: .start :: acts)).chan) :
    cs.foldl (feed (cookerNext loads)) ([], some []) = ([], some cs.flatten) := by
  have hd : drain childNext (([] ++ p).length + 1) ([] ++ p) = ([], some p) := by
    rw [List.nil_append]
    unfold drain
    have : childNext p = .wait := by
      unfold childNext
      rw [show positions (closing evName) p = [] from find_none' (closing_tail name_ev) hc]
      rfl
    rw [this]
  have h1 : (runWorker repr dumps [Act.reap t p v, Act.start]).chan = warning repr p := by
    unfold runWorker
    rw [List.foldl_cons, List.foldl_cons, List.foldl_nil]
    have h2 : act repr dumps {} (Act.reap t p v) = { pipes := fun t' => if t' = t then p else [], printed := warning repr p, pending := frame exName (dumps v) } := by
      have hr : readPipe {} t p = { pipes := fun t' => if t' = t then p else [] } := by
        unfold readPipe
        dsimp only
        rw [hd]
        rfl
      unfold act
      dsimp only
      rw [hr, if_neg nofun, if_neg nofun]
      simp only [if_true, hp, if_false, List.nil_append]
    rw [h2]
    rfl
  have h3 := chan_more (repr := repr) (dumps := dumps) (runWorker repr dumps [Act.reap t p v, Act.start]) acts
  rw [h1] at h3
  obtain ⟨r, hr⟩ := h3
  have h4 : cs.flatten = warning repr p ++ r := hcs.trans hr.symm
  rw [feed_flatten (mono_cooker loads), h4]
  have hw : warning repr p = 87 :: (warning repr p).tail := rfl
  have hw0 : ∀ q, cookerNext loads (87 :: q) = .wait := by
    intro q
    unfold cookerNext
    rw [if_neg, if_neg]
    · intro h; exact absurd (Option.some.inj (congrArg List.head? (List.isPrefixOf_iff_prefix.1 h).choose_spec)) (by decide)
    · intro h; exact absurd (Option.some.inj (congrArg List.head? (List.isPrefixOf_iff_prefix.1 h).choose_spec)) (by decide)
  unfold feed
  dsimp only
  rw [hw, List.cons_append]
  unfold drain
  simp only [List.nil_append, hw0]

end

/-! ### From the cooker to the worker -/

/-- A message of the cooker as bytes. -/
def wire (m : Bytes × Bytes) : Bytes := (send m.1 m.2).getD []

/-- A message that can be sent, and in whose data, after the length, its closing tag is not. -/
structure Sendable (m : Bytes × Bytes) : Prop where
  kind : m.1 ∈ kinds
  size : m.2.length < 4294967296
  clean : ∀ h, header m.2.length = some h → ¬ closing m.1 <:+: h ++ m.2

theorem kind_name : ∀ n ∈ kinds, Name n := by
  intro n hn
  have h : ∀ n ∈ kinds, 60 ∉ n ∧ 62 ∉ n ∧ 47 ∉ n := by decide
  exact ⟨(h n hn).1, (h n hn).2.1, (h n hn).2.2⟩

theorem header_spec {n : Nat} (h : n < 4294967296) : ∃ b, header n = some b ∧ b.length = 4 ∧ bigEndian b = n := by
  unfold header
  rw [if_pos h]
  refine ⟨_, rfl, rfl, ?_⟩
  show (((0 * 256 + n / 16777216) * 256 + n / 65536 % 256) * 256 + n / 256 % 256) * 256 + n % 256 = n
  omega

theorem wire_spec {m : Bytes × Bytes} (h : Sendable m) : ∃ b, b.length = 4 ∧ bigEndian b = m.2.length ∧ ¬ closing m.1 <:+: b ++ m.2 ∧
    wire m = frame m.1 (b ++ m.2) := by
  obtain ⟨b, h1, h2, h3⟩ := header_spec h.size
  refine ⟨b, h2, h3, h.clean b h1, ?_⟩
  unfold wire send frame
  rw [h1]
  show opening m.1 ++ b ++ m.2 ++ closing m.1 = _
  rw [List.append_assoc (opening m.1)]

theorem opening_length (n : Bytes) : (opening n).length = n.length + 2 := by
  unfold opening
  rw [List.length_cons, List.length_append]; rfl

/-- A whole message is handled. -/
theorem handle_full {m : Bytes × Bytes} (h : Sendable m) (r : Bytes) : handleItem m.1 (wire m ++ r) = some (m.2, r) := by
  obtain ⟨b, h1, h2, h3, h4⟩ := wire_spec h
  have hn := kind_name _ h.kind
  have hf := find_first (r := r) (closing_tail hn) (closing_skip hn h3)
  have hf : (positions (closing m.1) (frame m.1 (b ++ m.2) ++ r)).head? = some (opening m.1 ++ (b ++ m.2)).length := hf
  have hl := frame_length m.1 (b ++ m.2)
  have ho := opening_length m.1
  rw [List.length_append, List.length_append] at hl
  have htake : ((frame m.1 (b ++ m.2) ++ r).drop (opening m.1).length).take 4 = b := by
    unfold frame
    rw [List.append_assoc, List.append_assoc, List.drop_left, List.append_assoc, ← h1, List.take_left]
  rw [h4]
  unfold handleItem
  dsimp only
  rw [if_pos (List.isPrefixOf_iff_prefix.2 ((frame_prefix _ _).trans ⟨r, rfl⟩)), htake, hf, h2]
  rw [if_neg (by rw [List.length_append]; omega), if_neg (by rw [List.length_append]; omega)]
  dsimp only
  congr 2
  · rw [← List.drop_drop, payload_take rfl (Nat.le_refl _), List.length_append, Nat.add_sub_cancel_left, List.take_length, ← h1, List.drop_left]
  · rw [show (opening m.1 ++ (b ++ m.2)).length + 2 + m.1.length + 1 = (frame m.1 (b ++ m.2)).length from by rw [frame_length]; omega, List.drop_left]

/-- A part of a message is not. -/
theorem handle_part {m : Bytes × Bytes} (h : Sendable m) {q : Bytes} (hq : q <+: wire m) (hne : q ≠ wire m) : handleItem m.1 q = none := by
  obtain ⟨b, h1, h2, h3, h4⟩ := wire_spec h
  rw [h4] at hq hne
  unfold handleItem
  dsimp only
  rw [no_close_part (kind_name _ h.kind) h3 hq hne]
  split
  · split
    · rfl
    · split
      · rfl
      · rfl
  · rfl

theorem handle_other {m : Bytes × Bytes} (h : Sendable m) {n : Bytes} (hn : n ∈ kinds) (hne : n ≠ m.1) {q r : Bytes} (hq : q <+: wire m ++ r) :
    handleItem n q = none := by
  obtain ⟨b, h1, h2, h3, h4⟩ := wire_spec h
  unfold handleItem
  dsimp only
  rw [if_neg]
  intro hp
  have := (List.isPrefixOf_iff_prefix.1 hp).trans hq
  rw [h4] at this
  have h5 := opening_none (kind_name n hn) (kind_name _ h.kind) hne (b ++ m.2) r
  rw [List.isPrefixOf_iff_prefix.2 this] at h5
  exact nomatch h5

theorem handle_empty (n : Bytes) : handleItem n [] = none := by
  unfold handleItem
  dsimp only
  rw [if_neg]
  intro h
  exact absurd (List.isPrefixOf_iff_prefix.1 h).length_le (Nat.not_succ_le_zero _)

/-- Messages were handled and the rest stays. -/
def Went (ms : List (Bytes × Bytes)) (st st' : List (Bytes × Bytes) × Bytes) : Prop :=
  ∃ done ms', ms = done ++ ms' ∧ st'.1 = st.1 ++ done ∧ st.2 = done.flatMap wire ++ st'.2

theorem try_went {ms : List (Bytes × Bytes)} (hg : ∀ m ∈ ms, Sendable m) {n : Bytes} (hn : n ∈ kinds) {st : List (Bytes × Bytes) × Bytes}
    (hq : st.2 <+: ms.flatMap wire) : Went ms st (tryItem st n) := by
  unfold tryItem
  cases ms with
  | nil =>
    rw [List.prefix_nil.1 hq, handle_empty]
    exact ⟨[], [], rfl, (List.append_nil _).symm, rfl⟩
  | cons m ms =>
    have hm := hg m List.mem_cons_self
    rw [List.flatMap_cons] at hq
    have stay : Went (m :: ms) st st := ⟨[], m :: ms, rfl, (List.append_nil _).symm, rfl⟩
    by_cases e : n = m.1
    · subst e
      rcases Nat.lt_or_ge st.2.length (wire m).length with hl | hl
      · have hp : st.2 <+: wire m := List.prefix_of_prefix_length_le hq ⟨_, rfl⟩ (Nat.le_of_lt hl)
        rw [handle_part hm hp (fun e => absurd hl (by rw [e]; exact Nat.lt_irrefl _))]
        exact stay
      · obtain ⟨r, hr⟩ : wire m <+: st.2 := List.prefix_of_prefix_length_le ⟨_, rfl⟩ hq hl
        rw [← hr, handle_full hm]
        refine ⟨[m], ms, rfl, rfl, ?_⟩
        rw [← hr, List.flatMap_cons, List.flatMap_nil, List.append_nil]
    · rw [handle_other hm hn e hq]
      exact stay

theorem tries_went : ∀ {ns : List Bytes} {ms : List (Bytes × Bytes)} {st : List (Bytes × Bytes) × Bytes}, (∀ n ∈ ns, n ∈ kinds) →
    (∀ m ∈ ms, Sendable m) → st.2 <+: ms.flatMap wire → Went ms st (ns.foldl tryItem st)
  | [], ms, st, _, _, _ => ⟨[], ms, rfl, (List.append_nil _).symm, rfl⟩
  | n :: ns, ms, st, hn, hg, hq => by
    obtain ⟨d1, ms1, e1, e2, e3⟩ := try_went hg (hn n List.mem_cons_self) hq
    have hq1 : (tryItem st n).2 <+: ms1.flatMap wire := by
      rw [e3, e1, List.flatMap_append] at hq
      exact (List.prefix_append_right_inj _).1 hq
    obtain ⟨d2, ms2, f1, f2, f3⟩ := tries_went (fun x hx => hn x (List.mem_cons_of_mem _ hx)) (fun m hm => hg m (e1 ▸ List.mem_append_right _ hm)) hq1
    refine ⟨d1 ++ d2, ms2, by rw [e1, f1, List.append_assoc], ?_, ?_⟩
    · rw [List.foldl_cons, f2, e2, List.append_assoc]
    · rw [e3, f3, List.flatMap_append, List.append_assoc, List.foldl_cons]

theorem tries_nil {st : List (Bytes × Bytes) × Bytes} (h : st.2 = []) : ∀ {ns : List Bytes}, ns.foldl tryItem st = st
  | [] => rfl
  | n :: ns => by
    have : tryItem st n = st := by
      unfold tryItem
      rw [h, handle_empty]
    rw [List.foldl_cons, this]
    exact tries_nil h

/-- When a whole message is there, a round handles at least one. -/
theorem round_more {m : Bytes × Bytes} {ms : List (Bytes × Bytes)} {st : List (Bytes × Bytes) × Bytes} (hg : ∀ x ∈ m :: ms, Sendable x)
    (hst : st.2 = (m :: ms).flatMap wire) : ∃ done ms', m :: ms = m :: done ++ ms' ∧ (round st []).1 = st.1 ++ m :: done ∧
      (round st []).2 = ms'.flatMap wire := by
  have hm := hg m List.mem_cons_self
  obtain ⟨k1, k2, hk⟩ := List.append_of_mem hm.kind
  have hk1 : ∀ n ∈ k1, n ∈ kinds := fun n h => hk ▸ List.mem_append_left _ h
  have hk2 : ∀ n ∈ k2, n ∈ kinds := fun n h => hk ▸ List.mem_append_right _ (List.mem_cons_of_mem _ h)
  obtain ⟨d1, ms1, e1, e2, e3⟩ := tries_went (st := st) hk1 hg (by rw [hst]; exact List.prefix_refl _)
  have hq1 : (k1.foldl tryItem st).2 = ms1.flatMap wire := by
    rw [e3, e1, List.flatMap_append] at hst
    exact List.append_cancel_left hst
  have hg1 : ∀ x ∈ ms1, Sendable x := fun x hx => hg x (e1 ▸ List.mem_append_right _ hx)
  -- after the kind of the message there is at least one
  have step : ∃ d ms2, m :: ms = m :: d ++ ms2 ∧ (tryItem (k1.foldl tryItem st) m.1).1 = st.1 ++ m :: d ∧
      (tryItem (k1.foldl tryItem st) m.1).2 = ms2.flatMap wire := by
    cases d1 with
    | nil =>
      rw [List.nil_append] at e1
      rw [← e1, List.flatMap_cons] at hq1
      generalize k1.foldl tryItem st = s at hq1 e2
      refine ⟨[], ms, rfl, ?_, ?_⟩
      · unfold tryItem
        rw [hq1, handle_full hm]
        dsimp only
        rw [e2, List.append_nil]
      · unfold tryItem
        rw [hq1, handle_full hm]
    | cons x d1 =>
      have hx : m = x := (List.cons.inj e1).1
      subst hx
      obtain ⟨d2, ms2, f1, f2, f3⟩ := try_went (st := k1.foldl tryItem st) hg1 hm.kind (by rw [hq1]; exact List.prefix_refl _)
      refine ⟨d1 ++ d2, ms2, ?_, ?_, ?_⟩
      · rw [e1, f1]; simp only [List.cons_append, List.append_assoc]
      · rw [f2, e2, List.append_assoc]; rfl
      · rw [hq1, f1, List.flatMap_append] at f3
        exact (List.append_cancel_left f3).symm
  obtain ⟨d, ms2, g1, g2, g3⟩ := step
  have hg2 : ∀ x ∈ ms2, Sendable x := fun x hx => hg x (g1 ▸ List.mem_append_right _ hx)
  obtain ⟨d3, ms3, i1, i2, i3⟩ := tries_went (st := tryItem (k1.foldl tryItem st) m.1) hk2 hg2 (by rw [g3]; exact List.prefix_refl _)
  have hr : round st [] = k2.foldl tryItem (tryItem (k1.foldl tryItem st) m.1) := by
    unfold round
    rw [hk, List.foldl_append, List.foldl_cons, List.append_nil]
  refine ⟨d ++ d3, ms3, ?_, ?_, ?_⟩
  · rw [g1, i1]; simp only [List.cons_append, List.append_assoc]
  · rw [hr, i2, g2, List.append_assoc]; rfl
  · rw [hr]
    rw [g3, i1, List.flatMap_append] at i3
    exact (List.append_cancel_left i3).symm

/-- C154, the part that holds: the worker handles the messages of the cooker in order, each once and with its data, in whatever
pieces they come, when the text of its closing tag is not in the data of a message. -/
theorem items_partial {ms : List (Bytes × Bytes)} (hg : ∀ m ∈ ms, Sendable m) {cs : List Bytes} (hq : cs.flatten <+: ms.flatMap wire) :
    ∃ done ms', ms = done ++ ms' ∧ (cs.foldl round ([], [])).1 = done ∧ cs.flatten = done.flatMap wire ++ (cs.foldl round ([], [])).2 := by
  have key : ∀ (cs : List Bytes) (st : List (Bytes × Bytes) × Bytes) (ms : List (Bytes × Bytes)), (∀ m ∈ ms, Sendable m) →
      st.2 ++ cs.flatten <+: ms.flatMap wire → ∃ done ms', ms = done ++ ms' ∧ (cs.foldl round st).1 = st.1 ++ done ∧
        st.2 ++ cs.flatten = done.flatMap wire ++ (cs.foldl round st).2 := by
    intro cs
    induction cs with
    | nil => intro st ms _ _; exact ⟨[], ms, rfl, (List.append_nil _).symm, by rw [List.flatten_nil, List.append_nil]; rfl⟩
    | cons c cs ih =>
      intro st ms hg hq
      rw [List.flatten_cons, ← List.append_assoc] at hq
      obtain ⟨d1, ms1, e1, e2, e3⟩ := tries_went (ns := kinds) (st := (st.1, st.2 ++ c)) (fun _ h => h) hg (List.IsPrefix.trans ⟨_, rfl⟩ hq)
      dsimp only at e2 e3
      have hq1 : (round st c).2 ++ cs.flatten <+: ms1.flatMap wire := by
        rw [e3, e1, List.flatMap_append, List.append_assoc] at hq
        exact (List.prefix_append_right_inj _).1 hq
      obtain ⟨d2, ms2, f1, f2, f3⟩ := ih (round st c) ms1 (fun m hm => hg m (e1 ▸ List.mem_append_right _ hm)) hq1
      refine ⟨d1 ++ d2, ms2, by rw [e1, f1, List.append_assoc], ?_, ?_⟩
      · rw [List.foldl_cons, f2, show (round st c).1 = _ from e2, List.append_assoc]
      · rw [List.flatten_cons, ← List.append_assoc, e3, List.append_assoc, show (kinds.foldl tryItem (st.1, st.2 ++ c)).2 = (round st c).2 from rfl, f3,
          List.flatMap_append, List.append_assoc, List.foldl_cons]
  obtain ⟨done, ms', h1, h2, h3⟩ := key cs ([], []) ms hg (by rw [List.nil_append]; exact hq)
  exact ⟨done, ms', h1, h2.trans (List.nil_append _), by rw [← h3]; rfl⟩

/-- C154, the part that holds: when all bytes have come, all messages are handled after some rounds. -/
theorem items_all_partial {ms : List (Bytes × Bytes)} (hg : ∀ m ∈ ms, Sendable m) {cs : List Bytes} (hq : cs.flatten = ms.flatMap wire)
    {k : Nat} (hk : ms.length ≤ k) : (cs ++ List.replicate k []).foldl round ([], []) = (ms, []) := by
  obtain ⟨done, ms', h1, h2, h3⟩ := items_partial hg (cs := cs) (by rw [hq]; exact List.prefix_refl _)
  rw [List.foldl_append]
  have hst : (cs.foldl round ([], [])).2 = ms'.flatMap wire := by
    rw [hq, h1, List.flatMap_append] at h3
    exact (List.append_cancel_left h3).symm
  have key : ∀ (k : Nat) (ms' : List (Bytes × Bytes)) (st : List (Bytes × Bytes) × Bytes), (∀ m ∈ ms', Sendable m) → ms'.length ≤ k →
      st.2 = ms'.flatMap wire → (List.replicate k []).foldl round st = (st.1 ++ ms', []) := by
    intro k
    induction k with
    | zero =>
      intro ms' st _ hl hs
      have : ms' = [] := List.length_eq_zero_iff.1 (Nat.le_zero.1 hl)
      subst this
      show st = _
      rw [List.append_nil, ← (show st.2 = [] from hs)]
    | succ k ih =>
      intro ms' st hg hl hs
      rw [List.replicate_succ, List.foldl_cons]
      cases ms' with
      | nil =>
        have hr : round st [] = st := by
          unfold round
          rw [List.append_nil]
          exact tries_nil hs
        rw [hr]
        exact ih [] st nofun (Nat.zero_le _) hs
      | cons m ms' =>
        obtain ⟨d, ms1, e1, e2, e3⟩ := round_more hg hs
        have hl1 : ms1.length ≤ k := by
          have := congrArg List.length e1
          simp only [List.length_cons, List.length_append] at this hl
          omega
        rw [ih ms1 (round st []) (fun x hx => hg x (e1 ▸ List.mem_append_right _ hx)) hl1 e3, e2, List.append_assoc, e1]
  rw [key k ms' _ (fun m hm => hg m (h1 ▸ List.mem_append_right _ hm)) (by rw [h1, List.length_append] at hk; omega) hst, h2, h1]

/-- Against C154: although the length is sent, data in which its closing tag is is cut there. -/
theorem item_cut {n a b : Bytes} (hn : n ∈ kinds) (hs : (a ++ closing n ++ b).length < 4294967296)
    (hc : ∀ h, header (a ++ closing n ++ b).length = some h → ¬ closing n <:+: h ++ a) (r : Bytes) :
    handleItem n (wire (n, a ++ closing n ++ b) ++ r) = some (a, b ++ closing n ++ r) := by
  obtain ⟨h, h1, h2, h3⟩ := header_spec hs
  have hnm := kind_name n hn
  have hw : wire (n, a ++ closing n ++ b) ++ r = opening n ++ (h ++ a) ++ closing n ++ (b ++ closing n ++ r) := by
    unfold wire send
    rw [h1]
    show opening n ++ h ++ (a ++ closing n ++ b) ++ closing n ++ r = _
    simp only [List.append_assoc]
  have hf : (positions (closing n) (opening n ++ (h ++ a) ++ closing n ++ (b ++ closing n ++ r))).head? = some (opening n ++ (h ++ a)).length :=
    find_first (closing_tail hnm) (closing_skip hnm (hc h h1))
  have hcl : (closing n).length = n.length + 3 := by
    unfold closing
    simp only [List.length_cons, List.length_append, List.length_nil]
  have ho := opening_length n
  have htake : ((opening n ++ (h ++ a) ++ closing n ++ (b ++ closing n ++ r)).drop (opening n).length).take 4 = h := by
    simp only [List.append_assoc, List.drop_left]
    rw [← h2, List.take_left]
  rw [hw]
  unfold handleItem
  dsimp only
  rw [if_pos (List.isPrefixOf_iff_prefix.2 ⟨(h ++ a) ++ closing n ++ (b ++ closing n ++ r), by simp only [List.append_assoc]⟩), htake, hf, h3]
  rw [if_neg (by simp only [List.length_append]; omega), if_neg (by simp only [List.length_append]; omega)]
  dsimp only
  congr 2
  · rw [List.append_assoc, List.take_left]
    rw [← List.append_assoc, show (opening n).length + 4 = (opening n ++ h).length from by rw [List.length_append]; omega, List.drop_left]
  · rw [show (opening n ++ (h ++ a)).length + 2 + n.length + 1 = (opening n ++ (h ++ a) ++ closing n).length from by
      rw [List.length_append (bs := closing n)]; omega, List.drop_left]

/-! ### Examples -/

def exDumps : Bool → Bytes
  | true => [1, 46]
  | false => [2, 46]

def exLoads (p : Bytes) : Load Bool :=
  if p = [1, 46] then .ok true else if p = [2, 46] then .ok false else if p = [] ∨ p = [1] ∨ p = [2] then .truncated else .bad

theorem exPickles : Pickles exDumps exLoads where
  some := by intro v; cases v <;> exact nofun
  whole := by intro v; cases v <;> rfl
  part := by
    intro v p hp hne
    have : p = (exDumps v).take p.length := List.prefix_iff_eq_take.1 hp
    have hl : p.length < 2 := by
      have h2 : (exDumps v).length = 2 := by cases v <;> rfl
      exact h2 ▸ Nat.lt_of_le_of_ne hp.length_le fun e => hne (hp.eq_of_length e)
    match hn : p.length, hl with
    | 0, _ => rw [hn] at this; rw [this]; cases v <;> rfl
    | 1, _ => rw [hn] at this; rw [this]; cases v <;> rfl

/-- A task with two events, which are read in pieces. -/
def exEvents (t : Nat) : List Bool := if t = 1 then [true, false] else []

def exActs : List (Act Bool) := [.start, .read 1 (ascii "<event>" ++ [1]), .write 3, .read 1 ([46] ++ ascii "</event><eve"), .write 9,
  .reap 1 (ascii "nt>" ++ [2, 46] ++ ascii "</event>") true, .write 100]

theorem exValid : Valid exDumps exEvents exActs where
  bytes := by
    intro t
    by_cases h : t = 1
    · subst h; exact ⟨[], by decide⟩
    · have h1 : bytesOf t exActs = [] := by
        unfold bytesOf exActs
        simp only [List.flatMap_cons, List.flatMap_nil, if_neg (Ne.symm h), List.append_nil]
      rw [h1]
      exact List.nil_prefix
  ends := by
    intro pre t c v post h
    match pre, h with
    | [a, b, d, e, f], h =>
      cases h
      exact ⟨by decide, by decide⟩
    | [], h => cases h
    | [_], h => cases h
    | [_, _], h => cases h
    | [_, _, _], h => cases h
    | [_, _, _, _], h => cases h
    | [_, _, _, _, _, _], h => cases h
    | _ :: _ :: _ :: _ :: _ :: _ :: _ :: l, h => cases l <;> cases h

/-- What the cooker reads then. -/
example : (feed (cookerNext exLoads) ([], some []) (runWorker id exDumps exActs).chan) = ([(true, true), (true, false), (false, true)], some []) := by
  decide +kernel

/-- The conditions of the theorem hold for it. -/
example : (∀ t, ∀ v ∈ exEvents t, NoTag (exDumps v)) ∧ ∀ t, ∀ v ∈ exitsOf t exActs, ¬ closing exName <:+: exDumps v := by
  have short : ∀ (p : Bytes) (v : Bool), 7 ≤ p.length → ¬ p <:+: exDumps v := by
    intro p v h hi
    have := hi.length_le
    have h2 : (exDumps v).length = 2 := by cases v <;> rfl
    omega
  exact ⟨fun t v _ => ⟨short _ _ (by decide), short _ _ (by decide)⟩, fun t v _ => short _ _ (by decide)⟩

/-- A message of the log with this text: the worker fails. -/
example : childNext (frame evName (ascii "see <event> here")) = .dead := by decide +kernel

/-- Messages of the cooker. -/
example : [(ascii "<workerdata>") ++ [0, 0, 0], [2, 7, 60] ++ ascii "</workerdata><run", ascii "task>" ++ [0, 0, 0, 1, 9] ++ ascii "</runtask>"].foldl round ([], []) =
    ([(ascii "workerdata", [7, 60]), (ascii "runtask", [9])], []) := by decide +kernel

example : wire (ascii "runtask", [9]) = ascii "<runtask>" ++ [0, 0, 0, 1, 9] ++ ascii "</runtask>" := by decide +kernel

end Bb.Pipe
