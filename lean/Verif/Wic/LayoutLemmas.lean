import Verif.Wic.LayoutSpec
/-! Helper lemmas for the layout theorems. -/

namespace Isar.Wic

theorem Except.bind_ok {ε α β} {x : Except ε α} {f : α → Except ε β} {b : β}
    (h : (x >>= f) = .ok b) : ∃ a, x = .ok a ∧ f a = .ok b := by
  cases x with
  | error e => simp [bind, Except.bind] at h
  | ok a => exact ⟨a, rfl, h⟩

/-- Everything one iteration establishes. -/
structure StepFacts (pt : PTable) (nreal : Nat) (s : LState) (p : PartSpec)
    (s' : LState) (q : Placed) : Prop where
  spec : q.spec = p
  size : q.size = p.sizeSec
  ty : q.ptype = effType pt nreal s p
  numpart : s'.numpart = s.numpart + 1
  realpart : s'.realpart = if p.noTable then s.realpart else s.realpart + 1
  start : applyOffset p.offset
      ((if s.numpart = 0 then s.offset + tableOverhead pt else s.offset) + ebrSectors pt q.ptype
        + alignSectors p.align
          ((if s.numpart = 0 then s.offset + tableOverhead pt else s.offset)
            + ebrSectors pt q.ptype)) = .ok q.start
  offset : s'.offset = q.start + q.size
  check : checkPart pt p = .ok ()

theorem layoutStep_facts {pt nreal s p s' q} (h : layoutStep pt nreal s p = .ok (s', q)) :
    StepFacts pt nreal s p s' q := by
  unfold layoutStep at h
  obtain ⟨_, hc, h⟩ := Except.bind_ok h
  obtain ⟨st, hst, h⟩ := Except.bind_ok h
  have key : ((if s.numpart = 0 then s.offset + tableOverhead pt else s.offset)
      + ebrSectors pt (effType pt nreal s p)) =
      (if pt = .msdos ∧ effType pt nreal s p = .logical then
        (if s.numpart + 1 = 1 then s.offset + tableOverhead pt else s.offset) + 2
      else (if s.numpart + 1 = 1 then s.offset + tableOverhead pt else s.offset)) := by
    unfold ebrSectors
    have : (s.numpart + 1 = 1) = (s.numpart = 0) := by simp
    simp only [this]
    by_cases hq : pt = .msdos ∧ effType pt nreal s p = .logical
    · rw [if_pos hq, if_pos hq]
    · rw [if_neg hq, if_neg hq, Nat.add_zero]
  rw [← key] at hst
  split at h
  · split at h
    · split at h <;>
      · simp only [Except.ok.injEq, Prod.mk.injEq] at h
        obtain ⟨rfl, rfl⟩ := h
        exact ⟨rfl, rfl, rfl, rfl, rfl, hst, rfl, hc⟩
    · simp only [Except.ok.injEq, Prod.mk.injEq] at h
      obtain ⟨rfl, rfl⟩ := h
      exact ⟨rfl, rfl, rfl, rfl, rfl, hst, rfl, hc⟩
  · simp only [Except.ok.injEq, Prod.mk.injEq] at h
    obtain ⟨rfl, rfl⟩ := h
    exact ⟨rfl, rfl, rfl, rfl, rfl, hst, rfl, hc⟩

/-- Number bookkeeping of one iteration. -/
structure StepNums (pt : PTable) (s : LState) (p : PartSpec) (al : Nat) (s' : LState) (q : Placed) :
    Prop where
  nonMsdos : pt ≠ .msdos →
    q.num = (if p.noTable then 0 else s.realpart + 1) ∧ s'.primaryPartNum = s.primaryPartNum ∧
    s'.extendedpart = s.extendedpart ∧ s'.extendedSizeSec = s.extendedSizeSec ∧
    s'.logicalPartCnt = s.logicalPartCnt
  noTable : pt = .msdos → p.noTable = true →
    q.num = 0 ∧ s'.primaryPartNum = s.primaryPartNum ∧ s'.extendedpart = s.extendedpart ∧
    s'.extendedSizeSec = s.extendedSizeSec ∧ s'.logicalPartCnt = s.logicalPartCnt
  primary : pt = .msdos → p.noTable = false → q.ptype = .primary →
    q.num = s.primaryPartNum + 1 ∧ s'.primaryPartNum = s.primaryPartNum + 1 ∧
    s'.extendedpart = s.extendedpart ∧ s'.extendedSizeSec = s.extendedSizeSec ∧
    s'.logicalPartCnt = s.logicalPartCnt
  firstLogical : pt = .msdos → p.noTable = false → q.ptype = .logical → s.extendedpart = 0 →
    q.num = s.logicalPartCnt + 5 ∧ s'.primaryPartNum = s.primaryPartNum + 1 ∧
    s'.extendedpart = q.num ∧ s'.extendedSizeSec = s.extendedSizeSec + (p.sizeSec + 2) ∧
    s'.logicalPartCnt = s.logicalPartCnt + 1
  nextLogical : pt = .msdos → p.noTable = false → q.ptype = .logical → s.extendedpart ≠ 0 →
    q.num = s.logicalPartCnt + 5 ∧ s'.primaryPartNum = s.primaryPartNum ∧
    s'.extendedpart = s.extendedpart ∧
    s'.extendedSizeSec = s.extendedSizeSec + al + (p.sizeSec + 2) ∧
    s'.logicalPartCnt = s.logicalPartCnt + 1

theorem layoutStep_nums {pt nreal s p s' q} (h : layoutStep pt nreal s p = .ok (s', q)) :
    StepNums pt s p (alignSectors p.align
          ((if s.numpart = 0 then s.offset + tableOverhead pt else s.offset)
            + ebrSectors pt q.ptype)) s' q := by
  have hty := (layoutStep_facts h).ty
  unfold layoutStep at h
  obtain ⟨_, hc, h⟩ := Except.bind_ok h
  obtain ⟨st, hst, h⟩ := Except.bind_ok h
  have key : ((if s.numpart = 0 then s.offset + tableOverhead pt else s.offset)
      + ebrSectors pt q.ptype) =
      (if pt = .msdos ∧ effType pt nreal s p = .logical then
        (if s.numpart + 1 = 1 then s.offset + tableOverhead pt else s.offset) + 2
      else (if s.numpart + 1 = 1 then s.offset + tableOverhead pt else s.offset)) := by
    rw [hty]
    unfold ebrSectors
    have : (s.numpart + 1 = 1) = (s.numpart = 0) := by simp
    simp only [this]
    by_cases hq : pt = .msdos ∧ effType pt nreal s p = .logical
    · rw [if_pos hq, if_pos hq]
    · rw [if_neg hq, if_neg hq, Nat.add_zero]
  rw [key]
  clear key hty
  split at h
  · next hm =>
    split at h
    · next hl =>
      split at h
      · next he =>
        simp only [Except.ok.injEq, Prod.mk.injEq] at h
        obtain ⟨rfl, rfl⟩ := h
        constructor <;> simp_all
      · next he =>
        simp only [Except.ok.injEq, Prod.mk.injEq] at h
        obtain ⟨rfl, rfl⟩ := h
        constructor <;> simp_all
    · next hl =>
      simp only [Except.ok.injEq, Prod.mk.injEq] at h
      obtain ⟨rfl, rfl⟩ := h
      constructor <;> simp_all
  · next hm =>
    simp only [Except.ok.injEq, Prod.mk.injEq] at h
    obtain ⟨rfl, rfl⟩ := h
    constructor
    · intro hpt
      cases hn : p.noTable <;> simp_all
    all_goals simp_all

theorem applyOffset_le {o : Option Int} {off st : Nat} (h : applyOffset o off = .ok st) :
    off ≤ st := by
  unfold applyOffset at h
  split at h
  · simp at h; omega
  · simp only at h
    split at h
    · simp at h
    · split at h
      · simp at h
      · simp at h; omega

theorem applyOffset_exact {b : Int} {off st : Nat} (h : applyOffset (some b) off = .ok st) :
    (st : Int) * 512 = b := by
  unfold applyOffset at h
  simp only at h
  split at h
  · simp at h
  · next h1 =>
    split at h
    · simp at h
    · next h2 =>
      simp only [Except.ok.injEq] at h
      simp only [ne_eq, Decidable.not_not, sectorSize] at h1
      simp only [sectorSize] at h h2
      omega

theorem layoutLoop_cons {pt nreal s p ps s'' qs}
    (h : layoutLoop pt nreal s (p :: ps) = .ok (s'', qs)) :
    ∃ s' q qs', layoutStep pt nreal s p = .ok (s', q) ∧
      layoutLoop pt nreal s' ps = .ok (s'', qs') ∧ qs = q :: qs' := by
  unfold layoutLoop at h
  obtain ⟨⟨s', q⟩, h1, h⟩ := Except.bind_ok h
  obtain ⟨⟨s2, qs'⟩, h2, h⟩ := Except.bind_ok h
  simp at h
  exact ⟨s', q, qs', h1, by rw [h2, h.1], h.2.symm⟩

theorem layoutPartitions_ok {pt x ps l} (h : layoutPartitions pt x ps = .ok l) :
    ∃ s, layoutLoop pt (numReal ps) {} ps = .ok (s, l.parts) ∧
      l.minSize = (s.offset + (if pt = .msdos then 0 else 34)) * 512 + x ∧
      l.extendedpart = s.extendedpart ∧ l.extendedSizeSec = s.extendedSizeSec := by
  unfold layoutPartitions at h
  obtain ⟨⟨s, qs⟩, h1, h⟩ := Except.bind_ok h
  simp at h
  subst h
  refine ⟨s, h1, ?_, rfl, rfl⟩
  cases pt <;> simp [gptOverhead, sectorSize]

end Isar.Wic

namespace Isar.Wic

/-- The first free sector in a given loop state. -/
def base (pt : PTable) (s : LState) : Nat :=
  if s.numpart = 0 then s.offset + tableOverhead pt else s.offset

theorem step_base_le {pt nreal s p s' q} (h : layoutStep pt nreal s p = .ok (s', q)) :
    base pt s + ebrSectors pt q.ptype ≤ q.start ∧ base pt s' = q.start + q.size := by
  have f := layoutStep_facts h
  have := applyOffset_le f.start
  refine ⟨by unfold base; omega, ?_⟩
  have h1 := f.numpart
  have h2 := f.offset
  unfold base
  rw [if_neg (by omega), h2]

theorem loop_pairwise {pt nreal} (ps : List PartSpec) : ∀ s s' qs,
    layoutLoop pt nreal s ps = .ok (s', qs) →
    base pt s ≤ base pt s' ∧
    (∀ q ∈ qs, base pt s + ebrSectors pt q.ptype ≤ q.start ∧ q.start + q.size ≤ base pt s') ∧
    qs.Pairwise (fun a b => a.start + a.size + ebrSectors pt b.ptype ≤ b.start) ∧
    qs.map Placed.spec = ps ∧ (∀ q ∈ qs, q.size = q.spec.sizeSec) := by
  induction ps with
  | nil =>
    intro s s' qs h
    simp [layoutLoop] at h
    obtain ⟨rfl, rfl⟩ := h
    simp
  | cons p ps ih =>
    intro s s'' qs h
    obtain ⟨s', q, qs', h1, h2, rfl⟩ := layoutLoop_cons h
    obtain ⟨i1, i2, i3, i4, i5⟩ := ih _ _ _ h2
    have hb := step_base_le h1
    have f := layoutStep_facts h1
    refine ⟨by omega, ?_, ?_, ?_, ?_⟩
    · intro r hr
      simp only [List.mem_cons] at hr
      rcases hr with rfl | hr
      · exact ⟨hb.1, by omega⟩
      · have := i2 r hr
        omega
    · refine List.Pairwise.cons ?_ i3
      intro r hr
      have := i2 r hr
      omega
    · simp [i4, f.spec]
    · intro r hr
      simp only [List.mem_cons] at hr
      rcases hr with rfl | hr
      · rw [f.size, f.spec]
      · exact i5 r hr

theorem loop_split {pt nreal} (ps : List PartSpec) : ∀ s s' pre q post,
    layoutLoop pt nreal s ps = .ok (s', pre ++ q :: post) →
    ∃ s1 s2 ps1 ps2, ps = ps1 ++ q.spec :: ps2 ∧ layoutLoop pt nreal s ps1 = .ok (s1, pre) ∧
      layoutStep pt nreal s1 q.spec = .ok (s2, q) ∧ layoutLoop pt nreal s2 ps2 = .ok (s', post) := by
  induction ps with
  | nil =>
    intro s s' pre q post h
    simp [layoutLoop] at h
  | cons p ps ih =>
    intro s s'' pre q post h
    obtain ⟨s', q', qs', h1, h2, he⟩ := layoutLoop_cons h
    cases pre with
    | nil =>
      simp only [List.nil_append, List.cons.injEq] at he
      obtain ⟨rfl, rfl⟩ := he
      have f := layoutStep_facts h1
      exact ⟨s, s', [], ps, by simp [f.spec], by simp [layoutLoop], by rw [f.spec]; exact h1, h2⟩
    | cons r pre =>
      simp only [List.cons_append, List.cons.injEq] at he
      obtain ⟨rfl, rfl⟩ := he
      obtain ⟨s1, s2, ps1, ps2, e, a, b, c⟩ := ih _ _ _ _ _ h2
      refine ⟨s1, s2, p :: ps1, ps2, by simp [e], ?_, b, c⟩
      simp [layoutLoop, h1, a, bind, Except.bind]

theorem loop_base {pt nreal} (ps : List PartSpec) : ∀ s s' qs,
    layoutLoop pt nreal s ps = .ok (s', qs) →
    base pt s' = match qs.getLast? with
      | none => base pt s
      | some r => r.start + r.size := by
  induction ps with
  | nil =>
    intro s s' qs h
    simp [layoutLoop] at h
    obtain ⟨rfl, rfl⟩ := h
    simp
  | cons p ps ih =>
    intro s s'' qs h
    obtain ⟨s', q, qs', h1, h2, rfl⟩ := layoutLoop_cons h
    have := ih _ _ _ h2
    have hb := step_base_le h1
    rw [this]
    cases qs' with
    | nil => simp [hb.2]
    | cons r rs =>
      have hz : (r :: rs).getLast? = some ((r :: rs).getLast (by simp)) :=
        List.getLast?_eq_some_getLast _
      rw [List.getLast?_cons_cons, hz]

theorem reserved_eq (pt : PTable) : base pt {} = reservedSectors pt := by
  cases pt <;> rfl

/-- Where a partition is placed, in terms of what lies before it. -/
theorem placed_start {pt x ps l pre q post} (h : layoutPartitions pt x ps = .ok l)
    (hs : l.parts = pre ++ q :: post) :
    applyOffset q.spec.offset (freeAfter pt pre + ebrSectors pt q.ptype +
      alignSectors q.spec.align (freeAfter pt pre + ebrSectors pt q.ptype)) = .ok q.start := by
  obtain ⟨s, h1, -⟩ := layoutPartitions_ok h
  rw [hs] at h1
  obtain ⟨s1, s2, ps1, ps2, -, a, b, -⟩ := loop_split _ _ _ _ _ _ h1
  have hb := loop_base _ _ _ _ a
  have f := layoutStep_facts b
  have hst := f.start
  have : base pt s1 = freeAfter pt pre := by
    rw [hb, reserved_eq]; rfl
  unfold base at this
  rw [this] at hst
  exact hst

theorem alignSectors_dvd (a off : Nat) (ha : a ≠ 0) : a * 2 ∣ off + alignSectors a off := by
  have e : a * 1024 / 512 = a * 2 := by omega
  unfold alignSectors
  simp only [sectorSize, e, if_neg ha]
  split
  · exact Nat.dvd_of_mod_eq_zero (by simpa using ‹_›)
  · have h1 := Nat.mod_lt off (show 0 < a * 2 by omega)
    have h2 := Nat.div_add_mod off (a * 2)
    refine ⟨off / (a * 2) + 1, ?_⟩
    rw [Nat.mul_add]
    omega

theorem alignSectors_le (a off m : Nat) (ha : a ≠ 0) (hm : off ≤ m) (hd : a * 2 ∣ m) :
    off + alignSectors a off ≤ m := by
  have e : a * 1024 / 512 = a * 2 := by omega
  unfold alignSectors
  simp only [sectorSize, e, if_neg ha]
  split
  · omega
  · next hne =>
    obtain ⟨k, rfl⟩ := hd
    have h1 := Nat.mod_lt off (show 0 < a * 2 by omega)
    have h2 := Nat.div_add_mod off (a * 2)
    have : off / (a * 2) < k := by
      apply Nat.lt_of_mul_lt_mul_left (a := a * 2)
      have : a * 2 * (off / (a * 2)) ≠ a * 2 * k := by
        intro hc
        rw [hc] at h2
        omega
      omega
    have h3 : a * 2 * (off / (a * 2) + 1) ≤ a * 2 * k := Nat.mul_le_mul_left _ this
    rw [Nat.mul_add] at h3
    omega

end Isar.Wic

namespace Isar.Wic

theorem loop_numpart {pt nreal} (ps : List PartSpec) : ∀ s s' qs,
    layoutLoop pt nreal s ps = .ok (s', qs) → s'.numpart = s.numpart + qs.length := by
  induction ps with
  | nil =>
    intro s s' qs h
    simp [layoutLoop] at h
    obtain ⟨rfl, rfl⟩ := h
    simp
  | cons p ps ih =>
    intro s s'' qs h
    obtain ⟨s', q, qs', h1, h2, rfl⟩ := layoutLoop_cons h
    have := ih _ _ _ h2
    have f := (layoutStep_facts h1).numpart
    simp only [List.length_cons]
    omega

theorem ptype_cases (t : PType) : t = .primary ∨ t = .logical := by cases t <;> simp

theorem step_num_zero {pt nreal s p s' q} (h : layoutStep pt nreal s p = .ok (s', q)) :
    q.num = 0 ↔ q.spec.noTable = true := by
  have f := layoutStep_facts h
  have n := layoutStep_nums h
  rw [f.spec]
  by_cases hpt : pt = .msdos
  · cases hn : p.noTable
    · rcases ptype_cases q.ptype with ht | ht
      · have := n.primary hpt hn ht
        simp; omega
      · by_cases he : s.extendedpart = 0
        · have := n.firstLogical hpt hn ht he
          simp; omega
        · have := n.nextLogical hpt hn ht he
          simp; omega
    · have := n.noTable hpt hn
      simp [this.1]
  · have := (n.nonMsdos hpt).1
    cases hn : p.noTable <;> simp_all

theorem loop_all_steps {pt nreal} {P : Placed → Prop}
    (hP : ∀ s p s' q, layoutStep pt nreal s p = .ok (s', q) → P q) (ps : List PartSpec) :
    ∀ s s' qs, layoutLoop pt nreal s ps = .ok (s', qs) → ∀ q ∈ qs, P q := by
  induction ps with
  | nil =>
    intro s s' qs h
    simp [layoutLoop] at h
    obtain ⟨rfl, rfl⟩ := h
    simp
  | cons p ps ih =>
    intro s s'' qs h
    obtain ⟨s', q, qs', h1, h2, rfl⟩ := layoutLoop_cons h
    intro r hr
    simp only [List.mem_cons] at hr
    rcases hr with rfl | hr
    · exact hP _ _ _ _ h1
    · exact ih _ _ _ h2 r hr

end Isar.Wic

namespace Isar.Wic

/-! ### Partition numbers -/

theorem eff_primary {nreal s p} (h : effType .msdos nreal s p = .primary) :
    s.primaryPartNum ≤ 3 ∧ p.ptype = .primary := by
  unfold effType at h
  rw [if_pos rfl] at h
  split at h
  · simp at h
  · next hn =>
    constructor
    · omega
    · exact h

/-- Invariant of the counters on msdos. -/
structure MsInv (nreal : Nat) (s : LState) : Prop where
  ext_log : s.extendedpart = if s.logicalPartCnt = 0 then 0 else 5
  prim_le : s.primaryPartNum ≤ s.realpart + (if s.logicalPartCnt = 0 then 0 else 1)
  prim_4 : s.primaryPartNum ≤ 4
  prim_3 : nreal > 4 → s.logicalPartCnt = 0 → s.primaryPartNum ≤ 3
  real_le : s.logicalPartCnt = 0 → s.primaryPartNum = s.realpart

theorem msInv_init (nreal : Nat) : MsInv nreal {} := by
  constructor <;> simp

/-- the number of table partitions still to come -/
theorem msInv_step {nreal s p s' q} (h : layoutStep .msdos nreal s p = .ok (s', q))
    (hr : p.noTable = false → s.realpart + 1 ≤ nreal)
    (i : MsInv nreal s) : MsInv nreal s' := by
  have f := layoutStep_facts h
  have n := layoutStep_nums h
  obtain ⟨i1, i2, i3, i4, i5⟩ := i
  have hreal := f.realpart
  cases hn : p.noTable
  · have hr := hr hn
    rw [hn] at hreal
    simp at hreal
    rcases ptype_cases q.ptype with ht | ht
    · obtain ⟨a, b, c, d, e⟩ := n.primary rfl hn ht
      have hp := eff_primary (f.ty ▸ ht)
      have hty := f.ty
      rw [ht] at hty
      unfold effType at hty
      rw [if_pos rfl] at hty
      split at hty
      · simp at hty
      · next hno =>
        constructor
        · rw [c, e]; exact i1
        · rw [e, b, hreal]; omega
        · omega
        · intro hg hz
          rw [e] at hz
          have : s.extendedpart = 0 := by rw [i1, if_pos hz]
          omega
        · intro hz
          rw [e] at hz
          have := i5 hz
          omega
    · by_cases he : s.extendedpart = 0
      · obtain ⟨a, b, c, d, e⟩ := n.firstLogical rfl hn ht he
        have hz : s.logicalPartCnt = 0 := by
          rw [he] at i1
          split at i1 <;> omega
        have := i5 hz
        constructor
        · rw [c, e, a, hz]; simp
        · rw [e, b, hreal, hz]; simp; omega
        · rw [b]
          by_cases hg : nreal > 4
          · have := i4 hg hz; omega
          · omega
        · intro _ h0; omega
        · intro h0; omega
      · obtain ⟨a, b, c, d, e⟩ := n.nextLogical rfl hn ht he
        have hz : s.logicalPartCnt ≠ 0 := by
          intro h0
          rw [h0] at i1
          simp at i1
          exact he i1
        rw [if_neg hz] at i1 i2
        constructor
        · rw [c, e, i1]; simp
        · rw [e, b, hreal]; simp; omega
        · omega
        · intro _ h0; omega
        · intro h0; omega
  · rw [hn] at hreal
    simp at hreal
    obtain ⟨a, b, c, d, e⟩ := n.noTable rfl hn
    constructor
    · rw [c, e]; exact i1
    · rw [b, e, hreal]; exact i2
    · omega
    · rw [b, e]; exact i4
    · rw [b, e, hreal]; exact i5

theorem numReal_cons (p : PartSpec) (ps : List PartSpec) :
    numReal (p :: ps) = (if p.noTable then 0 else 1) + numReal ps := by
  unfold numReal
  cases hn : p.noTable <;> simp [hn]; omega

theorem loop_msInv {nreal} (ps : List PartSpec) : ∀ s s' qs,
    layoutLoop .msdos nreal s ps = .ok (s', qs) → s.realpart + numReal ps ≤ nreal →
    MsInv nreal s → MsInv nreal s' ∧
    s.primaryPartNum ≤ s'.primaryPartNum ∧ s.logicalPartCnt ≤ s'.logicalPartCnt ∧
    (∀ q ∈ qs, q.spec.noTable = false → q.ptype = .primary →
      s.primaryPartNum < q.num ∧ q.num ≤ 4 ∧ q.num ≤ s'.primaryPartNum) ∧
    (∀ q ∈ qs, q.spec.noTable = false → q.ptype = .logical →
      s.logicalPartCnt + 4 < q.num ∧ q.num ≤ s'.logicalPartCnt + 4) ∧
    qs.Pairwise (fun a b => a.spec.noTable = false → b.spec.noTable = false →
      a.num ≠ b.num) := by
  induction ps with
  | nil =>
    intro s s' qs h _ hi
    simp [layoutLoop] at h
    obtain ⟨rfl, rfl⟩ := h
    simp [hi]
  | cons p ps ih =>
    intro s s'' qs h hr hi
    obtain ⟨s', q, qs', h1, h2, rfl⟩ := layoutLoop_cons h
    have f := layoutStep_facts h1
    have n := layoutStep_nums h1
    rw [numReal_cons] at hr
    have hi' := msInv_step h1 (by intro h0; rw [h0] at hr; simp at hr; omega) hi
    have hr' : s'.realpart + numReal ps ≤ nreal := by
      rw [f.realpart]
      cases hn : p.noTable <;> simp [hn] at hr ⊢ <;> omega
    obtain ⟨j0, j1, j2, j3, j4, j5⟩ := ih _ _ _ h2 hr' hi'
    have hspec := f.spec
    cases hn : p.noTable
    · rcases ptype_cases q.ptype with ht | ht
      · obtain ⟨a, b, c, d, e⟩ := n.primary rfl hn ht
        have hp := eff_primary (f.ty ▸ ht)
        refine ⟨j0, by omega, by omega, ?_, ?_, ?_⟩
        · intro r hr hrn hrt
          simp only [List.mem_cons] at hr
          rcases hr with rfl | hr
          · omega
          · have := j3 r hr hrn hrt
            omega
        · intro r hr hrn hrt
          simp only [List.mem_cons] at hr
          rcases hr with rfl | hr
          · rw [ht] at hrt; simp at hrt
          · have := j4 r hr hrn hrt
            omega
        · refine List.Pairwise.cons ?_ j5
          intro r hr _ hrn
          rcases ptype_cases r.ptype with hrt | hrt
          · have := j3 r hr hrn hrt
            omega
          · have := j4 r hr hrn hrt
            omega
      · have hnum : q.num = s.logicalPartCnt + 5 ∧ s.primaryPartNum ≤ s'.primaryPartNum ∧
            s'.logicalPartCnt = s.logicalPartCnt + 1 := by
          by_cases he : s.extendedpart = 0
          · obtain ⟨a, b, c, d, e⟩ := n.firstLogical rfl hn ht he
            omega
          · obtain ⟨a, b, c, d, e⟩ := n.nextLogical rfl hn ht he
            omega
        refine ⟨j0, by omega, by omega, ?_, ?_, ?_⟩
        · intro r hr hrn hrt
          simp only [List.mem_cons] at hr
          rcases hr with rfl | hr
          · rw [ht] at hrt; simp at hrt
          · have := j3 r hr hrn hrt
            omega
        · intro r hr hrn hrt
          simp only [List.mem_cons] at hr
          rcases hr with rfl | hr
          · omega
          · have := j4 r hr hrn hrt
            omega
        · refine List.Pairwise.cons ?_ j5
          intro r hr _ hrn
          rcases ptype_cases r.ptype with hrt | hrt
          · have := j3 r hr hrn hrt
            omega
          · have := j4 r hr hrn hrt
            omega
    · obtain ⟨a, b, c, d, e⟩ := n.noTable rfl hn
      refine ⟨j0, by omega, by omega, ?_, ?_, ?_⟩
      · intro r hr hrn hrt
        simp only [List.mem_cons] at hr
        rcases hr with rfl | hr
        · rw [hspec, hn] at hrn; simp at hrn
        · have := j3 r hr hrn hrt
          omega
      · intro r hr hrn hrt
        simp only [List.mem_cons] at hr
        rcases hr with rfl | hr
        · rw [hspec, hn] at hrn; simp at hrn
        · have := j4 r hr hrn hrt
          omega
      · refine List.Pairwise.cons ?_ j5
        intro r hr hqn
        rw [hspec, hn] at hqn; simp at hqn

theorem loop_gptNums {pt nreal} (hpt : pt ≠ .msdos) (ps : List PartSpec) : ∀ s s' qs,
    layoutLoop pt nreal s ps = .ok (s', qs) →
    qs.map Placed.num = realnumsAux pt nreal s.realpart ps ∧
    (∀ q ∈ qs, q.spec.noTable = false → s.realpart < q.num) ∧
    qs.Pairwise (fun a b => a.spec.noTable = false → b.spec.noTable = false →
      a.num ≠ b.num) := by
  induction ps with
  | nil =>
    intro s s' qs h
    simp [layoutLoop] at h
    obtain ⟨rfl, rfl⟩ := h
    simp [realnumsAux]
  | cons p ps ih =>
    intro s s'' qs h
    obtain ⟨s', q, qs', h1, h2, rfl⟩ := layoutLoop_cons h
    have f := layoutStep_facts h1
    have n := ((layoutStep_nums h1).nonMsdos hpt).1
    obtain ⟨j1, j2, j3⟩ := ih _ _ _ h2
    have hr := f.realpart
    have hspec := f.spec
    cases hn : p.noTable
    · rw [hn] at hr n
      simp at hr n
      refine ⟨?_, ?_, ?_⟩
      · simp [realnumsAux, hn, hpt, j1, n, hr]
      · intro r hr' hrn
        simp only [List.mem_cons] at hr'
        rcases hr' with rfl | hr'
        · omega
        · have := j2 r hr' hrn
          omega
      · refine List.Pairwise.cons ?_ j3
        intro r hr' _ hrn
        have := j2 r hr' hrn
        omega
    · rw [hn] at hr n
      simp at hr n
      refine ⟨?_, ?_, ?_⟩
      · simp [realnumsAux, hn, j1, n, hr]
      · intro r hr' hrn
        simp only [List.mem_cons] at hr'
        rcases hr' with rfl | hr'
        · rw [hspec, hn] at hrn; simp at hrn
        · have := j2 r hr' hrn
          omega
      · refine List.Pairwise.cons ?_ j3
        intro r hr' hqn
        rw [hspec, hn] at hqn; simp at hqn

/-- Invariant for lists of default (`primary`) types on msdos. -/
structure DefInv (nreal : Nat) (s : LState) : Prop where
  small : nreal ≤ 4 → s.primaryPartNum = s.realpart ∧ s.extendedpart = 0
  few : nreal > 4 → s.realpart ≤ 3 →
    s.primaryPartNum = s.realpart ∧ s.extendedpart = 0 ∧ s.logicalPartCnt = 0
  many : nreal > 4 → s.realpart > 3 →
    s.primaryPartNum = 4 ∧ s.extendedpart ≠ 0 ∧ s.logicalPartCnt + 3 = s.realpart

theorem loop_defNums {nreal} (ps : List PartSpec) : ∀ s s' qs,
    layoutLoop .msdos nreal s ps = .ok (s', qs) → s.realpart + numReal ps ≤ nreal →
    (∀ p ∈ ps, p.ptype = .primary) → DefInv nreal s →
    qs.map Placed.num = realnumsAux .msdos nreal s.realpart ps := by
  induction ps with
  | nil =>
    intro s s' qs h _ _ _
    simp [layoutLoop] at h
    obtain ⟨rfl, rfl⟩ := h
    simp [realnumsAux]
  | cons p ps ih =>
    intro s s'' qs h hr hty hi
    obtain ⟨s', q, qs', h1, h2, rfl⟩ := layoutLoop_cons h
    have f := layoutStep_facts h1
    have n := layoutStep_nums h1
    have hpt := hty p (by simp)
    rw [numReal_cons] at hr
    have hreal := f.realpart
    have ht := f.ty
    obtain ⟨i1, i2, i3⟩ := hi
    cases hn : p.noTable
    · rw [hn] at hr hreal
      simp at hr hreal
      have hr' : s'.realpart + numReal ps ≤ nreal := by omega
      by_cases hsm : nreal ≤ 4
      · have hq : q.ptype = .primary := by
          rw [ht]; unfold effType
          rw [if_pos rfl, if_neg (by omega), hpt]
        obtain ⟨a, b, c, d, e⟩ := n.primary rfl hn hq
        have hi' : DefInv nreal s' := by
          constructor
          · intro h0; have := i1 h0; omega
          · intro h0; omega
          · intro h0; omega
        have := ih _ _ _ h2 hr' (fun r hr => hty r (by simp [hr])) hi'
        have := i1 hsm
        simp only [List.map_cons, realnumsAux, hn]
        rw [if_neg (by simp), if_neg (by omega)]
        simp_all
      · by_cases hfew : s.realpart ≤ 2
        · have hx := i2 (by omega) (by omega)
          have hq : q.ptype = .primary := by
            rw [ht]; unfold effType
            rw [if_pos rfl, if_neg (by omega), hpt]
          obtain ⟨a, b, c, d, e⟩ := n.primary rfl hn hq
          have hi' : DefInv nreal s' := by
            constructor
            · intro h0; omega
            · intro h0 _; omega
            · intro h0; omega
          have := ih _ _ _ h2 hr' (fun r hr => hty r (by simp [hr])) hi'
          simp only [List.map_cons, realnumsAux, hn]
          rw [if_neg (by simp), if_neg (by omega)]
          simp_all
        · by_cases h3 : s.realpart = 3
          · have hx := i2 (by omega) (by omega)
            have hq : q.ptype = .logical := by
              rw [ht]; unfold effType
              rw [if_pos rfl, if_pos (by omega)]
            obtain ⟨a, b, c, d, e⟩ := n.firstLogical rfl hn hq hx.2.1
            have hi' : DefInv nreal s' := by
              constructor
              · intro h0; omega
              · intro h0 _; omega
              · intro h0 _; omega
            have := ih _ _ _ h2 hr' (fun r hr => hty r (by simp [hr])) hi'
            simp only [List.map_cons, realnumsAux, hn]
            rw [if_neg (by simp), if_pos (by simp; omega), this, hreal]
            congr 1
            omega
          · have hx := i3 (by omega) (by omega)
            have hq : q.ptype = .logical := by
              rw [ht]; unfold effType
              rw [if_pos rfl, if_pos (by omega)]
            obtain ⟨a, b, c, d, e⟩ := n.nextLogical rfl hn hq hx.2.1
            have hi' : DefInv nreal s' := by
              constructor
              · intro h0; omega
              · intro h0 _; omega
              · intro h0 _
                refine ⟨by omega, ?_, by omega⟩
                rw [c]; exact hx.2.1
            have := ih _ _ _ h2 hr' (fun r hr => hty r (by simp [hr])) hi'
            simp only [List.map_cons, realnumsAux, hn]
            rw [if_neg (by simp), if_pos (by simp; omega), this, hreal]
            congr 1
            omega
    · rw [hn] at hr hreal
      simp at hr hreal
      obtain ⟨a, b, c, d, e⟩ := n.noTable rfl hn
      have hi' : DefInv nreal s' := by
        constructor
        · rw [b, c, hreal]; exact i1
        · rw [b, c, e, hreal]; exact i2
        · rw [b, c, e, hreal]; exact i3
      have := ih _ _ _ h2 (by omega) (fun r hr => hty r (by simp [hr])) hi'
      simp [realnumsAux, hn, this, a, hreal]

end Isar.Wic

namespace Isar.Wic

/-! ### Extended partition -/

theorem ext_pre {nreal} (ps : List PartSpec) : ∀ s s' qs,
    layoutLoop .msdos nreal s ps = .ok (s', qs) →
    (∀ q ∈ qs, ¬ (q.spec.noTable = false ∧ q.ptype = .logical)) →
    s'.extendedpart = s.extendedpart ∧ s'.extendedSizeSec = s.extendedSizeSec ∧
    s'.logicalPartCnt = s.logicalPartCnt := by
  induction ps with
  | nil =>
    intro s s' qs h _
    simp [layoutLoop] at h
    obtain ⟨rfl, rfl⟩ := h
    simp
  | cons p ps ih =>
    intro s s'' qs h hq
    obtain ⟨s', q, qs', h1, h2, rfl⟩ := layoutLoop_cons h
    have f := layoutStep_facts h1
    have n := layoutStep_nums h1
    have hq0 := hq q (by simp)
    have j := ih _ _ _ h2 (fun r hr => hq r (by simp [hr]))
    rw [f.spec] at hq0
    cases hn : p.noTable
    · have ht : q.ptype = .primary := by
        rcases ptype_cases q.ptype with ht | ht
        · exact ht
        · exact absurd ⟨hn, ht⟩ hq0
      obtain ⟨a, b, c, d, e⟩ := n.primary rfl hn ht
      rw [j.1, j.2.1, j.2.2, c, d, e]
      simp
    · obtain ⟨a, b, c, d, e⟩ := n.noTable rfl hn
      rw [j.1, j.2.1, j.2.2, c, d, e]
      simp

theorem ext_post {nreal} (ps : List PartSpec) : ∀ s s' qs,
    layoutLoop .msdos nreal s ps = .ok (s', qs) → s.extendedpart ≠ 0 → s.numpart ≠ 0 →
    (∀ q ∈ qs, q.spec.noTable = false ∧ q.ptype = .logical ∧ q.spec.offset = none) →
    s'.extendedpart = s.extendedpart ∧
    s'.extendedSizeSec + s.offset = s.extendedSizeSec + s'.offset := by
  induction ps with
  | nil =>
    intro s s' qs h _ _ _
    simp [layoutLoop] at h
    obtain ⟨rfl, rfl⟩ := h
    simp
  | cons p ps ih =>
    intro s s'' qs h he hnp hq
    obtain ⟨s', q, qs', h1, h2, rfl⟩ := layoutLoop_cons h
    have f := layoutStep_facts h1
    have n := layoutStep_nums h1
    obtain ⟨hn, ht, ho⟩ := hq q (by simp)
    rw [f.spec] at hn ho
    obtain ⟨a, b, c, d, e⟩ := n.nextLogical rfl hn ht he
    have hnp' := f.numpart
    have j := ih _ _ _ h2 (by rw [c]; exact he) (by omega) (fun r hr => hq r (by simp [hr]))
    refine ⟨by rw [j.1, c], ?_⟩
    have hst := f.start
    have hoff := f.offset
    have hsz := f.size
    rw [if_neg hnp, ho] at hst
    rw [if_neg hnp] at d
    simp only [applyOffset, Except.ok.injEq, ebrSectors, ht, and_self, if_true] at hst d
    omega

/-- once set, `extendedpart` stays -/
theorem ext_mono {nreal} (ps : List PartSpec) : ∀ s s' qs,
    layoutLoop .msdos nreal s ps = .ok (s', qs) → s.extendedpart ≠ 0 →
    s'.extendedpart = s.extendedpart := by
  induction ps with
  | nil =>
    intro s s' qs h _
    simp [layoutLoop] at h
    obtain ⟨rfl, rfl⟩ := h
    simp
  | cons p ps ih =>
    intro s s'' qs h he
    obtain ⟨s', q, qs', h1, h2, rfl⟩ := layoutLoop_cons h
    have n := layoutStep_nums h1
    have hc : s'.extendedpart = s.extendedpart := by
      cases hn : p.noTable
      · rcases ptype_cases q.ptype with ht | ht
        · exact (n.primary rfl hn ht).2.2.1
        · exact (n.nextLogical rfl hn ht he).2.2.1
      · exact (n.noTable rfl hn).2.2.1
    rw [ih _ _ _ h2 (by rw [hc]; exact he), hc]

end Isar.Wic

namespace Isar.Wic

theorem create_ext_aux (l : Layout) (qs : List Placed) :
    ((qs.flatMap fun q =>
      if q.num = 0 then []
      else
        let ext :=
          if PTable.msdos = PTable.msdos ∧ q.num = l.extendedpart then
            [mkPart none ((q.start : Int) - 2) (l.extendedSizeSec : Int)]
          else []
        let size : Int := if q.spec.bootFat ∧ q.size % 2 = 1 then (q.size : Int) - 1 else q.size
        ext ++ [mkPart (some q.ptype) (q.start : Int) size]).filter (fun m => m.kind.isNone)) =
    (qs.filter (fun q => q.num ≠ 0 ∧ q.num = l.extendedpart)).map
      (fun q => mkPart none ((q.start : Int) - 2) (l.extendedSizeSec : Int)) := by
  induction qs with
  | nil => simp
  | cons q qs ih =>
    rw [List.flatMap_cons, List.filter_append, ih]
    by_cases h0 : q.num = 0
    · simp [h0]
    · by_cases he : q.num = l.extendedpart
      · have : l.extendedpart ≠ 0 := by omega
        simp [he, mkPart, this]
      · simp [h0, he, mkPart]

theorem create_ext (l : Layout) :
    (createParts .msdos l).filter (fun m => m.kind.isNone) =
    (l.parts.filter (fun q => q.num ≠ 0 ∧ q.num = l.extendedpart)).map
      (fun q => mkPart none ((q.start : Int) - 2) (l.extendedSizeSec : Int)) :=
  create_ext_aux l l.parts

end Isar.Wic
