import Verif.Wic.FilemapSpec
/-! # Lemmas for the file map properties -/

namespace Isar.Wic.Filemap

theorem rd_of_le {f : File} {i : Nat} (h : f.length ≤ i) : rd f i = 0 := by
  simp [rd, List.getD_eq_getElem?_getD, List.getElem?_eq_none h]

theorem rd_writeAt (f : File) (pos : Nat) (c : List UInt8) (j : Nat) :
    rd (writeAt f pos c) j =
      if pos ≤ j ∧ j < pos + c.length then c.getD (j - pos) 0 else rd f j := by
  unfold writeAt
  by_cases hc : c = []
  · subst hc
    simp
    intro h1 h2
    omega
  · rw [if_neg hc]
    unfold rd
    simp only [List.getD_eq_getElem?_getD, List.append_assoc]
    by_cases h1 : j < pos
    · rw [if_neg (by omega)]
      by_cases h2 : j < f.length
      · rw [List.getElem?_append_left (by simp; omega), List.getElem?_take_of_lt h1]
      · rw [List.getElem?_append_right (by simp; omega), List.getElem?_append_left (by simp; omega)]
        rw [List.getElem?_eq_none (l := f) (by omega)]
        rw [List.getElem?_replicate]
        split <;> rfl
    · have hl : (f.take pos ++ List.replicate (pos - f.length) (0 : UInt8)).length = pos := by
        simp; omega
      rw [← List.append_assoc, List.getElem?_append_right (by omega), hl]
      by_cases h2 : j < pos + c.length
      · rw [if_pos (by omega), List.getElem?_append_left (by omega)]
      · rw [if_neg (by omega), List.getElem?_append_right (by omega), List.getElem?_drop]
        congr 2
        omega

theorem length_writeAt (f : File) (pos : Nat) (c : List UInt8) :
    (writeAt f pos c).length = if c = [] then f.length else max f.length (pos + c.length) := by
  unfold writeAt
  split
  · rfl
  · simp; omega

theorem getD_take_drop (src : File) (a n k : Nat) :
    ((src.drop a).take n).getD k 0 = if k < n then rd src (a + k) else 0 := by
  simp only [List.getD_eq_getElem?_getD, rd]
  split
  · rw [List.getElem?_take_of_lt ‹_›, List.getElem?_drop]
  · rw [List.getElem?_eq_none (by simp; omega)]
    rfl

/-- Result of the inner loop, from any intermediate state. -/
theorem copyLoop_spec (src : File) (length toRead start base : Nat) : ∀ fuel (s : CopyState),
    toRead - s.read < fuel → s.read ≤ toRead → 0 < s.chunkSize →
    (length ≠ 0 → s.written < length) → (length = 0 → s.read ≠ 0 → s.written ≠ 0) →
    ((s.srcPos = start + s.read ∧ s.dstPos = base + s.read) ∨
      (src.length ≤ s.srcPos ∧ src.length ≤ start + s.read)) →
    ∃ s' fin, copyLoop src length toRead fuel s = some (s', fin) ∧
      s'.written + s.read = s.written + s'.read ∧ s.read ≤ s'.read ∧ s'.read ≤ toRead ∧
      (fin = true → length ≠ 0 ∧ s'.written = length) ∧ (fin = false → s'.read = toRead ∧
        (length ≠ 0 → s'.written < length)) ∧
      (∀ j, rd s'.dst j =
        if base + s.read ≤ j ∧ j < base + s'.read ∧ start + (j - base) < src.length then
          rd src (start + (j - base)) else rd s.dst j) ∧
      s.dst.length ≤ s'.dst.length ∧
      (s'.dst.length ≤ s.dst.length ∨
        start < src.length ∧ s'.dst.length ≤ base + min s'.read (src.length - start)) := by
  intro fuel
  induction fuel with
  | zero => intro s h; omega
  | succ fuel ih =>
    intro s hf hr hc hw hw0 hpos
    unfold copyLoop
    by_cases hlt : s.read < toRead
    · rw [if_pos hlt]
      simp only
      generalize hcs : (if s.read + s.chunkSize > toRead then toRead - s.read else s.chunkSize) = cs
      have hcs0 : 0 < cs ∧ s.read + cs ≤ toRead := by
        rw [← hcs]; split <;> omega
      generalize hsz : (if length ≠ 0 ∧ s.written + cs > length then length - s.written else cs) = sz
      have hsz0 : 0 < sz ∧ s.read + sz ≤ toRead ∧ (length ≠ 0 → s.written + sz ≤ length) := by
        rw [← hsz]; split <;> omega
      generalize hch : (src.drop s.srcPos).take sz = ch
      have hchl : ch.length = min sz (src.length - s.srcPos) := by rw [← hch]; simp
      have hrd : ∀ j, rd (writeAt s.dst s.dstPos ch) j =
          if base + s.read ≤ j ∧ j < base + (s.read + sz) ∧ start + (j - base) < src.length then
            rd src (start + (j - base)) else rd s.dst j := by
        intro j
        rw [rd_writeAt]
        rcases hpos with ⟨h1, h2⟩ | ⟨h1, h2⟩
        · by_cases hj : s.dstPos ≤ j ∧ j < s.dstPos + ch.length
          · rw [if_pos hj, if_pos (by omega), ← hch, getD_take_drop, if_pos (by omega)]
            congr 1
            omega
          · rw [if_neg hj, if_neg (by omega)]
        · rw [if_neg (by omega), if_neg (by omega)]
      have hlen : ((writeAt s.dst s.dstPos ch).length ≤ s.dst.length ∨ start < src.length ∧
            (writeAt s.dst s.dstPos ch).length ≤ base + min (s.read + sz) (src.length - start)) ∧
          s.dst.length ≤ (writeAt s.dst s.dstPos ch).length := by
        rw [length_writeAt]
        split
        · omega
        · next hne =>
          have : 0 < ch.length := List.length_pos_iff.2 hne
          omega
      by_cases hfin : s.written + sz = length
      · rw [if_pos hfin]
        refine ⟨_, true, rfl, ?_, ?_, ?_, ?_, ?_, ?_, ?_, ?_⟩
        · simp only; omega
        · simp only; omega
        · simp only; omega
        · intro _; exact ⟨by omega, hfin⟩
        · simp
        · exact hrd
        · exact hlen.2
        · exact hlen.1
      · rw [if_neg hfin]
        obtain ⟨s', fin, h1, h2, h3, h4, h5, h6, h7, h8, h9⟩ := ih
          { dst := writeAt s.dst s.dstPos ch, srcPos := s.srcPos + ch.length,
            dstPos := s.dstPos + ch.length, read := s.read + sz, written := s.written + sz,
            chunkSize := cs }
          (by simp only; omega) (by simp only; omega) (by simp only; omega) (by simp only; omega)
          (by simp only; omega) (by simp only; omega)
        simp only at h2 h3 h7 h8 h9
        refine ⟨s', fin, h1, by omega, by omega, h4, h5, h6, ?_, by omega, by omega⟩
        intro j
        rw [h7, hrd]
        by_cases hj : base + (s.read + sz) ≤ j ∧ j < base + s'.read ∧
            start + (j - base) < src.length
        · rw [if_pos hj, if_pos (by omega)]
        · rw [if_neg hj]
          by_cases hj2 : base + s.read ≤ j ∧ j < base + (s.read + sz) ∧
              start + (j - base) < src.length
          · rw [if_pos hj2, if_pos (by omega)]
          · rw [if_neg hj2, if_neg (by omega)]
    · rw [if_neg hlt]
      refine ⟨s, false, rfl, by omega, by omega, by omega, by simp, ?_, ?_, by omega, by omega⟩
      · intro _; exact ⟨by omega, hw⟩
      · intro j
        rw [if_neg (by omega)]

/-- Byte `j` of the destination is written by the copy. -/
def Copied (src : File) (bs : Nat) (rs : List (Nat × Nat)) (skip seek length j : Nat) : Prop :=
  seek ≤ j ∧ skip + (j - seek) < src.length ∧ (length ≠ 0 → j - seek < length) ∧
    ∃ r ∈ rs, r.1 * bs ≤ skip + (j - seek) ∧ skip + (j - seek) < (r.2 + 1) * bs

theorem copied_cons {src bs r rs skip seek length j} :
    Copied src bs (r :: rs) skip seek length j ↔
      Copied src bs [r] skip seek length j ∨ Copied src bs rs skip seek length j := by
  unfold Copied
  constructor
  · rintro ⟨a, b, c, r', hr, d⟩
    rw [List.mem_cons] at hr
    rcases hr with rfl | hr
    · exact Or.inl ⟨a, b, c, r', by simp, d⟩
    · exact Or.inr ⟨a, b, c, r', hr, d⟩
  · rintro (⟨a, b, c, r', hr, d⟩ | ⟨a, b, c, r', hr, d⟩)
    · exact ⟨a, b, c, r', by simp at hr; simp [hr], d⟩
    · exact ⟨a, b, c, r', by simp [hr], d⟩

theorem copied_one {src : File} {bs first last skip st seek length rd j : Nat}
    (h1 : skip ≤ st) (h2 : first * bs ≤ st) (h3 : st = skip ∨ st = first * bs)
    (h4 : rd ≤ (last + 1) * bs - st)
    (h5 : (rd = (last + 1) * bs - st ∧ (length ≠ 0 → st - skip + rd < length)) ∨
      (length ≠ 0 ∧ st - skip + rd = length)) :
    Copied src bs [(first, last)] skip seek length j ↔
      (seek + st - skip + 0 ≤ j ∧ j < seek + st - skip + rd ∧
        st + (j - (seek + st - skip)) < src.length) := by
  constructor
  · rintro ⟨a, b, c, r, hr, e, f⟩
    simp at hr
    subst hr
    simp only at e f
    omega
  · rintro ⟨a, b, c⟩
    exact ⟨by omega, by omega, by omega, (first, last), by simp, by simp only; omega,
      by simp only; omega⟩

/-- The whole copy, byte by byte. -/
theorem copyRanges_spec (src : File) (bs skip seek length : Nat) (rs : List (Nat × Nat))
    (hs : length ≠ 0 → Sorted rs) (hbs : 0 < bs) : ∀ dst,
    ∃ d, copyRanges src bs skip seek length rs dst = some d ∧
      (∀ j, (Copied src bs rs skip seek length j → rd d j = rd src (skip + (j - seek))) ∧
        (¬ Copied src bs rs skip seek length j → rd d j = rd dst j)) ∧
      dst.length ≤ d.length ∧
      d.length ≤ max dst.length (seek + (src.length - skip)) ∧
      (length ≠ 0 → d.length ≤ max dst.length (seek + length)) := by
  induction rs with
  | nil =>
    intro dst
    refine ⟨dst, rfl, ?_, by omega, by omega, by omega⟩
    intro j
    refine ⟨?_, fun _ => rfl⟩
    rintro ⟨-, -, -, r, hr, -⟩
    simp at hr
  | cons r rs ih =>
    intro dst
    obtain ⟨first, last⟩ := r
    have ih := ih (fun h => ⟨fun r hr => (hs h).1 r (by simp [hr]),
      (List.pairwise_cons.1 (hs h).2).2⟩)
    unfold copyRanges
    simp only
    by_cases h1 : skip ≥ (last + 1) * bs
    · rw [if_pos h1]
      obtain ⟨d, hd, hj, hl⟩ := ih dst
      refine ⟨d, hd, ?_, hl⟩
      intro j
      have hno : ¬ Copied src bs [(first, last)] skip seek length j := by
        rintro ⟨a, b, c, r, hr, e, f⟩
        simp at hr
        subst hr
        simp only at f
        omega
      rw [copied_cons]
      refine ⟨fun h => (hj j).1 (h.resolve_left hno), fun h => (hj j).2 (fun h' => h (Or.inr h'))⟩
    · rw [if_neg h1]
      generalize hst : (if first * bs < skip ∧ skip < (last + 1) * bs then skip else first * bs) = st
      have hst1 : skip ≤ st ∧ first * bs ≤ st ∧ (first ≤ last → st < (last + 1) * bs) ∧
          (st = skip ∨ st = first * bs) := by
        rw [← hst]
        split
        · omega
        · refine ⟨by omega, by omega, ?_, by omega⟩
          intro hfl
          calc first * bs < (first + 1) * bs := by rw [Nat.add_mul]; omega
            _ ≤ (last + 1) * bs := Nat.mul_le_mul_right _ (by omega)
      -- bytes of later ranges lie behind this range
      have hlater : ∀ j, length ≠ 0 → Copied src bs rs skip seek length j →
          (last + 1) * bs ≤ skip + (j - seek) := by
        rintro j hl ⟨a, b, c, r, hr, e, f⟩
        have := (List.pairwise_cons.1 (hs hl).2).1 r hr
        simp only at this
        have := Nat.mul_le_mul_right bs (show last + 1 ≤ r.1 by omega)
        omega
      have hfl : length ≠ 0 → first ≤ last := fun hl => (hs hl).1 (first, last) (by simp)
      by_cases h2 : length ≠ 0 ∧ st - skip ≥ length
      · rw [if_pos h2]
        refine ⟨dst, rfl, ?_, by omega, by omega, by omega⟩
        intro j
        refine ⟨?_, fun _ => rfl⟩
        rw [copied_cons]
        rintro (hc | hc)
        · obtain ⟨a, b, c, r, hr, e, f⟩ := hc
          simp at hr
          subst hr
          simp only at e
          have := c h2.1
          omega
        · have := hlater j h2.1 hc
          have := hc.2.2.1 h2.1
          have := hst1.2.2.1 (hfl h2.1)
          omega
      · rw [if_neg h2]
        obtain ⟨s', fin, e1, e2, e3, e4, e5, e6, e7, e8, e9⟩ :=
          copyLoop_spec src length ((last + 1) * bs - st) st (seek + st - skip)
            ((last + 1) * bs - st + 1)
            { dst, srcPos := st, dstPos := seek + st - skip, read := 0, written := st - skip,
              chunkSize := 1024 * 1024 } (by simp only; omega) (by simp only; omega)
            (by simp only; omega) (by simp only; omega) (by simp only; omega) (by simp only; omega)
        simp only at e2 e3 e7 e8 e9
        rw [e1]
        have hone := fun j => copied_one (src := src) (seek := seek) (length := length) (j := j)
          (rd := s'.read) hst1.1 hst1.2.1 hst1.2.2.2 e4 (by
            cases fin
            · exact Or.inl ⟨(e6 rfl).1, fun h => by have := (e6 rfl).2 h; omega⟩
            · exact Or.inr (by have := e5 rfl; omega))
        cases fin with
        | true =>
          simp only
          obtain ⟨e5a, e5b⟩ := e5 rfl
          refine ⟨s'.dst, rfl, ?_, by omega, by omega, by omega⟩
          intro j
          rw [e7 j, copied_cons]
          by_cases hj : seek + st - skip + 0 ≤ j ∧ j < seek + st - skip + s'.read ∧
                st + (j - (seek + st - skip)) < src.length
          · rw [if_pos hj]
            refine ⟨fun _ => ?_, fun h => absurd (Or.inl ((hone j).2 hj)) h⟩
            congr 1
            omega
          · rw [if_neg hj]
            refine ⟨?_, fun _ => rfl⟩
            rintro (h | h)
            · exact absurd ((hone j).1 h) hj
            · have := hlater j e5a h
              have := h.2.2.1 e5a
              omega
        | false =>
          simp only
          obtain ⟨e6a, e6b⟩ := e6 rfl
          obtain ⟨d, hd, hj, hl1, hl2, hl3⟩ := ih s'.dst
          refine ⟨d, hd, ?_, by omega, by omega, by omega⟩
          intro j
          rw [copied_cons]
          by_cases hr : Copied src bs rs skip seek length j
          · exact ⟨fun _ => (hj j).1 hr, fun h => absurd (Or.inr hr) h⟩
          · rw [(hj j).2 hr, e7 j]
            by_cases hj2 : seek + st - skip + 0 ≤ j ∧ j < seek + st - skip + s'.read ∧
                st + (j - (seek + st - skip)) < src.length
            · rw [if_pos hj2]
              refine ⟨fun _ => ?_, fun h => absurd (Or.inl ((hone j).2 hj2)) h⟩
              congr 1
              omega
            · rw [if_neg hj2]
              refine ⟨?_, fun _ => rfl⟩
              rintro (h | h)
              · exact absurd ((hone j).1 h) hj2
              · exact absurd h hr

/-! ## SEEK_DATA / SEEK_HOLE -/

theorem seekData_some {data : List Bool} {off p : Nat} (h : seekData data off = some p) :
    off ≤ p ∧ data[p]? = some true ∧ ∀ i, off ≤ i → i < p → data[i]? ≠ some true := by
  unfold seekData at h
  rw [Option.map_eq_some_iff] at h
  obtain ⟨k, hk, rfl⟩ := h
  rw [List.findIdx?_eq_some_iff_getElem] at hk
  obtain ⟨hlt, ht, hn⟩ := hk
  simp only [List.length_drop] at hlt
  refine ⟨by omega, ?_, ?_⟩
  · rw [List.getElem?_eq_getElem (by omega)]
    simpa using ht
  · intro i h1 h2 h3
    have := hn (i - off) (by omega)
    simp only [List.getElem_drop, show off + (i - off) = i by omega] at this
    rw [List.getElem?_eq_getElem (by omega)] at h3
    simp at h3
    simp [h3] at this

theorem seekData_none {data : List Bool} {off : Nat} (h : seekData data off = none) :
    ∀ i, off ≤ i → data[i]? ≠ some true := by
  unfold seekData at h
  rw [Option.map_eq_none_iff, List.findIdx?_eq_none_iff] at h
  intro i h1 h2
  have hm : true ∈ data.drop off := by
    rw [List.mem_iff_getElem?]
    exact ⟨i - off, by rw [List.getElem?_drop, show off + (i - off) = i by omega]; exact h2⟩
  have := h true hm
  simp at this

theorem seekHole_spec {data : List Bool} {off : Nat} (hl : off < data.length) :
    ∃ e, seekHole data off = some e ∧ off ≤ e ∧ e ≤ data.length ∧
      (∀ i, off ≤ i → i < e → data[i]? = some true) ∧
      (e < data.length → data[e]? = some false) := by
  unfold seekHole
  rw [if_pos hl]
  refine ⟨_, rfl, by omega, ?_, ?_, ?_⟩
  · have := List.findIdx_le_length (p := (· = false)) (xs := data.drop off)
    simp only [List.length_drop] at this
    omega
  · intro i h1 h2
    have hlt := List.findIdx_le_length (p := (· = false)) (xs := data.drop off)
    simp only [List.length_drop] at hlt
    have := List.not_of_lt_findIdx (p := (· = false)) (xs := data.drop off)
      (show i - off < _ by omega)
    simp only [List.getElem_drop, show off + (i - off) = i by omega] at this
    rw [List.getElem?_eq_getElem (by omega)]
    cases hb : data[i] <;> simp_all
  · intro h
    have hlt : (data.drop off).findIdx (· = false) < (data.drop off).length := by
      simp only [List.length_drop]; omega
    have := List.findIdx_getElem (w := hlt)
    simp only [List.getElem_drop] at this
    rw [List.getElem?_eq_getElem h]
    simpa using this

/-- Block `b` contains data. -/
def Mapped (data : List Bool) (bs b : Nat) : Prop := ∃ i, i / bs = b ∧ data[i]? = some true

theorem inRanges_cons {r rs b} : InRanges (r :: rs) b ↔ (r.1 ≤ b ∧ b ≤ r.2) ∨ InRanges rs b := by
  simp [InRanges]

theorem seekLoop_spec {data : List Bool} {bs n : Nat} (hbs : 0 < bs) (ha : BlockAligned data bs) :
    ∀ fuel k, n - k < fuel → ∃ rs, seekRangesLoop data bs (n * bs) fuel (k * bs) = some rs ∧
      SortedGaps rs ∧ ∀ b, InRanges rs b ↔ k ≤ b ∧ b < n ∧ Mapped data bs b := by
  intro fuel
  induction fuel with
  | zero => intro k h; omega
  | succ fuel ih =>
    intro k hf
    unfold seekRangesLoop
    have hempty : (∀ b, ¬ (k ≤ b ∧ b < n ∧ Mapped data bs b)) →
        ∃ rs, some [] = some rs ∧
          SortedGaps rs ∧ ∀ b, InRanges rs b ↔ k ≤ b ∧ b < n ∧ Mapped data bs b := by
      intro h
      refine ⟨[], rfl, ⟨by simp, by simp⟩, fun b => ?_⟩
      simp only [InRanges, List.not_mem_nil, false_and, exists_false, false_iff]
      exact h b
    have hkb : ∀ b i, k ≤ b → i / bs = b → k * bs ≤ i := by
      intro b i hb hi
      have := (Nat.le_div_iff_mul_le hbs).1 (show k ≤ i / bs by omega)
      exact this
    cases hs : seekData data (k * bs) with
    | none =>
      simp only
      apply hempty
      rintro b ⟨h1, h2, i, h3, h4⟩
      exact seekData_none hs i (hkb b i h1 h3) h4
    | some p =>
      simp only
      obtain ⟨hp1, hp2, hp3⟩ := seekData_some hs
      have hpl : p < data.length := by
        rw [List.getElem?_eq_some_iff] at hp2
        exact hp2.1
      have hpn : ¬ p = data.length := by omega
      have hka : k ≤ p / bs := (Nat.le_div_iff_mul_le hbs).2 hp1
      have hlow : ∀ b, k ≤ b → Mapped data bs b → p / bs ≤ b := by
        rintro b hb ⟨i, hi, ht⟩
        have h1 := hkb b i hb hi
        have h2 : p ≤ i := by
          apply Nat.le_of_not_lt
          intro hlt
          exact hp3 i h1 hlt ht
        rw [← hi]
        exact Nat.div_le_div_right h2
      by_cases hlim : p ≥ n * bs
      · rw [if_pos (Or.inl hlim)]
        apply hempty
        rintro b ⟨h1, h2, h3⟩
        have := hlow b h1 h3
        have := (Nat.le_div_iff_mul_le hbs).2 hlim
        omega
      · rw [if_neg (by omega)]
        obtain ⟨e0, he0, he1, he2, he3, he4⟩ := seekHole_spec hpl
        rw [he0]
        simp only
        have hep : p < e0 := by
          rcases Nat.lt_or_ge p e0 with h | h
          · exact h
          · have : e0 = p := by omega
            subst this
            have := he4 hpl
            rw [hp2] at this
            simp at this
        -- the end of the data area in blocks
        obtain ⟨m, hm, hmin, hmh⟩ : ∃ m, (if e0 = data.length then blocksCnt bs data.length * bs
            else e0) = m * bs ∧ (∀ b, p / bs < b → b < m → b * bs < e0) ∧
            (p < m * bs ∧ ∀ i, m * bs ≤ i → i / bs = m → data[i]? ≠ some true) := by
          by_cases hE : e0 = data.length
          · rw [if_pos hE]
            have hdm := Nat.div_add_mod (data.length + bs - 1) bs
            have hml := Nat.mod_lt (data.length + bs - 1) hbs
            have hge : data.length ≤ (data.length + bs - 1) / bs * bs := by
              rw [Nat.mul_comm] at hdm; omega
            refine ⟨_, rfl, ?_, ?_, ?_⟩
            · intro b _ hb
              unfold blocksCnt at hb
              have := Nat.mul_le_mul_right bs (show b + 1 ≤ (data.length + bs - 1) / bs from hb)
              rw [Nat.mul_comm] at hdm
              rw [Nat.add_mul] at this
              omega
            · unfold blocksCnt; omega
            · intro i hi _
              unfold blocksCnt at hi
              rw [List.getElem?_eq_none (by omega)]
              simp
          · rw [if_neg hE]
            have hel : e0 < data.length := by omega
            have hdiv : e0 / bs * bs = e0 := by
              have h1 := Nat.div_add_mod e0 bs
              rw [Nat.mul_comm] at h1
              rcases Nat.eq_zero_or_pos (e0 % bs) with h0 | h0
              · omega
              · exfalso
                have hsame : e0 / bs = (e0 - 1) / bs := by
                  symm
                  rw [Nat.div_eq_iff hbs]
                  have := Nat.mod_lt e0 hbs
                  omega
                have := ha e0 (e0 - 1) hel (by omega) hsame
                rw [he4 hel, he3 (e0 - 1) (by omega) (by omega)] at this
                simp at this
            refine ⟨e0 / bs, hdiv.symm, ?_, by omega, ?_⟩
            · intro b _ hb
              have := Nat.mul_lt_mul_of_pos_right hb hbs
              omega
            · intro i h1 h2 h3
              rw [hdiv] at h1
              have hil : i < data.length := by
                rw [List.getElem?_eq_some_iff] at h3
                exact h3.1
              have := ha i e0 hil hel h2
              rw [h3, he4 hel] at this
              simp at this
        rw [hm]
        have hcl : (if m * bs > n * bs then n * bs else m * bs) = min m n * bs := by
          rcases Nat.le_total m n with h | h
          · have := Nat.mul_le_mul_right bs h
            rw [if_neg (by omega), Nat.min_eq_left h]
          · have := Nat.mul_le_mul_right bs h
            rw [Nat.min_eq_right h]
            split <;> omega
        rw [hcl]
        have ham : p / bs < min m n := by
          rw [Nat.lt_min, Nat.div_lt_iff_lt_mul hbs, Nat.div_lt_iff_lt_mul hbs]
          omega
        obtain ⟨rs, hrs, hsg, hin⟩ := ih (min m n) (by omega)
        rw [hrs]
        refine ⟨_, rfl, ⟨?_, ?_⟩, ?_⟩
        · intro r hr
          rw [List.mem_cons] at hr
          rcases hr with rfl | hr
          · simp only [Nat.mul_div_cancel _ hbs]; omega
          · exact hsg.1 r hr
        · rw [List.pairwise_cons]
          refine ⟨?_, hsg.2⟩
          intro r hr
          simp only [Nat.mul_div_cancel _ hbs]
          have hr1 := (hin r.1).1 ⟨r, hr, by omega, hsg.1 r hr⟩
          have hne : r.1 ≠ min m n := by
            intro he
            obtain ⟨h1, h2, i, h3, h4⟩ := hr1
            have hmm : min m n = m := by omega
            refine hmh.2 i ?_ (by omega) h4
            have := (Nat.le_div_iff_mul_le hbs).1 (show m ≤ i / bs by omega)
            exact this
          omega
        · intro b
          rw [inRanges_cons, hin b]
          simp only [Nat.mul_div_cancel _ hbs]
          constructor
          · rintro (⟨h1, h2⟩ | ⟨h1, h2, h3⟩)
            · refine ⟨by omega, by omega, ?_⟩
              by_cases hb : b = p / bs
              · exact ⟨p, hb.symm, hp2⟩
              · refine ⟨b * bs, Nat.mul_div_cancel _ hbs, he3 _ ?_ (hmin b (by omega) (by omega))⟩
                have h4 := Nat.div_add_mod p bs
                have h5 := Nat.mod_lt p hbs
                have h6 := Nat.mul_le_mul_right bs (show p / bs + 1 ≤ b by omega)
                rw [Nat.add_mul] at h6
                rw [Nat.mul_comm] at h4
                omega
            · exact ⟨by omega, h2, h3⟩
          · rintro ⟨h1, h2, h3⟩
            have h4 := hlow b h1 h3
            by_cases hb : b < min m n
            · exact Or.inl (by omega)
            · exact Or.inr ⟨by omega, h2, h3⟩

/-! ## FIEMAP -/

theorem extentsOk_tail {e es} (h : ExtentsOk (e :: es)) : ExtentsOk es :=
  ⟨fun x hx => h.1 x (by simp [hx]), (List.pairwise_cons.1 h.2).2⟩

theorem inExtents_cons {e es b} :
    InExtents (e :: es) b ↔ (e.1 ≤ b ∧ b < e.1 + e.2) ∨ InExtents es b := by
  simp [InExtents]

theorem fiemapInner_spec {block start count : Nat} (hb : block < start + count)
    (es : List (Nat × Nat)) :
    ExtentsOk es → (∀ e ∈ es, block < e.1 + e.2) →
    Sorted (fiemapInner block start count es).1 ∧
    (∀ b, InRanges (fiemapInner block start count es).1 b ↔
      block ≤ b ∧ b < start + count ∧ InExtents es b) ∧
    ((fiemapInner block start count es).2 = true → ∃ e ∈ es, start + count ≤ e.1) := by
  induction es with
  | nil =>
    intro _ _
    simp [fiemapInner, Sorted, InRanges, InExtents]
  | cons e es ih =>
    intro hok hgt
    obtain ⟨eb, ec⟩ := e
    obtain ⟨i1, i2, i3⟩ := ih (extentsOk_tail hok) (fun e he => hgt e (by simp [he]))
    have hpos := hok.1 (eb, ec) (by simp)
    have hend := hgt (eb, ec) (by simp)
    have hlater := (List.pairwise_cons.1 hok.2).1
    simp only at hpos hend hlater
    unfold fiemapInner
    by_cases hc : eb > start + count - 1
    · rw [if_pos hc]
      refine ⟨by simp [Sorted], ?_, fun _ => ⟨(eb, ec), by simp, by simp only; omega⟩⟩
      intro b
      simp only [InRanges, List.not_mem_nil, false_and, exists_false, false_iff]
      rintro ⟨h1, h2, x, hx, h3, h4⟩
      rw [List.mem_cons] at hx
      rcases hx with rfl | hx
      · simp only at h3; omega
      · have := hlater x hx
        omega
    · rw [if_neg hc]
      simp only
      refine ⟨⟨?_, ?_⟩, ?_, ?_⟩
      · intro r hr
        rw [List.mem_cons] at hr
        rcases hr with rfl | hr
        · simp only; omega
        · exact i1.1 r hr
      · rw [List.pairwise_cons]
        refine ⟨?_, i1.2⟩
        intro r hr
        obtain ⟨h1, h2, x, hx, h3, h4⟩ := (i2 r.1).1 ⟨r, hr, by omega, i1.1 r hr⟩
        have := hlater x hx
        simp only
        omega
      · intro b
        rw [inRanges_cons, i2 b, inExtents_cons]
        simp only
        constructor
        · rintro (⟨h1, h2⟩ | ⟨h1, h2, h3⟩)
          · exact ⟨by omega, by omega, Or.inl (by omega)⟩
          · exact ⟨h1, h2, Or.inr h3⟩
        · rintro ⟨h1, h2, h3 | h3⟩
          · exact Or.inl (by omega)
          · exact Or.inr ⟨h1, h2, h3⟩
      · intro h
        obtain ⟨e, he, h⟩ := i3 h
        exact ⟨e, by simp [he], h⟩

theorem fiemapRaw_spec {extents : List (Nat × Nat)} {cap start count : Nat} (hcap : 0 < cap)
    (hok : ExtentsOk extents) : ∀ fuel block, start ≤ block → start + count - block < fuel →
    ∃ rs, fiemapRaw extents cap start count fuel block = some rs ∧ Sorted rs ∧
      ∀ b, InRanges rs b ↔ block ≤ b ∧ b < start + count ∧ InExtents extents b := by
  intro fuel
  induction fuel with
  | zero => intro block _ h; omega
  | succ fuel ih =>
    intro block hsb hf
    unfold fiemapRaw
    by_cases hlt : block < start + count
    · rw [if_pos hlt]
      simp only
      generalize hF : (extents.filter fun e => decide (block < e.1 + e.2 ∧ e.1 < block + count)) = F
      have hes : fiemap extents cap block count = F.take cap := by
        rw [← hF]; rfl
      have hFok : ExtentsOk F := by
        rw [← hF]
        exact ⟨fun e he => hok.1 e (List.mem_filter.1 he).1, hok.2.filter _⟩
      have hFm : ∀ e ∈ F, block < e.1 + e.2 ∧ e ∈ extents := by
        intro e he
        rw [← hF, List.mem_filter] at he
        simp at he
        exact ⟨he.2.1, he.1⟩
      -- extents that matter are in F
      have hrel : ∀ b, block ≤ b → b < start + count → (InExtents extents b ↔ InExtents F b) := by
        intro b h1 h2
        constructor
        · rintro ⟨e, he, h3, h4⟩
          refine ⟨e, ?_, h3, h4⟩
          rw [← hF, List.mem_filter]
          simp
          exact ⟨he, by omega, by omega⟩
        · rintro ⟨e, he, h3, h4⟩
          exact ⟨e, (hFm e he).2, h3, h4⟩
      rw [hes]
      have hsplit := List.take_append_drop cap F
      have hpw := hFok.2
      rw [← hsplit, List.pairwise_append] at hpw
      obtain ⟨hp1, hp2, hp3⟩ := hpw
      have htok : ExtentsOk (F.take cap) := ⟨fun e he => hFok.1 e (List.mem_of_mem_take he), hp1⟩
      obtain ⟨i1, i2, i3⟩ := fiemapInner_spec hlt (F.take cap) htok
        (fun e he => (hFm e (List.mem_of_mem_take he)).1)
      cases hl : (F.take cap).getLast? with
      | none =>
        simp only
        refine ⟨[], rfl, by simp [Sorted], ?_⟩
        intro b
        have hnil : F = [] := by
          rw [List.getLast?_eq_none_iff, List.take_eq_nil_iff] at hl
          rcases hl with h | h
          · omega
          · exact h
        constructor
        · rintro ⟨r, hr, -⟩
          simp at hr
        · rintro ⟨h1, h2, h3⟩
          rw [hrel b h1 h2, hnil] at h3
          obtain ⟨e, he, -⟩ := h3
          simp at he
      | some last =>
        obtain ⟨eb, ec⟩ := last
        simp only
        have hlm : (eb, ec) ∈ F.take cap := List.mem_of_getLast? hl
        have hlast : ∀ e ∈ F.take cap, e.1 + e.2 ≤ eb + ec := by
          intro e he
          rw [List.getLast?_eq_some_iff] at hl
          obtain ⟨ini, hini⟩ := hl
          rw [hini] at he hp1
          rw [List.pairwise_append] at hp1
          rw [List.mem_append, List.mem_singleton] at he
          rcases he with he | rfl
          · have := hp1.2.2 e he (eb, ec) (by simp)
            simp only at this
            omega
          · exact Nat.le_refl _
        have hblk := (hFm (eb, ec) (List.mem_of_mem_take hlm)).1
        simp only at hblk
        have hdrop : ∀ e ∈ F.drop cap, eb + ec ≤ e.1 := by
          intro e he
          have := hp3 (eb, ec) hlm e he
          simpa using this
        have hFin : ∀ b, InExtents F b ↔ InExtents (F.take cap) b ∨ InExtents (F.drop cap) b := by
          intro b
          conv => lhs; rw [← hsplit]
          unfold InExtents
          simp only [List.mem_append]
          constructor
          · rintro ⟨e, he | he, h⟩
            · exact Or.inl ⟨e, he, h⟩
            · exact Or.inr ⟨e, he, h⟩
          · rintro (⟨e, he, h⟩ | ⟨e, he, h⟩)
            · exact ⟨e, Or.inl he, h⟩
            · exact ⟨e, Or.inr he, h⟩
        by_cases hr : (fiemapInner block start count (F.take cap)).2 = true
        · rw [if_pos hr]
          refine ⟨_, rfl, i1, ?_⟩
          intro b
          rw [i2 b]
          constructor
          · rintro ⟨h1, h2, h3⟩
            exact ⟨h1, h2, (hrel b h1 h2).2 ((hFin b).2 (Or.inl h3))⟩
          · rintro ⟨h1, h2, h3⟩
            refine ⟨h1, h2, ?_⟩
            rcases (hFin b).1 ((hrel b h1 h2).1 h3) with h | ⟨x, hx, h4, h5⟩
            · exact h
            · exfalso
              obtain ⟨e, he, h6⟩ := i3 hr
              have := hlast e he
              have := htok.1 e he
              have := hdrop x hx
              omega
        · rw [if_neg hr]
          obtain ⟨rs, hrs, hsrt, hin⟩ := ih (eb + ec) (by omega) (by omega)
          rw [hrs]
          refine ⟨_, rfl, ⟨?_, ?_⟩, ?_⟩
          · intro r hr
            rw [List.mem_append] at hr
            rcases hr with hr | hr
            · exact i1.1 r hr
            · exact hsrt.1 r hr
          · rw [List.pairwise_append]
            refine ⟨i1.2, hsrt.2, ?_⟩
            intro a ha b hb
            have h1 := (hin b.1).1 ⟨b, hb, by omega, hsrt.1 b hb⟩
            obtain ⟨_, _, x, hx, h2, h3⟩ := (i2 a.2).1 ⟨a, ha, i1.1 a ha, by omega⟩
            have := hlast x hx
            omega
          · intro b
            have happ : InRanges ((fiemapInner block start count (F.take cap)).1 ++ rs) b ↔
                InRanges (fiemapInner block start count (F.take cap)).1 b ∨ InRanges rs b := by
              unfold InRanges
              simp only [List.mem_append]
              constructor
              · rintro ⟨e, he | he, h⟩
                · exact Or.inl ⟨e, he, h⟩
                · exact Or.inr ⟨e, he, h⟩
              · rintro (⟨e, he, h⟩ | ⟨e, he, h⟩)
                · exact ⟨e, Or.inl he, h⟩
                · exact ⟨e, Or.inr he, h⟩
            rw [happ, i2 b, hin b]
            constructor
            · rintro (⟨h1, h2, h3⟩ | ⟨h1, h2, h3⟩)
              · exact ⟨h1, h2, (hrel b h1 h2).2 ((hFin b).2 (Or.inl h3))⟩
              · exact ⟨by omega, h2, h3⟩
            · rintro ⟨h1, h2, h3⟩
              rcases (hFin b).1 ((hrel b h1 h2).1 h3) with h | ⟨x, hx, h4, h5⟩
              · exact Or.inl ⟨h1, h2, h⟩
              · have := hdrop x hx
                exact Or.inr ⟨by omega, h2, h3⟩
    · rw [if_neg hlt]
      refine ⟨[], rfl, by simp [Sorted], ?_⟩
      intro b
      constructor
      · rintro ⟨r, hr, -⟩
        simp at hr
      · rintro ⟨h1, h2, h3⟩
        omega

theorem mergeRanges_spec (rs : List (Nat × Nat)) : ∀ p, Sorted (p :: rs) →
    SortedGaps (mergeRanges p rs) ∧ (∀ r ∈ mergeRanges p rs, p.1 ≤ r.1) ∧
    ∀ b, InRanges (mergeRanges p rs) b ↔ InRanges (p :: rs) b := by
  induction rs with
  | nil =>
    intro p h
    simp [mergeRanges, SortedGaps]
    exact h.1 p (by simp)
  | cons q rs ih =>
    rintro ⟨f, l⟩ h
    obtain ⟨f', l'⟩ := q
    have hp := h.1 (f, l) (by simp)
    have hq := h.1 (f', l') (by simp)
    have hpq := (List.pairwise_cons.1 h.2).1
    have hlt := hpq (f', l') (by simp)
    simp only at hp hq hlt
    have hqs := (List.pairwise_cons.1 (List.pairwise_cons.1 h.2).2).1
    have hrs := (List.pairwise_cons.1 (List.pairwise_cons.1 h.2).2).2
    unfold mergeRanges
    by_cases hc : (l : Int) = f' - 1
    · rw [if_pos hc]
      have hs : Sorted ((f, l') :: rs) := by
        refine ⟨?_, ?_⟩
        · intro r hr
          rw [List.mem_cons] at hr
          rcases hr with rfl | hr
          · simp only; omega
          · exact h.1 r (by simp [hr])
        · rw [List.pairwise_cons]
          exact ⟨fun r hr => hqs r hr, hrs⟩
      obtain ⟨i1, i2, i3⟩ := ih (f, l') hs
      refine ⟨i1, i2, ?_⟩
      intro b
      rw [i3, inRanges_cons, inRanges_cons, inRanges_cons]
      simp only
      constructor
      · rintro (h1 | h1)
        · by_cases hb : b ≤ l
          · exact Or.inl (by omega)
          · exact Or.inr (Or.inl (by omega))
        · exact Or.inr (Or.inr h1)
      · rintro (h1 | h1 | h1)
        · exact Or.inl (by omega)
        · exact Or.inl (by omega)
        · exact Or.inr h1
    · rw [if_neg hc]
      have hs : Sorted ((f', l') :: rs) :=
        ⟨fun r hr => h.1 r (by rw [List.mem_cons]; exact Or.inr hr), List.pairwise_cons.2 ⟨hqs, hrs⟩⟩
      obtain ⟨i1, i2, i3⟩ := ih (f', l') hs
      refine ⟨⟨?_, ?_⟩, ?_, ?_⟩
      · intro r hr
        rw [List.mem_cons] at hr
        rcases hr with rfl | hr
        · exact hp
        · exact i1.1 r hr
      · rw [List.pairwise_cons]
        refine ⟨?_, i1.2⟩
        intro r hr
        have := i2 r hr
        simp only at this ⊢
        omega
      · intro r hr
        rw [List.mem_cons] at hr
        rcases hr with rfl | hr
        · exact Nat.le_refl _
        · have := i2 r hr
          simp only at this ⊢
          omega
      · intro b
        rw [inRanges_cons, i3, ← inRanges_cons]

end Isar.Wic.Filemap
