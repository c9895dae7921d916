import Verif.Wic.FilemapLemmas
/-! # C07, C08, C09: sparse copies and block maps -/

namespace Isar.Wic.Filemap

/-! ## C07, C08 -/

theorem ranges_bytes {rs : List (Nat × Nat)} {bs i : Nat} (hbs : 0 < bs) :
    (∃ r ∈ rs, r.1 * bs ≤ i ∧ i < (r.2 + 1) * bs) ↔ InRanges rs (i / bs) := by
  unfold InRanges
  constructor
  · rintro ⟨r, hr, h1, h2⟩
    have h3 := (Nat.le_div_iff_mul_le hbs).2 h1
    have h4 := (Nat.div_lt_iff_lt_mul hbs).2 h2
    exact ⟨r, hr, h3, by omega⟩
  · rintro ⟨r, hr, h1, h2⟩
    exact ⟨r, hr, (Nat.le_div_iff_mul_le hbs).1 h1,
      (Nat.div_lt_iff_lt_mul hbs).1 (by omega)⟩

/-- C07, C08: what `sparse_copy` writes, byte by byte.  The copy always ends.  A byte of the
destination is replaced by the source byte at the corresponding position if that byte lies in
the file, in a mapped block, behind `skip` and within `length`; all other bytes keep their
value.  With a length limit the ranges have to be in order (as all file maps report them). -/
theorem sparse_copy_bytes (src : File) (bs skip seek length : Nat) (rs : List (Nat × Nat))
    (dst : File) (hbs : 0 < bs) (hs : length ≠ 0 → Sorted rs) :
    ∃ d, sparseCopy src bs rs (some dst) skip seek length = some d ∧
      (∀ i, skip + i < src.length → (length ≠ 0 → i < length) → InRanges rs ((skip + i) / bs) →
        rd d (seek + i) = rd src (skip + i)) ∧
      (∀ i, (¬ skip + i < src.length ∨ (length ≠ 0 ∧ length ≤ i) ∨
          ¬ InRanges rs ((skip + i) / bs)) → rd d (seek + i) = rd dst (seek + i)) ∧
      (∀ j, j < seek → rd d j = rd dst j) := by
  obtain ⟨d, hd, hj, -⟩ := copyRanges_spec src bs skip seek length rs hs hbs dst
  refine ⟨d, hd, ?_, ?_, ?_⟩
  · intro i h1 h2 h3
    have := (hj (seek + i)).1 ⟨by omega, by rw [Nat.add_sub_cancel_left]; exact h1,
      by rw [Nat.add_sub_cancel_left]; exact h2,
      by rw [Nat.add_sub_cancel_left]; exact (ranges_bytes hbs).2 h3⟩
    rw [Nat.add_sub_cancel_left] at this
    exact this
  · intro i h
    apply (hj (seek + i)).2
    rintro ⟨-, h1, h2, h3⟩
    rw [Nat.add_sub_cancel_left] at h1 h2 h3
    rcases h with h | h | h
    · exact h h1
    · have := h2 h.1
      omega
    · exact h ((ranges_bytes hbs).1 h3)
  · intro j hlt
    apply (hj j).2
    rintro ⟨h1, -⟩
    omega

/-- C07: copying into a region that reads as zeros reproduces the source from `skip` on (up to
`length`, if given), for every valid map. -/
theorem sparse_copy_faithful (src : File) (bs skip seek length : Nat) (rs : List (Nat × Nat))
    (dst : File) (hbs : 0 < bs) (hs : length ≠ 0 → Sorted rs) (hv : ValidMap src bs rs)
    (hz : ∀ i, skip + i < src.length → (length ≠ 0 → i < length) → rd dst (seek + i) = 0) :
    ∃ d, sparseCopy src bs rs (some dst) skip seek length = some d ∧
      (∀ i, skip + i < src.length → (length ≠ 0 → i < length) →
        rd d (seek + i) = rd src (skip + i)) ∧
      (∀ j, (j < seek ∨ length ≠ 0 ∧ seek + length ≤ j ∨ seek + (src.length - skip) ≤ j) →
        rd d j = rd dst j) := by
  obtain ⟨d, hd, h1, h2, h3⟩ := sparse_copy_bytes src bs skip seek length rs dst hbs hs
  refine ⟨d, hd, ?_, ?_⟩
  · intro i hl hi
    by_cases hm : InRanges rs ((skip + i) / bs)
    · exact h1 i hl hi hm
    · rw [h2 i (Or.inr (Or.inr hm)), hz i hl hi]
      apply Eq.symm
      apply Classical.byContradiction
      intro hne
      exact hm (hv _ hne)
  · intro j hj
    by_cases hlt : j < seek
    · exact h3 j hlt
    · obtain ⟨i, rfl⟩ : ∃ i, j = seek + i := ⟨j - seek, by omega⟩
      exact h2 i (by omega)

theorem rd_ext {a b : File} (hl : a.length = b.length) (h : ∀ i, rd a i = rd b i) : a = b := by
  apply List.ext_getElem hl
  intro i h1 h2
  have := h i
  simpa [rd, List.getD_eq_getElem?_getD, List.getElem?_eq_getElem h1,
    List.getElem?_eq_getElem h2] using this

/-- C07: when the destination does not exist, the result is exactly `seek` zeros followed by
the source without its first `skip` bytes. -/
theorem sparse_copy_new (src : File) (bs skip seek : Nat) (rs : List (Nat × Nat))
    (hbs : 0 < bs) (hv : ValidMap src bs rs) (hk : skip ≤ src.length) :
    sparseCopy src bs rs none skip seek 0 = some (List.replicate seek 0 ++ src.drop skip) := by
  have hrep : ∀ n j, rd (List.replicate n 0) j = 0 := by
    intro n j
    simp only [rd, List.getD_eq_getElem?_getD, List.getElem?_replicate]
    split <;> rfl
  obtain ⟨d, hd, h1, h2⟩ := sparse_copy_faithful src bs skip seek 0 rs
    (List.replicate (src.length + seek - skip) 0) hbs (by simp) hv (fun i _ _ => hrep _ _)
  obtain ⟨d', hd', -, hl1, hl2, -⟩ := copyRanges_spec src bs skip seek 0 rs (by simp) hbs
    (List.replicate (src.length + seek - skip) 0)
  have e : sparseCopy src bs rs none skip seek 0 =
      sparseCopy src bs rs (some (List.replicate (src.length + seek - skip) 0)) skip seek 0 := rfl
  have hdd : d = d' := by
    have : some d = some d' := by rw [← hd, ← hd']; rfl
    simpa using this
  subst hdd
  rw [e, hd]
  congr 1
  simp only [List.length_replicate] at hl1 hl2
  apply rd_ext
  · simp
    omega
  · intro j
    by_cases hj : j < seek
    · rw [h2 j (by omega), hrep]
      simp [rd, List.getD_eq_getElem?_getD, List.getElem?_append_left, hj]
    · obtain ⟨i, rfl⟩ : ∃ i, j = seek + i := ⟨j - seek, by omega⟩
      by_cases hi : skip + i < src.length
      · rw [h1 i hi (by simp)]
        simp [rd, List.getD_eq_getElem?_getD, List.getElem?_append_right, List.getElem?_drop]
      · rw [h2 _ (by omega), hrep, rd_of_le]
        simp
        omega

/-- Non-trivial instance: eight bytes, blocks of two, a hole in the middle, `skip` inside a
mapped block, a destination with other data in front of and behind the target. -/
example : sparseCopy [1, 2, 3, 4, 0, 0, 7, 8] 2 [(0, 1), (3, 3)] (some [9, 9, 0, 0, 0, 0, 0, 9])
    1 2 0 = some [9, 9, 2, 3, 4, 0, 0, 7, 8] := by decide

example : Sorted [(0, 1), (3, 3)] ∧ ValidMap [1, 2, 3, 4, 0, 0, 7, 8] 2 [(0, 1), (3, 3)] := by
  refine ⟨⟨by decide, by decide⟩, ?_⟩
  intro i hi
  rcases Nat.lt_or_ge i 8 with h | h
  · have : ∀ i < 8, rd [1, 2, 3, 4, 0, 0, 7, 8] i ≠ 0 → i / 2 ≤ 1 ∨ i / 2 = 3 := by decide
    rcases this i h hi with h | h
    · exact ⟨(0, 1), by simp, by simp, h⟩
    · exact ⟨(3, 3), by simp, by simp only; omega, by simp only; omega⟩
  · exact absurd (rd_of_le h) hi

/-- With `length = 3` exactly three bytes are copied. -/
example : sparseCopy [1, 2, 3, 4, 0, 0, 7, 8] 2 [(0, 1), (3, 3)] (some [9, 9, 0, 0, 0, 0, 0, 9])
    1 2 3 = some [9, 9, 2, 3, 4, 0, 0, 9] := by decide

/-! ## C09 -/

/-- C09 for `SEEK_DATA`/`SEEK_HOLE`: the iteration ends, and the ranges are non-empty,
increasing, separated by gaps, and consist of exactly the blocks of the area that contain
data. -/
theorem seek_ranges_exact (data : List Bool) (bs start count : Nat) (hbs : 0 < bs)
    (ha : BlockAligned data bs) :
    ∃ rs, seekRanges data bs start count = some rs ∧ SortedGaps rs ∧
      ∀ b, InRanges rs b ↔ start ≤ b ∧ b < start + count ∧
        ∃ i, i / bs = b ∧ data[i]? = some true := by
  have e : start * bs + count * bs = (start + count) * bs := (Nat.add_mul ..).symm
  have hle : start + count ≤ (start + count) * bs := Nat.le_mul_of_pos_right _ hbs
  obtain ⟨rs, h1, h2, h3⟩ := seekLoop_spec (n := start + count) hbs ha
    ((start + count) * bs + 1) start (by omega)
  exact ⟨rs, by unfold seekRanges; simp only [e]; exact h1, h2, h3⟩

/-- C09 for `FIEMAP`: if some block of the area is mapped, the ranges are non-empty,
increasing, separated by gaps, and consist of exactly the mapped blocks of the area, however
many extents one ioctl returns. -/
theorem fiemap_ranges_exact_partial (es : List (Nat × Nat)) (cap start count : Nat) (hcap : 0 < cap)
    (hok : ExtentsOk es) (hne : ∃ b, start ≤ b ∧ b < start + count ∧ InExtents es b) :
    ∃ rs, fiemapRanges es cap start count = .ranges rs ∧ SortedGaps rs ∧
      ∀ b, InRanges rs b ↔ start ≤ b ∧ b < start + count ∧ InExtents es b := by
  obtain ⟨rs, h1, h2, h3⟩ := fiemapRaw_spec (start := start) (count := count) hcap hok
    (count + 1) start (by omega) (by omega)
  unfold fiemapRanges
  rw [h1]
  cases rs with
  | nil =>
    obtain ⟨b, hb⟩ := hne
    obtain ⟨r, hr, -⟩ := (h3 b).2 hb
    simp at hr
  | cons r rs =>
    obtain ⟨m1, -, m3⟩ := mergeRanges_spec rs r h2
    exact ⟨_, rfl, m1, fun b => by rw [m3, h3]⟩

/-- C09 does not hold for an area without any mapped block: there the `FIEMAP` iteration
raises `RuntimeError` instead of being empty, so a completely sparse file cannot be copied. -/
theorem fiemap_unmapped_fails (es : List (Nat × Nat)) (cap start count : Nat) (hcap : 0 < cap)
    (hok : ExtentsOk es) (hno : ∀ b, start ≤ b → b < start + count → ¬ InExtents es b) :
    fiemapRanges es cap start count = .runtimeError := by
  obtain ⟨rs, h1, h2, h3⟩ := fiemapRaw_spec (start := start) (count := count) hcap hok
    (count + 1) start (by omega) (by omega)
  unfold fiemapRanges
  rw [h1]
  cases rs with
  | nil => rfl
  | cons r rs =>
    exfalso
    have := (h3 r.1).1 ⟨r, by simp, by omega, h2.1 r (by simp)⟩
    exact hno r.1 this.1 this.2.1 this.2.2

theorem gaps_sorted {rs} (h : SortedGaps rs) : Sorted rs :=
  ⟨h.1, h.2.imp (fun h => by omega)⟩

theorem lt_blocksCnt {bs size i : Nat} (hbs : 0 < bs) (h : i < size) :
    i / bs < 0 + blocksCnt bs size := by
  rw [Nat.zero_add, blocksCnt, Nat.div_lt_iff_lt_mul hbs]
  have h1 := Nat.div_add_mod (size + bs - 1) bs
  have h2 := Nat.mod_lt (size + bs - 1) hbs
  rw [Nat.mul_comm] at h1
  omega

/-- C07 with `SEEK_DATA`/`SEEK_HOLE`: if holes have block granularity and read as zeros, the
ranges iterated by `sparse_copy` form a valid map. -/
theorem seek_map_valid (src : File) (data : List Bool) (bs : Nat) (hbs : 0 < bs)
    (ha : BlockAligned data bs) (hl : data.length = src.length)
    (hh : ∀ i, data[i]? = some false → rd src i = 0) :
    ∃ rs, seekRanges data bs 0 (blocksCnt bs src.length) = some rs ∧ Sorted rs ∧
      ValidMap src bs rs := by
  obtain ⟨rs, h1, h2, h3⟩ := seek_ranges_exact data bs 0 (blocksCnt bs src.length) hbs ha
  refine ⟨rs, h1, gaps_sorted h2, ?_⟩
  intro i hi
  have hlt : i < src.length := by
    apply Nat.lt_of_not_le
    intro h
    exact hi (rd_of_le h)
  refine (h3 _).2 ⟨Nat.zero_le _, lt_blocksCnt hbs hlt, i, rfl, ?_⟩
  rw [List.getElem?_eq_getElem (by omega)]
  cases hb : data[i]
  · exact absurd (hh i (by rw [List.getElem?_eq_getElem (by omega), hb])) hi
  · rfl

/-- C07 with `FIEMAP`: if bytes outside all extents read as zeros and some block is mapped, the
ranges form a valid map. -/
theorem fiemap_map_valid (src : File) (es : List (Nat × Nat)) (cap bs : Nat) (hbs : 0 < bs)
    (hcap : 0 < cap) (hok : ExtentsOk es) (hh : ∀ i, ¬ InExtents es (i / bs) → rd src i = 0)
    (hne : ∃ b < blocksCnt bs src.length, InExtents es b) :
    ∃ rs, fiemapRanges es cap 0 (blocksCnt bs src.length) = .ranges rs ∧ Sorted rs ∧
      ValidMap src bs rs := by
  obtain ⟨b, hb1, hb2⟩ := hne
  obtain ⟨rs, h1, h2, h3⟩ := fiemap_ranges_exact_partial es cap 0 (blocksCnt bs src.length) hcap hok
    ⟨b, by omega, by omega, hb2⟩
  refine ⟨rs, h1, gaps_sorted h2, ?_⟩
  intro i hi
  have hlt : i < src.length := by
    apply Nat.lt_of_not_le
    intro h
    exact hi (rd_of_le h)
  refine (h3 _).2 ⟨Nat.zero_le _, lt_blocksCnt hbs hlt, ?_⟩
  apply Classical.byContradiction
  intro h
  exact hi (hh i h)

/-- C09 without a map: every block of the area counts as mapped. -/
theorem nobmap_ranges_exact (start count : Nat) :
    SortedGaps (nobmapRanges start count) ∧
      ∀ b, InRanges (nobmapRanges start count) b ↔ start ≤ b ∧ b < start + count := by
  unfold nobmapRanges
  split
  · exact ⟨by simp [SortedGaps], fun b => by simp [InRanges]; omega⟩
  · exact ⟨by simp [SortedGaps]; omega, fun b => by simp [InRanges]; omega⟩

/-- C07 without a map: the whole file is one valid range. -/
theorem nobmap_map_valid (src : File) (bs : Nat) (hbs : 0 < bs) :
    Sorted (nobmapRanges 0 (blocksCnt bs src.length)) ∧
      ValidMap src bs (nobmapRanges 0 (blocksCnt bs src.length)) := by
  unfold nobmapRanges
  constructor
  · split
    · simp [Sorted]
    · simp [Sorted]
  · intro i hi
    have hlt : i < src.length := by
      apply Nat.lt_of_not_le
      intro h
      exact hi (rd_of_le h)
    have := lt_blocksCnt hbs hlt
    generalize i / bs = b at this ⊢
    rw [if_neg (by omega)]
    exact ⟨_, List.mem_singleton.2 rfl, by simp only; omega, by simp only; omega⟩

example : seekRanges [true, true, false, false, true, true, true] 2 0 4 =
    some [(0, 0), (2, 3)] := by decide

example : fiemapRanges [(1, 2), (3, 1), (7, 2), (20, 5)] 2 0 8 = .ranges [(1, 3), (7, 7)] := by
  decide

example : ExtentsOk [(1, 2), (3, 1), (7, 2), (20, 5)] := ⟨by decide, by decide⟩

end Isar.Wic.Filemap
