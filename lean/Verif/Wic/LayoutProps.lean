import Verif.Wic.LayoutLemmas
/-!
# Properties of the wic disk layout (C01 - C06)
-/

namespace Isar.Wic

/-! ## A concrete layout used to show that hypotheses can be met -/

/-- A gpt disk: an aligned FAT boot partition of odd size, a partition outside the table, an
aligned rootfs, and one at a fixed offset. -/
def demoGpt : List PartSpec :=
  [ { align := 1024, sizeSec := 131073, bootFat := true },
    { noTable := true, sizeSec := 10 },
    { align := 1024, sizeSec := 200001 },
    { offset := some (512 * 400000), sizeSec := 7 } ]

/-- An msdos disk with six partitions of default type: three primary and three logical ones. -/
def demoMsdos : List PartSpec :=
  [ { align := 1024, sizeSec := 2049 }, { sizeSec := 100 }, { align := 4, sizeSec := 99 },
    { align := 1024, sizeSec := 5 }, { align := 4, sizeSec := 13 }, { sizeSec := 17 } ]

/-! ## C01 -/

/-- C01: all partitions are placed in `.wks` order with the sizes that were asked for, no two
of them share a sector, and none of them touches the sectors of the partition table. -/
theorem layout_no_overlap {pt x ps l} (h : layoutPartitions pt x ps = .ok l) :
    l.parts.map Placed.spec = ps ∧
    (∀ q ∈ l.parts, q.size = q.spec.sizeSec) ∧
    (∀ q ∈ l.parts, ∀ n, q.Covers n → reservedSectors pt ≤ n) ∧
    l.parts.Pairwise (fun a b => a.start + a.size ≤ b.start) ∧
    (∀ (i j : Nat) (hi : i < l.parts.length) (hj : j < l.parts.length) (n : Nat),
      l.parts[i].Covers n → l.parts[j].Covers n → i = j) := by
  obtain ⟨s, h1, -⟩ := layoutPartitions_ok h
  obtain ⟨-, i2, i3, i4, i5⟩ := loop_pairwise _ _ _ _ h1
  rw [reserved_eq] at i2
  have hp : l.parts.Pairwise (fun a b => a.start + a.size ≤ b.start) :=
    i3.imp (by intro a b hab; omega)
  refine ⟨i4, i5, ?_, hp, ?_⟩
  · intro q hq n hn
    have := i2 q hq
    have := hn.1
    omega
  · intro i j hi hj n ci cj
    rw [List.pairwise_iff_getElem] at hp
    unfold Placed.Covers at ci cj
    rcases Nat.lt_trichotomy i j with hlt | heq | hgt
    · have := hp i j hi hj hlt
      omega
    · exact heq
    · have := hp j i hj hi hgt
      omega

example : ∃ l, layoutPartitions .gpt 0 demoGpt = .ok l ∧ l.parts.length = 4 ∧
    l.parts.map Placed.start = [2048, 133121, 133120 + 2048, 400000] := by
  exact ⟨_, rfl, rfl, rfl⟩

/-- The entry of the partition table that belongs to a placed partition: it starts where the
layout put the partition and ends where the layout ended it, except that the last sector of a
FAT `/boot` partition with an odd number of sectors is left unused. -/
def expectedEntry (q : Placed) : MkPart :=
  { kind := some q.ptype, first := q.start,
    last := (q.start : Int) + q.size - 1 - (if q.spec.bootFat ∧ q.size % 2 = 1 then 1 else 0) }

/-- C01, partition table: exactly the partitions that belong in the table are handed to
`parted`, in order, with the range that the layout gave them (so these ranges are disjoint
as well). -/
theorem create_matches_layout {pt x ps l} (h : layoutPartitions pt x ps = .ok l) :
    (createParts pt l).filter (fun m => m.kind.isSome) =
      (l.parts.filter (fun q => !q.spec.noTable)).map expectedEntry := by
  obtain ⟨s, h1, -⟩ := layoutPartitions_ok h
  have hz := loop_all_steps (P := fun q => q.num = 0 ↔ q.spec.noTable = true)
    (fun _ _ _ _ => step_num_zero) _ _ _ _ h1
  unfold createParts
  generalize l.parts = qs at hz
  clear h h1
  induction qs with
  | nil => simp
  | cons q qs ih =>
    have hq := hz q (by simp)
    have ih := ih (fun r hr => hz r (by simp [hr]))
    rw [List.flatMap_cons, List.filter_append, ih]
    cases hn : q.spec.noTable
    · have hq0 : q.num ≠ 0 := by simp [hq, hn]
      rw [if_neg hq0]
      by_cases hb : q.spec.bootFat = true ∧ q.size % 2 = 1 <;>
      by_cases he : pt = .msdos ∧ q.num = l.extendedpart <;>
      · simp only [hb, he, if_true, if_false, and_self, List.cons_append, List.nil_append, mkPart,
          List.filter_cons, Option.isSome_none, Option.isSome_some, List.filter_nil, hn,
          List.map_cons, expectedEntry, Bool.not_false]
        simp <;> omega
    · have hq0 : q.num = 0 := by simp [hq, hn]
      simp [hq0, hn]

example : ∃ l, layoutPartitions .gpt 0 demoGpt = .ok l ∧
    createParts .gpt l = [⟨some .primary, 2048, 133119⟩, ⟨some .primary, 135168, 335168⟩,
      ⟨some .primary, 400000, 400006⟩] := by
  exact ⟨_, rfl, rfl⟩

/-! ## C02 -/

/-- C02: every partition ends inside the image file, with room behind it for the backup table
(33 sectors on gpt), and the requested extra space comes on top. -/
theorem layout_fits_image {pt x ps l} (h : layoutPartitions pt x ps = .ok l) :
    ∀ q ∈ l.parts, (q.start + q.size + backupSectors pt) * 512 + x ≤ l.minSize := by
  intro q hq
  obtain ⟨s, h1, h2, -⟩ := layoutPartitions_ok h
  obtain ⟨-, i2, -⟩ := loop_pairwise _ _ _ _ h1
  have hb := (i2 q hq).2
  have hn := loop_numpart _ _ _ _ h1
  have hlen := List.length_pos_of_mem hq
  have hbase : base pt s = s.offset := by
    unfold base
    rw [if_neg]
    omega
  rw [h2]
  cases pt <;> simp [backupSectors] <;> omega

/-- C02: the image is not larger than needed: it ends with the last partition, the backup
table (one spare sector included) and the extra space. -/
theorem layout_image_tight {pt x ps l pre q} (h : layoutPartitions pt x ps = .ok l)
    (hl : l.parts = pre ++ [q]) :
    l.minSize = (q.start + q.size + (if pt = .msdos then 0 else 34)) * 512 + x := by
  obtain ⟨s, h1, h2, -⟩ := layoutPartitions_ok h
  have hb := loop_base _ _ _ _ h1
  have hn := loop_numpart _ _ _ _ h1
  rw [hl] at hb hn
  simp at hb hn
  unfold base at hb
  rw [if_neg (by omega)] at hb
  rw [h2, hb]

example : ∃ l, layoutPartitions .gpt 4096 demoGpt = .ok l ∧
    l.minSize = (400007 + 34) * 512 + 4096 := by
  exact ⟨_, rfl, rfl⟩

/-! ## C03 -/

/-- C03: an aligned partition without `--offset` starts at a multiple of the alignment (in
bytes: `align` KiB), behind everything placed before it (plus the boot record of a logical
partition), and at the smallest such position. -/
theorem align_honoured {pt x ps l pre q post} (h : layoutPartitions pt x ps = .ok l)
    (hl : l.parts = pre ++ q :: post) (ha : q.spec.align ≠ 0) (ho : q.spec.offset = none) :
    q.spec.align * 1024 ∣ q.start * 512 ∧
    freeAfter pt pre + ebrSectors pt q.ptype ≤ q.start ∧
    ∀ m, q.spec.align * 1024 ∣ m * 512 → freeAfter pt pre + ebrSectors pt q.ptype ≤ m →
      q.start ≤ m := by
  have hs := placed_start h hl
  simp only [ho, applyOffset, Except.ok.injEq] at hs
  have hd := alignSectors_dvd q.spec.align (freeAfter pt pre + ebrSectors pt q.ptype) ha
  rw [hs] at hd
  refine ⟨?_, by omega, ?_⟩
  · obtain ⟨k, hk⟩ := hd
    exact ⟨k, by rw [hk, Nat.mul_assoc, Nat.mul_assoc, Nat.mul_assoc]; congr 1; omega⟩
  · intro m hm hf
    rw [← hs]
    refine alignSectors_le _ _ _ ha hf ?_
    obtain ⟨k, hk⟩ := hm
    refine ⟨k, ?_⟩
    have : m * 512 = q.spec.align * 2 * k * 512 := by
      rw [hk, Nat.mul_assoc, Nat.mul_assoc, Nat.mul_assoc]; congr 1; omega
    omega

/-- C03: a partition with neither `--align` nor `--offset` follows its predecessor directly. -/
theorem unaligned_is_adjacent {pt x ps l pre q post} (h : layoutPartitions pt x ps = .ok l)
    (hl : l.parts = pre ++ q :: post) (ha : q.spec.align = 0) (ho : q.spec.offset = none) :
    q.start = freeAfter pt pre + ebrSectors pt q.ptype := by
  have hs := placed_start h hl
  simp only [ho, applyOffset, Except.ok.injEq, alignSectors, ha, if_true] at hs
  omega

example : ∃ l q, layoutPartitions .msdos 0 demoMsdos = .ok l ∧
    l.parts = l.parts.take 3 ++ q :: l.parts.drop 4 ∧ q.spec.align = 1024 ∧
    q.spec.offset = none ∧ q.start = 6144 ∧ freeAfter .msdos (l.parts.take 3) = 4299 ∧
    ebrSectors .msdos q.ptype = 2 :=
  ⟨_, _, rfl, rfl, rfl, rfl, rfl, rfl, rfl⟩

/-! ## C04 -/

/-- C04: if the layout succeeds, a partition with `--offset b` starts at byte `b`. -/
theorem offset_honoured {pt x ps l} (h : layoutPartitions pt x ps = .ok l) :
    ∀ q ∈ l.parts, ∀ b, q.spec.offset = some b → (q.start : Int) * 512 = b := by
  intro q hq b hb
  obtain ⟨pre, post, hl⟩ := List.append_of_mem hq
  have hs := placed_start h hl
  rw [hb] at hs
  exact applyOffset_exact hs

/-- C04: an offset that is no sector multiple, or that lies in the partition table, is rejected
wherever it occurs in the `.wks` file. -/
theorem bad_offset_rejected {pt x ps p} {b : Int} (hp : p ∈ ps) (hb : p.offset = some b)
    (hbad : b % 512 ≠ 0 ∨ b < reservedSectors pt * 512) :
    ∃ e, layoutPartitions pt x ps = .error e := by
  cases h : layoutPartitions pt x ps with
  | error e => exact ⟨e, rfl⟩
  | ok l =>
    exfalso
    obtain ⟨hm, -⟩ := layout_no_overlap h
    obtain ⟨q, hq, hqp⟩ : ∃ q ∈ l.parts, q.spec = p := by
      rw [← hm] at hp
      simpa using hp
    have h1 := offset_honoured h q hq b (by rw [hqp]; exact hb)
    obtain ⟨s, h2, -⟩ := layoutPartitions_ok h
    have h3 := ((loop_pairwise _ _ _ _ h2).2.1 q hq).1
    rw [reserved_eq] at h3
    rcases hbad with hbad | hbad
    · omega
    · omega

/-- C04: an offset that lies in front of the end of an earlier partition is rejected. -/
theorem occupied_offset_rejected {pt x ps l} (h : layoutPartitions pt x ps = .ok l)
    {i j : Nat} (hij : i < j) (hj : j < l.parts.length) {b : Int}
    (hb : (l.parts[j]).spec.offset = some b) :
    ((l.parts[i].start + l.parts[i].size : Nat) : Int) * 512 ≤ b := by
  have h1 := offset_honoured h l.parts[j] (List.getElem_mem _) b hb
  have h2 := (layout_no_overlap h).2.2.2.1
  rw [List.pairwise_iff_getElem] at h2
  have := h2 i j (by omega) hj hij
  omega

/-- C04: nothing else is rejected on account of positions: without any `--offset`, the only
reasons for a failure are options that the table format does not support. -/
theorem layout_total {pt x ps} (ho : ∀ p ∈ ps, p.offset = none)
    (hmbr : ∀ p ∈ ps, p.mbr = true → pt = .gptHybrid)
    (hname : pt = .msdos → ∀ p ∈ ps, p.hasPartName = false ∧ p.hasPartType = false) :
    ∃ l, layoutPartitions pt x ps = .ok l := by
  have hloop : ∀ (n : Nat) (qs : List PartSpec), (∀ p ∈ qs, p ∈ ps) → ∀ s,
      ∃ r, layoutLoop pt n s qs = .ok r := by
    intro n qs
    induction qs with
    | nil => intro _ s; exact ⟨_, rfl⟩
    | cons p qs ih =>
      intro hsub s
      have hp := hsub p (by simp)
      have hc : checkPart pt p = .ok () := by
        unfold checkPart
        rw [if_neg, if_neg, if_neg]
        · intro ⟨a, b⟩
          exact b (hmbr p hp a)
        · intro ⟨a, b⟩
          simp [(hname a p hp).2] at b
        · intro ⟨a, b⟩
          simp [(hname a p hp).1] at b
      have hs : ∃ r, layoutStep pt n s p = .ok r := by
        unfold layoutStep
        simp only [hc, ho p hp, applyOffset, bind, Except.bind]
        split
        · split
          · split <;> exact ⟨_, rfl⟩
          · exact ⟨_, rfl⟩
        · exact ⟨_, rfl⟩
      obtain ⟨⟨s', q⟩, hs⟩ := hs
      obtain ⟨⟨s'', qs'⟩, hr⟩ := ih (fun r hr => hsub r (by simp [hr])) s'
      exact ⟨(s'', q :: qs'), by simp [layoutLoop, hs, hr, bind, Except.bind]⟩
  obtain ⟨⟨s, qs⟩, h⟩ := hloop (numReal ps) ps (fun _ h => h) {}
  exact ⟨_, by simp only [layoutPartitions, h, bind, Except.bind]; rfl⟩

example : ∃ l q, layoutPartitions .gpt 0 demoGpt = .ok l ∧ q ∈ l.parts ∧
    q.spec.offset = some (512 * 400000) ∧ q.start = 400000 :=
  ⟨_, _, rfl, List.Mem.tail _ (List.Mem.tail _ (List.Mem.tail _ (List.Mem.head _))), rfl, rfl⟩

example : layoutPartitions .gpt 0 [{ offset := some 100, sizeSec := 1 }] =
    .error .offsetNotSectorMultiple := rfl

example : layoutPartitions .msdos 0 [{ sizeSec := 100 }, { offset := some 2048, sizeSec := 1 }] =
    .error .offsetOccupied := rfl

/-! ## C05 -/

/-- C05: partitions in the table have pairwise distinct, non-zero numbers, and partitions
without a table entry have number 0. -/
theorem numbers_distinct {pt x ps l} (h : layoutPartitions pt x ps = .ok l) :
    (∀ q ∈ l.parts, q.num = 0 ↔ q.spec.noTable = true) ∧
    (∀ (i j : Nat) (hi : i < l.parts.length) (hj : j < l.parts.length),
      l.parts[i].InTable → l.parts[j].InTable → l.parts[i].num = l.parts[j].num → i = j) := by
  obtain ⟨s, h1, -⟩ := layoutPartitions_ok h
  have hz := loop_all_steps (P := fun q => q.num = 0 ↔ q.spec.noTable = true)
    (fun _ _ _ _ => step_num_zero) _ _ _ _ h1
  refine ⟨hz, ?_⟩
  have hp : l.parts.Pairwise (fun a b => a.spec.noTable = false → b.spec.noTable = false →
      a.num ≠ b.num) := by
    by_cases hpt : pt = .msdos
    · subst hpt
      exact (loop_msInv _ _ _ _ h1 (by simp) (msInv_init _)).2.2.2.2.2
    · exact (loop_gptNums hpt _ _ _ _ h1).2.2
  rw [List.pairwise_iff_getElem] at hp
  intro i j hi hj ti tj he
  rcases Nat.lt_trichotomy i j with hlt | heq | hgt
  · exact absurd he (hp i j hi hj hlt ti tj)
  · exact heq
  · exact absurd he.symm (hp j i hj hi hgt tj ti)

/-- C05 on gpt: the numbers in the table are the numbers used for fstab and `root=`. -/
theorem numbers_agree_gpt {pt x ps l} (hpt : pt ≠ .msdos) (h : layoutPartitions pt x ps = .ok l) :
    l.parts.map Placed.num = realnums pt ps := by
  obtain ⟨s, h1, -⟩ := layoutPartitions_ok h
  exact (loop_gptNums hpt _ _ _ _ h1).1

/-- C05, partial: on msdos the two agree when no line says `--type logical`.
Missing: lists with an explicit `--type logical`, for which the claim is false, see
`numbers_disagree_logical`. -/
theorem numbers_agree_partial {pt x ps l} (h : layoutPartitions pt x ps = .ok l)
    (hd : pt = .msdos → ∀ p ∈ ps, p.ptype = .primary) :
    l.parts.map Placed.num = realnums pt ps := by
  by_cases hpt : pt = .msdos
  · subst hpt
    obtain ⟨s, h1, -⟩ := layoutPartitions_ok h
    exact loop_defNums _ _ _ _ h1 (by simp) (hd rfl) (by constructor <;> simp)
  · exact numbers_agree_gpt hpt h

/-- C05 is false in general: with an explicit `--type logical` the partition is number 5 in the
table but number 2 in fstab. -/
theorem numbers_disagree_logical : ∃ ps l, layoutPartitions .msdos 0 ps = .ok l ∧
    l.parts.map Placed.num = [1, 5] ∧ realnums .msdos ps = [1, 2] :=
  ⟨[{ sizeSec := 10 }, { sizeSec := 10, ptype := .logical }], _, rfl, rfl, rfl⟩

example : ∃ l, layoutPartitions .msdos 0 demoMsdos = .ok l ∧
    (∀ p ∈ demoMsdos, p.ptype = .primary) ∧ l.parts.map Placed.num = [1, 2, 3, 5, 6, 7] :=
  ⟨_, rfl, by decide, rfl⟩

/-! ## C06 -/

/-- C06: primary partitions never use more than the four slots of an msdos table, and logical
partitions are numbered from 5 on. -/
theorem msdos_slots {x ps l} (h : layoutPartitions .msdos x ps = .ok l) :
    ∀ q ∈ l.parts, q.InTable →
      (q.ptype = .primary → 1 ≤ q.num ∧ q.num ≤ 4) ∧ (q.ptype = .logical → 5 ≤ q.num) := by
  obtain ⟨s, h1, -⟩ := layoutPartitions_ok h
  obtain ⟨-, -, -, a, b, -⟩ := loop_msInv _ _ _ _ h1 (by simp) (msInv_init _)
  intro q hq ht
  refine ⟨fun hp => ?_, fun hl => ?_⟩
  · have := a q hq ht hp
    omega
  · have := b q hq ht hl
    omega

/-- Splitting a layout at its first logical table partition. -/
theorem first_logical {x ps l pre f post} (h : layoutPartitions .msdos x ps = .ok l)
    (hl : l.parts = pre ++ f :: post) (hf : f.InTable ∧ f.ptype = .logical)
    (hpre : ∀ q ∈ pre, ¬ (q.InTable ∧ q.ptype = .logical)) :
    l.extendedpart = f.num ∧ f.num = 5 := by
  obtain ⟨s, h1, -, h2, -⟩ := layoutPartitions_ok h
  rw [hl] at h1
  obtain ⟨s1, s2, ps1, ps2, -, a, b, c⟩ := loop_split _ _ _ _ _ _ h1
  have e := ext_pre _ _ _ _ a hpre
  have n := (layoutStep_nums b).firstLogical rfl hf.1 hf.2 e.1
  have he : s2.extendedpart = f.num := n.2.2.1
  have h0 : s1.logicalPartCnt = 0 := e.2.2
  have h5 : f.num = 5 := by
    have := n.1
    omega
  refine ⟨?_, h5⟩
  rw [h2, ext_mono _ _ _ _ c (by omega), he]

/-- C06: if there is a logical partition in the table, exactly one extended partition is
requested.  It starts two sectors (its boot record) in front of the first logical one, and
these two sectors are free. -/
theorem extended_once {x ps l pre f post} (h : layoutPartitions .msdos x ps = .ok l)
    (hl : l.parts = pre ++ f :: post) (hf : f.InTable ∧ f.ptype = .logical)
    (hpre : ∀ q ∈ pre, ¬ (q.InTable ∧ q.ptype = .logical)) :
    ∃ e, (createParts .msdos l).filter (fun m => m.kind.isNone) = [e] ∧
      e.first = (f.start : Int) - 2 ∧ (freeAfter .msdos pre : Int) ≤ e.first := by
  obtain ⟨he, h5⟩ := first_logical h hl hf hpre
  obtain ⟨hz, hd⟩ := numbers_distinct h
  have hfree : freeAfter .msdos pre + 2 ≤ f.start := by
    have := applyOffset_le (placed_start h hl)
    simp only [ebrSectors, hf.2, and_self, if_true] at this
    omega
  have key : ∀ (i : Nat) (hi : i < l.parts.length), l.parts[i].num = 5 → i = pre.length := by
    intro i hi h0
    have hlen : pre.length < l.parts.length := by rw [hl]; simp
    have hfe : l.parts[pre.length] = f := by simp [hl]
    refine hd i pre.length hi hlen ?_ (by rw [hfe]; exact hf.1) (by rw [h0, hfe, h5])
    have := hz l.parts[i] (List.getElem_mem _)
    unfold Placed.InTable
    cases hb : l.parts[i].spec.noTable
    · rfl
    · rw [hb] at this; simp at this; omega
  have hfl : l.parts.filter (fun q => q.num ≠ 0 ∧ q.num = l.extendedpart) = [f] := by
    rw [he, h5]
    rw [hl] at key ⊢
    rw [List.filter_append, List.filter_cons_of_pos (by simp [h5])]
    have e1 : pre.filter (fun q => decide (q.num ≠ 0 ∧ q.num = 5)) = [] := by
      rw [List.filter_eq_nil_iff]
      intro q hq
      obtain ⟨i, hi, rfl⟩ := List.getElem_of_mem hq
      intro hc
      have := key i (by simp; omega) (by
        rw [List.getElem_append_left hi]; simp at hc; exact hc.2)
      omega
    have e2 : post.filter (fun q => decide (q.num ≠ 0 ∧ q.num = 5)) = [] := by
      rw [List.filter_eq_nil_iff]
      intro q hq
      obtain ⟨i, hi, rfl⟩ := List.getElem_of_mem hq
      intro hc
      have := key (pre.length + 1 + i) (by simp; omega) (by
        rw [List.getElem_append_right (by omega)]
        simp only [show pre.length + 1 + i - pre.length = i + 1 by omega, List.getElem_cons_succ]
        simp at hc; exact hc.2)
      omega
    rw [e1, e2]
    rfl
  refine ⟨mkPart none ((f.start : Int) - 2) l.extendedSizeSec, ?_, rfl, ?_⟩
  · rw [create_ext, hfl]
    rfl
  · simp only [mkPart]
    omega

/-- C06: without a logical partition in the table no extended partition is requested. -/
theorem no_extended_without_logical {x ps l} (h : layoutPartitions .msdos x ps = .ok l)
    (hn : ∀ q ∈ l.parts, ¬ (q.InTable ∧ q.ptype = .logical)) :
    (createParts .msdos l).filter (fun m => m.kind.isNone) = [] := by
  obtain ⟨s, h1, -, h2, -⟩ := layoutPartitions_ok h
  have e := ext_pre _ _ _ _ h1 hn
  rw [create_ext, h2, e.1]
  simp

/-- C06, partial: the extended partition spans exactly from the boot record of the first logical
partition to the end of the last partition, and so contains all logical partitions and no
primary one, provided that from the first logical partition on all lines are logical table
partitions and no line after it uses `--offset`.
Missing: the other `.wks` files, for which the claim is false, see
`extended_too_small_offset`, `extended_too_small_noTable` and `extended_misplaced_primary`. -/
theorem extended_contains_logical_partial {x ps l pre f post}
    (h : layoutPartitions .msdos x ps = .ok l)
    (hl : l.parts = pre ++ f :: post) (hf : f.InTable ∧ f.ptype = .logical)
    (hpre : ∀ q ∈ pre, ¬ (q.InTable ∧ q.ptype = .logical))
    (hpost : ∀ q ∈ post, q.InTable ∧ q.ptype = .logical ∧ q.spec.offset = none) :
    ∃ e, (createParts .msdos l).filter (fun m => m.kind.isNone) = [e] ∧
      (∀ q ∈ l.parts, q.ptype = .logical → q.InTable → ∀ n : Nat, q.Covers n → e.Covers n) ∧
      (∀ q ∈ l.parts, ¬ (q.InTable ∧ q.ptype = .logical) → ∀ n : Nat, q.Covers n →
        ¬ e.Covers n) ∧
      e.last + 1 = (freeAfter .msdos l.parts : Int) := by
  obtain ⟨e, he, hfirst, hfree⟩ := extended_once h hl hf hpre
  obtain ⟨s, h1, -, h2, h3⟩ := layoutPartitions_ok h
  have hfreeEnd := loop_base _ _ _ _ h1
  rw [reserved_eq] at hfreeEnd
  have hnump := loop_numpart _ _ _ _ h1
  rw [hl] at h1
  obtain ⟨s1, s2, ps1, ps2, -, a, b, c⟩ := loop_split _ _ _ _ _ _ h1
  have e0 := ext_pre _ _ _ _ a hpre
  have n := (layoutStep_nums b).firstLogical rfl hf.1 hf.2 e0.1
  have fb := layoutStep_facts b
  have hnum : s2.numpart ≠ 0 := by rw [fb.numpart]; omega
  have e1 := ext_post _ _ _ _ c (by rw [n.2.2.1]; have := n.1; omega) hnum hpost
  have hz : s1.extendedSizeSec = 0 := e0.2.1
  have hend : (s.offset : Int) = freeAfter .msdos l.parts := by
    have : base .msdos s = s.offset := by
      unfold base
      rw [if_neg]
      rw [hnump, hl]
      simp
    rw [this] at hfreeEnd
    rw [hfreeEnd]
    rfl
  have hlast : e.last + 1 = (s.offset : Int) := by
    have h4 : e = mkPart none ((f.start : Int) - 2) l.extendedSizeSec := by
      have := create_ext l
      rw [he] at this
      have hm : e ∈ (l.parts.filter (fun q => q.num ≠ 0 ∧ q.num = l.extendedpart)).map
          (fun q => mkPart none ((q.start : Int) - 2) (l.extendedSizeSec : Int)) := by
        rw [← this]; simp
      simp only [List.mem_map] at hm
      obtain ⟨q, -, rfl⟩ := hm
      simp only [mkPart] at hfirst ⊢
      simp
      omega
    rw [h4]
    simp only [mkPart]
    have := n.2.2.2.1
    have := fb.offset
    have := fb.size
    omega
  have hpw := (layout_no_overlap h).2.2.2.1
  refine ⟨e, he, ?_, ?_, by rw [hlast, hend]⟩
  · intro q hq hqt hqn m hm
    unfold Placed.Covers at hm
    unfold MkPart.Covers
    obtain ⟨s', hs', -⟩ := layoutPartitions_ok h
    rw [hl] at hs'
    rw [h1] at hs'
    simp only [Except.ok.injEq, Prod.mk.injEq, and_true] at hs'
    subst hs'
    have hbd := (loop_pairwise _ _ _ _ h1).2.1 q (by rw [← hl]; exact hq)
    have : base .msdos s = s.offset := by
      unfold base
      rw [if_neg]
      rw [hnump, hl]
      simp
    have hstart : f.start ≤ q.start := by
      rw [hl] at hq hpw
      rw [List.mem_append, List.mem_cons] at hq
      rcases hq with hq | rfl | hq
      · exact absurd ⟨hqn, hqt⟩ (hpre q hq)
      · omega
      · have h5 := (List.pairwise_append.1 hpw).2.1
        rw [List.pairwise_cons] at h5
        have := h5.1 q hq
        omega
    omega
  · intro q hq hqn m hm
    unfold Placed.Covers at hm
    unfold MkPart.Covers
    rw [hl] at hq hpw
    rw [List.mem_append, List.mem_cons] at hq
    rcases hq with hq | rfl | hq
    · have hle : q.start + q.size ≤ freeAfter .msdos pre := by
        have h5 := (List.pairwise_append.1 hpw).1
        unfold freeAfter
        rcases List.eq_nil_or_concat pre with h0 | ⟨ini, r, h0⟩
        · rw [h0] at hq; simp at hq
        · rw [List.concat_eq_append] at h0
          rw [h0] at hq h5
          rw [h0, List.getLast?_concat]
          simp only
          rw [List.mem_append, List.mem_singleton] at hq
          rcases hq with hq | rfl
          · have := (List.pairwise_append.1 h5).2.2 q hq r (by simp)
            omega
          · omega
      omega
    · exact absurd hf hqn
    · have := hpost q hq
      exact absurd ⟨this.1, this.2.1⟩ hqn

/-- The hypotheses are met, for example, by `demoMsdos`. -/
example : ∃ l f, layoutPartitions .msdos 0 demoMsdos = .ok l ∧
    l.parts = l.parts.take 3 ++ f :: l.parts.drop 4 ∧ (f.InTable ∧ f.ptype = .logical) ∧
    (∀ q ∈ l.parts.take 3, ¬ (q.InTable ∧ q.ptype = .logical)) ∧
    (∀ q ∈ l.parts.drop 4, q.InTable ∧ q.ptype = .logical ∧ q.spec.offset = none) ∧
    createParts .msdos l = [⟨some .primary, 2048, 4096⟩, ⟨some .primary, 4097, 4196⟩,
      ⟨some .primary, 4200, 4298⟩, ⟨none, 6142, 6183⟩, ⟨some .logical, 6144, 6148⟩,
      ⟨some .logical, 6152, 6164⟩, ⟨some .logical, 6167, 6183⟩] := by
  refine ⟨_, _, rfl, rfl, ⟨rfl, rfl⟩, ?_, ?_, ?_⟩
  · unfold Placed.InTable; decide
  · unfold Placed.InTable; decide
  · decide

/-- C06 is false in general: a gap made by `--offset` is not counted, so the extended partition
ends before the last logical partition. -/
theorem extended_too_small_offset : ∃ ps l e m, layoutPartitions .msdos 0 ps = .ok l ∧
    e ∈ createParts .msdos l ∧ m ∈ createParts .msdos l ∧ e.kind = none ∧
    m.kind = some .logical ∧ e.last < m.last :=
  ⟨[{ sizeSec := 10 }, { sizeSec := 10 }, { sizeSec := 10 }, { sizeSec := 10 },
    { sizeSec := 10, offset := some 51200 }], _, ⟨none, 31, 54⟩, ⟨some .logical, 100, 109⟩,
    rfl, by decide, by decide, rfl, rfl, by decide⟩

/-- C06 is false in general: a logical partition without table entry takes space that is not
counted either. -/
theorem extended_too_small_noTable : ∃ ps l e m, layoutPartitions .msdos 0 ps = .ok l ∧
    e ∈ createParts .msdos l ∧ m ∈ createParts .msdos l ∧ e.kind = none ∧
    m.kind = some .logical ∧ e.last < m.last :=
  ⟨[{ sizeSec := 10, ptype := .logical }, { sizeSec := 100, noTable := true },
    { sizeSec := 10, ptype := .logical }], _, ⟨none, 1, 24⟩, ⟨some .logical, 115, 124⟩,
    rfl, by decide, by decide, rfl, rfl, by decide⟩

/-- C06 is false in general: with a primary partition between two logical ones the extended
partition overlaps the primary one and misses the last logical one. -/
theorem extended_misplaced_primary : ∃ ps l e m r, layoutPartitions .msdos 0 ps = .ok l ∧
    e ∈ createParts .msdos l ∧ m ∈ createParts .msdos l ∧ r ∈ createParts .msdos l ∧
    e.kind = none ∧ m.kind = some .logical ∧ r.kind = some .primary ∧ e.last < m.last ∧
    e.first ≤ r.first ∧ r.first ≤ e.last :=
  ⟨[{ sizeSec := 10, ptype := .logical }, { sizeSec := 100 },
    { sizeSec := 10, ptype := .logical }], _, ⟨none, 1, 24⟩, ⟨some .logical, 115, 124⟩,
    ⟨some .primary, 13, 112⟩,
    rfl, by decide, by decide, by decide, rfl, rfl, rfl, by decide, by decide, by decide⟩

end Isar.Wic
