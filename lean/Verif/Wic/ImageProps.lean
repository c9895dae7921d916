import Verif.Wic.ImageModel
import Verif.Wic.LayoutProps
import Verif.Wic.FilemapProps
/-! # Image assembly, fstab and identifiers: C15, C41 - C44 -/

namespace Isar.Wic

open Py Filemap

/-! ## C15 -/

/-- The partition is to be mounted at boot. -/
def Mounted (p : PartInfo) : Prop :=
  p.realnum ≠ 0 ∧ (p.mountpoint.head? = some '/' ∨ p.mountpoint = "swap".toList)

instance (p : PartInfo) : Decidable (Mounted p) := inferInstanceAs (Decidable (_ ∧ _))

theorem mounted_iff (p : PartInfo) : (p.realnum = 0 ∨ p.mountpoint = [] ∨
    ¬ (startsWith p.mountpoint ['/'] = true ∨ p.mountpoint = "swap".toList)) ↔ ¬ Mounted p := by
  unfold Mounted
  cases hm : p.mountpoint with
  | nil =>
    constructor
    · rintro - ⟨-, h | h⟩
      · exact absurd h (by simp)
      · exact absurd h (by decide)
    · intro _
      exact Or.inr (Or.inl rfl)
  | cons c t =>
    have : startsWith (c :: t) ['/'] = true ↔ c = '/' := by
      rw [startsWith_iff]
      constructor
      · rintro ⟨u, h⟩
        exact (List.cons.inj h).1
      · rintro rfl
        exact ⟨t, rfl⟩
    rw [this]
    simp only [List.head?_cons, Option.some.injEq, reduceCtorEq, false_or]
    constructor
    · rintro (h | h) ⟨h1, h2⟩
      · exact h1 h
      · exact h h2
    · intro h
      by_cases h0 : p.realnum = 0
      · exact Or.inl h0
      · exact Or.inr (fun h2 => h ⟨h0, h2⟩)

theorem updateFstabLoop_eq (ps : List PartInfo) : ∀ lines u,
    updateFstabLoop ps (lines, u) =
      (lines ++ (ps.filter (fun p => Mounted p)).map fstabLine,
        u || ps.any (fun p => Mounted p)) := by
  induction ps with
  | nil => intro lines u; simp [updateFstabLoop]
  | cons p ps ih =>
    intro lines u
    unfold updateFstabLoop
    by_cases h : Mounted p
    · rw [if_neg (by rw [mounted_iff]; exact fun h' => h' h), ih]
      simp [h]
    · rw [if_pos ((mounted_iff p).2 h), ih]
      simp [h]

/-- C15: all existing lines are kept in order, exactly one line per mounted partition is
appended, in `.wks` order, and the file is left alone if there is nothing to add. -/
theorem fstab_updated (lines : List Str) (ps : List PartInfo) :
    updateFstab lines ps =
      if ∃ p ∈ ps, Mounted p then some (lines ++ (ps.filter (fun p => Mounted p)).map fstabLine)
      else none := by
  unfold updateFstab
  rw [updateFstabLoop_eq]
  simp

/-- C15: the six fields of the line, provided none of the attributes contains a tab. -/
theorem fstab_fields (p : PartInfo) (hm : '\t' ∉ p.mountpoint) (ht : '\t' ∉ p.fstype)
    (ho : '\t' ∉ p.fsopts) (hp : '\t' ∉ p.fspassno) (hd : '\t' ∉ fstabDevice p) :
    ∃ s, fstabLine p = s ++ ['\n'] ∧ splitOn '\t' s =
      [fstabDevice p, p.mountpoint, p.fstype,
       (if p.fsopts = [] then "defaults".toList else p.fsopts), ['0'],
       (if p.fspassno = [] then ['0'] else p.fspassno)] := by
  refine ⟨_, rfl, ?_⟩
  have e1 : (if p.fsopts ≠ [] then p.fsopts else "defaults".toList) =
      (if p.fsopts = [] then "defaults".toList else p.fsopts) := by
    by_cases h : p.fsopts = []
    · rw [if_neg (fun h' => h' h), if_pos h]
    · rw [if_pos h, if_neg h]
  have e2 : (if p.fspassno ≠ [] then p.fspassno else ['0']) =
      (if p.fspassno = [] then ['0'] else p.fspassno) := by
    by_cases h : p.fspassno = []
    · rw [if_neg (fun h' => h' h), if_pos h]
    · rw [if_pos h, if_neg h]
  rw [e1, e2]
  apply splitOn_join _ _ (List.cons_ne_nil _ _)
  intro w hw
  simp only [List.mem_cons, List.not_mem_nil, or_false] at hw
  rcases hw with rfl | rfl | rfl | rfl | rfl | rfl
  · exact hd
  · exact hm
  · exact ht
  · split
    · decide
    · exact ho
  · decide
  · split
    · decide
    · exact hp

/-- C15: a FAT partition mounted by UUID is named by its volume serial number: with an fsuuid
of at most eight hexadecimal digits, with or without `0x`, the device is `UUID=` followed by
the eight digits in upper case, padded with zeros, with a dash in the middle. -/
theorem fat_uuid_device (p : PartInfo) (fresh ds : Str) (hfat : isFat p.fstype = true)
    (hu : p.useUuid = true) (hlen : ds.length ≤ 8) (hds : ds ≠ [])
    (hx : p.fsuuid = ds ∧ startsWith (upper ds) "0X".toList = false ∨
      p.fsuuid = "0x".toList ++ ds ∨ p.fsuuid = "0X".toList ++ ds) :
    ∃ hi lo, hi.length = 4 ∧ lo.length = 4 ∧
      List.replicate (8 - ds.length) '0' ++ upper ds = hi ++ lo ∧
      fstabDevice { p with fsuuid := assignFsuuid fresh p } =
        "UUID=".toList ++ hi ++ '-' :: lo := by
  have hval : assignFsuuid fresh p =
      "0x".toList ++ (List.replicate (8 - ds.length) '0' ++ upper ds) := by
    unfold assignFsuuid
    have hne : p.fsuuid ≠ [] := by
      rcases hx with ⟨h, -⟩ | h | h
      · rw [h]; exact hds
      · rw [h]; simp
      · rw [h]; simp
    rw [if_neg hne, if_pos hfat]
    rcases hx with ⟨h, h2⟩ | h | h
    · rw [h, h2]
      simp [rjust, upper]
    · have e : upper ("0x".toList ++ ds) = "0X".toList ++ upper ds := by
        simp only [upper, List.map_append]
        congr 1
      have hs : startsWith ("0X".toList ++ upper ds) "0X".toList = true :=
        startsWith_iff.2 ⟨_, rfl⟩
      rw [h, e, if_pos hs]
      simp [rjust, upper]
    · have e : upper ("0X".toList ++ ds) = "0X".toList ++ upper ds := by
        simp only [upper, List.map_append]
        congr 1
      have hs : startsWith ("0X".toList ++ upper ds) "0X".toList = true :=
        startsWith_iff.2 ⟨_, rfl⟩
      rw [h, e, if_pos hs]
      simp [rjust, upper]
  generalize hw : List.replicate (8 - ds.length) '0' ++ upper ds = w at hval
  have hwl : w.length = 8 := by
    rw [← hw]
    simp [upper]
    omega
  refine ⟨w.take 4, w.drop 4, by simp; omega, by simp; omega, (List.take_append_drop 4 w).symm, ?_⟩
  unfold fstabDevice
  rw [hval]
  simp [hu, hwl]

example : updateFstab ["x\n".toList]
    [{ realnum := 1, mountpoint := "/".toList, fstype := "ext4".toList },
     { realnum := 2, mountpoint := "swap".toList, fstype := "swap".toList, disk := "mmcblk0".toList },
     { realnum := 0, mountpoint := "/x".toList },
     { realnum := 3, mountpoint := "/boot".toList, useUuid := true, fsuuid := "0x00ABCDEF".toList }] =
    some ["x\n".toList, "/dev/sda1\t/\text4\tdefaults\t0\t0\n".toList,
      "/dev/mmcblk0p2\tswap\tswap\tdefaults\t0\t0\n".toList,
      "UUID=00AB-CDEF\t/boot\tvfat\tdefaults\t0\t0\n".toList] := by decide

example : ∃ p : PartInfo, isFat p.fstype = true ∧ p.useUuid = true ∧
    p.fsuuid = "0x".toList ++ "abcdef".toList ∧
    assignFsuuid [] p = "0x00ABCDEF".toList :=
  ⟨{ useUuid := true, fsuuid := "0xabcdef".toList }, by decide⟩

/-! ## C41: the assembled image -/

theorem assemble_spec (ps : List (Nat × Option Source)) :
    (∀ x ∈ ps, ∀ s, x.2 = some s → 0 < s.bs ∧ ValidMap s.file s.bs s.ranges) →
    ∀ img : File,
    (∀ x ∈ ps, ∀ s, x.2 = some s → ∀ k, k < s.file.length → rd img (x.1 * 512 + k) = 0) →
    (ps.Pairwise fun a b => ∀ s t, a.2 = some s → b.2 = some t →
      a.1 * 512 + s.file.length ≤ b.1 * 512) →
    ∃ d, assemble ps img = some d ∧
      (∀ x ∈ ps, ∀ s, x.2 = some s → ∀ k, k < s.file.length →
        rd d (x.1 * 512 + k) = rd s.file k) ∧
      (∀ j, (∀ x ∈ ps, ∀ s, x.2 = some s →
        j < x.1 * 512 ∨ x.1 * 512 + s.file.length ≤ j) → rd d j = rd img j) := by
  induction ps with
  | nil =>
    intro _ img _ _
    exact ⟨img, rfl, by simp, fun _ _ => rfl⟩
  | cons x ps ih =>
    intro hv img hz hp
    rw [List.pairwise_cons] at hp
    have ih := ih (fun x hx => hv x (by simp [hx]))
    obtain ⟨st, src⟩ := x
    cases src with
    | none =>
      obtain ⟨d, h1, h2, h3⟩ := ih img (fun x hx => hz x (by simp [hx])) hp.2
      refine ⟨d, by simpa [assemble] using h1, ?_, ?_⟩
      · intro x hx s hs
        rw [List.mem_cons] at hx
        rcases hx with rfl | hx
        · simp at hs
        · exact h2 x hx s hs
      · intro j hj
        exact h3 j (fun x hx => hj x (by simp [hx]))
    | some s =>
      obtain ⟨hb, hm⟩ := hv (st, some s) (by simp) s rfl
      obtain ⟨e, he, hf, ho⟩ := sparse_copy_faithful s.file s.bs 0 (st * 512) 0 s.ranges img hb
        (by simp) hm (fun i hi _ => hz (st, some s) (by simp) s rfl i (by omega))
      have hout : ∀ j, j < st * 512 ∨ st * 512 + s.file.length ≤ j → rd e j = rd img j := by
        intro j hj
        apply ho
        omega
      obtain ⟨d, h1, h2, h3⟩ := ih e (by
        intro x hx t ht k hk
        have := hp.1 x hx s t rfl ht
        simp only at this
        rw [hout _ (by omega)]
        exact hz x (by simp [hx]) t ht k hk) hp.2
      refine ⟨d, ?_, ?_, ?_⟩
      · simp only [assemble, sectorSize, he]
        exact h1
      · intro x hx t ht k hk
        rw [List.mem_cons] at hx
        rcases hx with rfl | hx
        · simp at ht
          subst ht
          rw [h3]
          · have := hf k (by omega) (by simp)
            simpa using this
          · intro y hy u hu
            have := hp.1 y hy s u rfl hu
            simp only at this ⊢
            omega
        · exact h2 x hx t ht k hk
      · intro j hj
        rw [h3 j (fun x hx => hj x (by simp [hx])), hout j (hj (st, some s) (by simp) s rfl)]

/-- C41: after assembling, every partition holds exactly the bytes of its source file at its
start, and no byte outside the partitions has changed.  `srcs` are the source files in `.wks`
order; each has to fit in its partition, and the partitions of the fresh image read as
zeros. -/
theorem assembled_image {pt x ps l} (h : layoutPartitions pt x ps = .ok l)
    (srcs : List (Option Source)) (hlen : srcs.length = l.parts.length)
    (hv : ∀ s, some s ∈ srcs → 0 < s.bs ∧ ValidMap s.file s.bs s.ranges)
    (hfit : ∀ (i : Nat) (hi : i < l.parts.length) (hs : i < srcs.length) (s : Source),
      srcs[i] = some s → s.file.length ≤ l.parts[i].size * 512)
    (img : File) (hz : ∀ q ∈ l.parts, ∀ k, q.start * 512 ≤ k → k < (q.start + q.size) * 512 →
      rd img k = 0) :
    ∃ d, assemble ((l.parts.map Placed.start).zip srcs) img = some d ∧
      (∀ (i : Nat) (hi : i < l.parts.length) (hs : i < srcs.length) (s : Source),
        srcs[i] = some s → ∀ k, k < s.file.length →
        rd d (l.parts[i].start * 512 + k) = rd s.file k) ∧
      (∀ j, (∀ q ∈ l.parts, ¬ (q.start * 512 ≤ j ∧ j < (q.start + q.size) * 512)) →
        rd d j = rd img j) := by
  have hpw := (layout_no_overlap h).2.2.2.1
  have hzip : ∀ y ∈ (l.parts.map Placed.start).zip srcs, ∃ i, ∃ (hi : i < l.parts.length)
      (hs : i < srcs.length), y = (l.parts[i].start, srcs[i]) := by
    intro y hy
    obtain ⟨i, hi, rfl⟩ := List.getElem_of_mem hy
    simp at hi
    exact ⟨i, by omega, by omega, by simp⟩
  obtain ⟨d, h1, h2, h3⟩ := assemble_spec ((l.parts.map Placed.start).zip srcs) (by
      intro y hy s hs
      obtain ⟨i, hi, hs', rfl⟩ := hzip y hy
      exact hv s (by rw [← hs]; exact List.getElem_mem _)) img (by
      intro y hy s hs k hk
      obtain ⟨i, hi, hs', rfl⟩ := hzip y hy
      have := hfit i hi hs' s hs
      exact hz _ (List.getElem_mem hi) _ (by simp only; omega) (by simp only; omega)) (by
      rw [List.pairwise_iff_getElem] at hpw ⊢
      intro i j hi hj hij s t hs ht
      simp only [List.length_zip, List.length_map] at hi hj
      have h3 := hpw i j (by omega) (by omega) hij
      simp only [List.getElem_zip, List.getElem_map] at hs ht ⊢
      have := hfit i (by omega) (by omega) s hs
      omega)
  refine ⟨d, h1, ?_, ?_⟩
  · intro i hi hs s he k hk
    refine h2 (l.parts[i].start, srcs[i]) ?_ s he k hk
    rw [List.mem_iff_getElem]
    exact ⟨i, by simp; omega, by simp⟩
  · intro j hj
    apply h3
    intro y hy s hs
    obtain ⟨i, hi, hs', rfl⟩ := hzip y hy
    have h4 := hj _ (List.getElem_mem hi)
    have h5 := hfit i hi hs' s hs
    simp only
    omega

example : assemble [(0, none), (1, some ⟨[5, 6], 1, [(0, 1)]⟩)] [7] =
    some (7 :: List.replicate 511 0 ++ [5, 6]) := by decide +kernel

/-! ## C42: distinct identifiers -/

theorem realnumsAux_ge (pt : PTable) (nreal : Nat) (ps : List PartSpec) : ∀ n,
    ∀ r ∈ realnumsAux pt nreal n ps, r ≠ 0 →
      n + 1 ≤ r ∧ (pt = .msdos → n + 1 > 3 → nreal > 4 → n + 2 ≤ r) := by
  induction ps with
  | nil => intro n r hr; simp [realnumsAux] at hr
  | cons p ps ih =>
    intro n r hr h0
    unfold realnumsAux at hr
    split at hr
    · rw [List.mem_cons] at hr
      rcases hr with rfl | hr
      · exact absurd rfl h0
      · exact ih n r hr h0
    · split at hr
      · rw [List.mem_cons] at hr
        rcases hr with rfl | hr
        · omega
        · have := ih (n + 1) r hr h0
          omega
      · next hc =>
        rw [List.mem_cons] at hr
        rcases hr with rfl | hr
        · exact ⟨Nat.le_refl _, fun a b c => absurd ⟨a, b, c⟩ hc⟩
        · have := ih (n + 1) r hr h0
          refine ⟨by omega, fun a b c => by omega⟩

theorem realnums_pairwise (pt : PTable) (nreal : Nat) (ps : List PartSpec) : ∀ n,
    (realnumsAux pt nreal n ps).Pairwise (fun a b => a ≠ 0 → b ≠ 0 → a ≠ b) := by
  induction ps with
  | nil => intro n; simp [realnumsAux]
  | cons p ps ih =>
    intro n
    unfold realnumsAux
    split
    · rw [List.pairwise_cons]
      exact ⟨fun b _ h => absurd rfl h, ih n⟩
    · split
      · next hc =>
        rw [List.pairwise_cons]
        refine ⟨?_, ih _⟩
        intro b hb _ h0
        have := (realnumsAux_ge pt nreal ps (n + 1) b hb h0).2 hc.1 (by omega) hc.2.2
        omega
      · rw [List.pairwise_cons]
        refine ⟨?_, ih _⟩
        intro b hb _ h0
        have := (realnumsAux_ge pt nreal ps (n + 1) b hb h0).1
        omega

theorem decVal_replicate_zero (n : Nat) (s : Str) : decVal (List.replicate n '0' ++ s) = decVal s := by
  induction n with
  | zero => rfl
  | succ n ih =>
    rw [List.replicate_succ, List.cons_append, decVal_cons, ih]
    simp [digitVal]

theorem dec2_injective {m n : Nat} (h : dec2 m = dec2 n) : m = n := by
  have h1 : decVal (dec2 m) = m := by
    unfold dec2 rjust
    rw [decVal_replicate_zero, decVal_dec]
  have h2 : decVal (dec2 n) = n := by
    unfold dec2 rjust
    rw [decVal_replicate_zero, decVal_dec]
  rw [← h1, h, h2]

/-- C42: on msdos, partitions with a table entry get pairwise distinct generated PARTUUIDs. -/
theorem msdos_uuids_distinct (ident : Nat) (ps : List PartSpec) (i j : Nat)
    (hi : i < (realnums .msdos ps).length) (hj : j < (realnums .msdos ps).length)
    (h0 : (realnums .msdos ps)[i] ≠ 0) (h1 : (realnums .msdos ps)[j] ≠ 0)
    (he : msdosUuid ident (realnums .msdos ps)[i] = msdosUuid ident (realnums .msdos ps)[j]) :
    i = j := by
  have hp := realnums_pairwise .msdos (numReal ps) ps 0
  rw [List.pairwise_iff_getElem] at hp
  have he' : (realnums .msdos ps)[i] = (realnums .msdos ps)[j] := by
    unfold msdosUuid at he
    have := List.append_cancel_left he
    simp only [List.cons.injEq, true_and] at this
    exact dec2_injective this
  rcases Nat.lt_trichotomy i j with hlt | heq | hgt
  · exact absurd he' (hp i j hi hj hlt h0 h1)
  · exact heq
  · exact absurd he'.symm (hp j i hj hi hgt h1 h0)

example : (realnums .msdos demoMsdos).map (msdosUuid 0xdeadbeef) =
    ["deadbeef-01".toList, "deadbeef-02".toList, "deadbeef-03".toList, "deadbeef-05".toList,
     "deadbeef-06".toList, "deadbeef-07".toList] := by decide

/-! ## C43: root= -/

/-- The kernel's name of the device of a partition: partitions of `mmcblk` disks have a `p`
before their number. -/
def deviceNode (disk : Str) (num : Nat) : Str :=
  if "mmcblk".toList <+: disk then "/dev/".toList ++ disk ++ ['p'] ++ dec num
  else "/dev/".toList ++ disk ++ dec num

theorem deviceNode_eq (disk : Str) (num : Nat) :
    "/dev/".toList ++ disk ++ (if startsWith disk "mmcblk".toList then ['p'] else []) ++ dec num =
      deviceNode disk num := by
  unfold deviceNode
  by_cases h : startsWith disk "mmcblk".toList = true
  · rw [if_pos h, if_pos (List.isPrefixOf_iff_prefix.1 h)]
  · rw [if_neg h, if_neg (fun h' => h (List.isPrefixOf_iff_prefix.2 h')), List.append_nil]

/-- C43: `root=` names the first partition mounted at `/`: by its PARTUUID, else on a gpt disk by
its label, else by its device node. -/
theorem rootdev_spec (pt : PTable) (ps : List PartInfo) :
    (rootdev pt ps = none ↔ ∀ p ∈ ps, p.mountpoint ≠ ['/']) ∧
    (∀ pre p post, ps = pre ++ p :: post → (∀ q ∈ pre, q.mountpoint ≠ ['/']) →
      p.mountpoint = ['/'] →
      (p.uuid ≠ [] → rootdev pt ps = some ("PARTUUID=".toList ++ p.uuid)) ∧
      (p.uuid = [] → p.label ≠ [] → pt ≠ .msdos →
        rootdev pt ps = some ("PARTLABEL=".toList ++ p.label)) ∧
      (p.uuid = [] → (p.label = [] ∨ pt = .msdos) →
        rootdev pt ps = some (deviceNode p.disk p.realnum))) := by
  constructor
  · induction ps with
    | nil => simp [rootdev]
    | cons p ps ih =>
      unfold rootdev
      by_cases h : p.mountpoint = ['/']
      · rw [if_pos h]
        simp only [List.mem_cons, forall_eq_or_imp, h]
        split
        · simp
        · split <;> simp
      · rw [if_neg h, ih]
        simp [h]
  · intro pre
    induction pre generalizing ps with
    | nil =>
      intro p post hps _ hm
      subst hps
      simp only [List.nil_append, rootdev, hm, if_true]
      refine ⟨fun h => by rw [if_pos h], fun h1 h2 h3 => ?_, fun h1 h2 => ?_⟩
      · rw [if_neg (by simp [h1]), if_pos ⟨h2, h3⟩]
      · rw [if_neg (by simp [h1]), if_neg (by
          rintro ⟨a, b⟩
          rcases h2 with h | h
          · exact a h
          · exact b h)]
        rw [deviceNode_eq]
    | cons q pre ih =>
      intro p post hps hpre hm
      subst hps
      have hq := hpre q (by simp)
      simp only [List.cons_append, rootdev, if_neg hq]
      exact ih (pre ++ p :: post) p post rfl (fun r hr => hpre r (by simp [hr])) hm

example : rootdev .msdos [{ realnum := 1, mountpoint := "/boot".toList },
    { realnum := 2, mountpoint := "/".toList, disk := "mmcblk0".toList, label := "r".toList }] =
    some "/dev/mmcblk0p2".toList := by decide

/-- C43: without `--use-uuid` and `--use-label`, fstab uses the same device node. -/
theorem fstab_device_node (p : PartInfo) (h1 : p.useUuid = false) (h2 : p.useLabel = false) :
    fstabDevice p = deviceNode p.disk p.realnum := by
  unfold fstabDevice
  rw [if_neg (by simp [h1]), if_neg (by simp [h2]), deviceNode_eq]

example : fstabDevice { disk := "sdb".toList, realnum := 12 } = "/dev/sdb12".toList := by decide

/-- C43: the label form is right only if the label is the name that the partition has in the gpt:
it is when `--part-name` is not given. -/
theorem rootdev_label_partial (pt : PTable) (p : PartInfo) (hpt : pt ≠ .msdos)
    (hl : p.label ≠ []) (hn : p.partName = []) : gptName pt p = some p.label := by
  unfold gptName
  rw [if_pos ⟨hpt, Or.inr hl⟩, if_neg (by simp [hn])]

example : gptName .gpt { label := "root".toList } = some "root".toList := by decide

/-- C43 fails with `--part-name`: `root=` refers to a name that no partition has. -/
theorem rootdev_wrong_label : ∃ p : PartInfo, rootdev .gpt [p] = some ("PARTLABEL=".toList ++ p.label) ∧
    gptName .gpt p = some p.partName ∧ p.partName ≠ p.label :=
  ⟨{ realnum := 1, mountpoint := "/".toList, label := "root".toList, partName := "A".toList },
    by decide⟩

/-! ## C44: hybrid MBR -/

/-- The partitions wanted in the hybrid MBR. -/
def wantsMbr (q : Placed) : Bool := q.num ≠ 0 && q.spec.mbr

/-- Its entry there: a primary partition with the same range as in the GPT. -/
def mbrEntry (q : Placed) : MkPart := { expectedEntry q with kind := some .primary }

theorem hybridLoop_spec (qs : List Placed) : ∀ n,
    hybridLoop n qs =
      if qs.filter wantsMbr = [] ∨ n + (qs.filter wantsMbr).length ≤ 4 then
        some (n + (qs.filter wantsMbr).length, (qs.filter wantsMbr).map mbrEntry)
      else none := by
  induction qs with
  | nil => intro n; simp [hybridLoop]
  | cons q qs ih =>
    intro n
    unfold hybridLoop
    by_cases hw : wantsMbr q = true
    · have hn : ¬ (q.num = 0 ∨ q.spec.mbr = false) := by
        unfold wantsMbr at hw
        simp at hw
        rintro (h | h)
        · exact hw.1 h
        · simp [hw.2] at h
      rw [if_neg hn, List.filter_cons_of_pos hw]
      by_cases h4 : n + 1 > 4
      · rw [if_pos h4, if_neg]
        simp
        omega
      · rw [if_neg h4, ih]
        have he : mkPart (some .primary) (q.start : Int)
            (if q.spec.bootFat ∧ q.size % 2 = 1 then (q.size : Int) - 1 else q.size) =
            mbrEntry q := by
          unfold mkPart mbrEntry expectedEntry
          simp only [MkPart.mk.injEq, true_and]
          split <;> omega
        simp only
        rw [he]
        by_cases hnil : qs.filter wantsMbr = []
        · rw [if_pos (Or.inl hnil), if_pos (Or.inr (by simp [hnil]; omega))]
          simp [hnil]
        · by_cases hle : n + 1 + (qs.filter wantsMbr).length ≤ 4
          · rw [if_pos (Or.inr hle), if_pos (Or.inr (by simp; omega))]
            simp
            omega
          · rw [if_neg (by simp [hnil]; omega), if_neg (by simp; omega)]
            rfl
    · have hn : q.num = 0 ∨ q.spec.mbr = false := by
        unfold wantsMbr at hw
        simp at hw
        by_cases h : q.num = 0
        · exact Or.inl h
        · exact Or.inr (hw h)
      rw [if_pos hn, ih, List.filter_cons_of_neg hw]

/-- C44: a hybrid MBR holds the protective entry for the GPT, as its last entry, and in front
of it the partitions marked `--mbr`, with the same ranges as in the GPT; the build fails
exactly if there are more than three of them. -/
theorem hybrid_mbr_spec {x ps l} (h : layoutPartitions .gptHybrid x ps = .ok l) :
    hybridMbr l =
      if (l.parts.filter (fun q => !q.spec.noTable && q.spec.mbr)).length ≤ 3 then
        some ((l.parts.filter (fun q => !q.spec.noTable && q.spec.mbr)).map mbrEntry ++
          [{ kind := some .primary, first := 1, last := 34 }])
      else none := by
  have hf : l.parts.filter wantsMbr =
      l.parts.filter (fun q => !q.spec.noTable && q.spec.mbr) := by
    apply List.filter_congr
    intro q hq
    have := (numbers_distinct h).1 q hq
    unfold wantsMbr
    cases hn : q.spec.noTable
    · rw [hn] at this
      simp at this
      simp [this]
    · rw [hn] at this
      simp at this
      simp [this]
  unfold hybridMbr
  rw [hybridLoop_spec, hf]
  generalize l.parts.filter (fun q => !q.spec.noTable && q.spec.mbr) = F
  by_cases h3 : F.length ≤ 3
  · rw [if_pos (Or.inr (by omega)), if_pos h3]
    simp only
    rw [if_neg (by omega)]
    rfl
  · rw [if_neg h3]
    by_cases h4 : F.length ≤ 4
    · rw [if_pos (Or.inr (by omega))]
      simp only
      rw [if_pos (by omega)]
    · rw [if_neg]
      rintro (h | h)
      · simp [h] at h3
      · omega

example : ∃ l, layoutPartitions .gptHybrid 0 [{ sizeSec := 10, mbr := true }, { sizeSec := 5 },
    { sizeSec := 7, mbr := true }] = .ok l ∧
    hybridMbr l = some [⟨some .primary, 34, 43⟩, ⟨some .primary, 49, 55⟩, ⟨some .primary, 1, 34⟩] :=
  ⟨_, rfl, rfl⟩

/-- C44, partial: the entries of the hybrid MBR do not overlap, provided that no partition in it
starts at sector 34.  Missing: such a partition, see `hybrid_mbr_overlap`. -/
theorem hybrid_mbr_disjoint_partial {x ps l ms} (h : layoutPartitions .gptHybrid x ps = .ok l)
    (hm : hybridMbr l = some ms) (hs : ∀ q ∈ l.parts, q.spec.mbr = true → q.start ≠ 34) :
    ms.Pairwise (fun a b => ∀ n : Int, ¬ (a.Covers n ∧ b.Covers n)) := by
  rw [hybrid_mbr_spec h] at hm
  split at hm
  · simp only [Option.some.injEq] at hm
    subst hm
    have hpw := (layout_no_overlap h).2.2.2.1
    have hmin : ∀ q ∈ l.parts, 34 ≤ q.start := by
      intro q hq
      obtain ⟨s, h2, -⟩ := layoutPartitions_ok h
      have h3 := ((loop_pairwise _ _ _ _ h2).2.1 q hq).1
      rw [reserved_eq] at h3
      simp only [reservedSectors] at h3
      omega
    rw [List.pairwise_append]
    refine ⟨?_, by simp, ?_⟩
    · rw [List.pairwise_map]
      apply List.Pairwise.imp _ (hpw.filter _)
      intro a b hab n
      unfold mbrEntry expectedEntry MkPart.Covers
      simp only
      split <;> split <;> omega
    · intro a ha b hb n
      simp only [List.mem_singleton] at hb
      subst hb
      rw [List.mem_map] at ha
      obtain ⟨q, hq, rfl⟩ := ha
      rw [List.mem_filter] at hq
      have h1 := hmin q hq.1
      have h2 := hs q hq.1 (by simp at hq; exact hq.2.2)
      unfold mbrEntry expectedEntry MkPart.Covers
      simp only
      omega
  · simp at hm

/-- C44 is false in general: the first sector behind the GPT is also covered by the protective
entry, which is one sector too long. -/
theorem hybrid_mbr_overlap : ∃ ps l ms a b, layoutPartitions .gptHybrid 0 ps = .ok l ∧
    hybridMbr l = some ms ∧ ms = [a, b] ∧ a.Covers 34 ∧ b.Covers 34 :=
  ⟨[{ sizeSec := 10, mbr := true }], _, _, _, _, rfl, rfl, rfl, by
    unfold MkPart.Covers; decide, by unfold MkPart.Covers; decide⟩

/-! ## C45: numbers given by `parted` -/

/-- How partitions are numbered when they are created one after the other, `p` primary or
extended and `l` logical ones being there already.  On gpt every partition takes the next
number.  On msdos, primary and extended partitions take the next of the slots 1-4, and logical
ones are counted from 5. -/
def partedNumbers (pt : PTable) : Nat → Nat → List MkPart → List (MkPart × Nat)
  | _, _, [] => []
  | p, l, m :: ms =>
    if pt = .msdos ∧ m.kind = some .logical then (m, 5 + l) :: partedNumbers pt p (l + 1) ms
    else (m, 1 + p) :: partedNumbers pt (p + 1) l ms

/-- The requests `create` makes for one partition. -/
def createOne (pt : PTable) (ext extSize : Nat) (q : Placed) : List MkPart :=
  if q.num = 0 then []
  else
    let e := if pt = .msdos ∧ q.num = ext then [mkPart none ((q.start : Int) - 2) (extSize : Int)]
      else []
    let size : Int := if q.spec.bootFat ∧ q.size % 2 = 1 then (q.size : Int) - 1 else q.size
    e ++ [mkPart (some q.ptype) (q.start : Int) size]

theorem createParts_eq (pt : PTable) (l : Layout) :
    createParts pt l = l.parts.flatMap (createOne pt l.extendedpart l.extendedSizeSec) := rfl

/-- The numbers of the requests that are not for the extended partition. -/
def numbersOf (pt : PTable) (p l : Nat) (ms : List MkPart) : List Nat :=
  ((partedNumbers pt p l ms).filter (fun x => x.1.kind.isSome)).map Prod.snd

theorem loop_partedGpt {pt nreal E S} (hpt : pt ≠ .msdos) (ps : List PartSpec) : ∀ s s' qs,
    layoutLoop pt nreal s ps = .ok (s', qs) →
    numbersOf pt s.realpart 0 (qs.flatMap (createOne pt E S)) =
      (qs.filter (fun q => !q.spec.noTable)).map Placed.num := by
  induction ps with
  | nil =>
    intro s s' qs h
    simp [layoutLoop] at h
    obtain ⟨rfl, rfl⟩ := h
    rfl
  | cons p ps ih =>
    intro s s'' qs h
    obtain ⟨s', q, qs', h1, h2, rfl⟩ := layoutLoop_cons h
    have f := layoutStep_facts h1
    have n := ((layoutStep_nums h1).nonMsdos hpt).1
    have hr := f.realpart
    have ih := ih _ _ _ h2
    rw [List.flatMap_cons]
    cases hn : p.noTable
    · rw [hn] at n hr
      simp only [Bool.false_eq_true, if_false] at n hr
      have hq : q.spec.noTable = false := by rw [f.spec]; exact hn
      have hc : ∃ m, createOne pt E S q = [m] ∧ m.kind.isSome = true := by
        unfold createOne
        rw [if_neg (by omega)]
        simp only [hpt, false_and, if_false, List.nil_append]
        exact ⟨_, rfl, rfl⟩
      obtain ⟨m, hm, hk⟩ := hc
      rw [hm, List.filter_cons_of_pos (by simp [hq]), List.map_cons, ← ih, hr, n]
      unfold numbersOf
      simp only [List.cons_append, List.nil_append, partedNumbers, hpt, false_and, if_false]
      rw [List.filter_cons_of_pos (by exact hk)]
      simp [Nat.add_comm]
    · rw [hn] at n hr
      simp only [if_true] at n hr
      have hq : q.spec.noTable = true := by rw [f.spec]; exact hn
      rw [List.filter_cons_of_neg (by simp [hq]), ← ih, hr]
      simp [createOne, n]

theorem loop_partedMsdos {nreal S} (ps : List PartSpec) : ∀ s s' qs,
    layoutLoop .msdos nreal s ps = .ok (s', qs) → s.realpart + numReal ps ≤ nreal →
    MsInv nreal s →
    numbersOf .msdos s.primaryPartNum s.logicalPartCnt
      (qs.flatMap (createOne .msdos s'.extendedpart S)) =
      (qs.filter (fun q => !q.spec.noTable)).map Placed.num := by
  induction ps with
  | nil =>
    intro s s' qs h _ _
    simp [layoutLoop] at h
    obtain ⟨rfl, rfl⟩ := h
    rfl
  | cons p ps ih =>
    intro s s'' qs h hle hi
    obtain ⟨s', q, qs', h1, h2, rfl⟩ := layoutLoop_cons h
    have f := layoutStep_facts h1
    have n := layoutStep_nums h1
    rw [numReal_cons] at hle
    have hi' := msInv_step h1 (by intro h0; rw [h0] at hle; simp at hle; omega) hi
    have hle' : s'.realpart + numReal ps ≤ nreal := by
      rw [f.realpart]
      cases hn : p.noTable <;> simp [hn] at hle ⊢ <;> omega
    have ih := ih _ _ _ h2 hle' hi'
    have hfin := (loop_msInv _ _ _ _ h2 hle' hi').1.ext_log
    rw [List.flatMap_cons]
    cases hn : p.noTable
    · have hq : q.spec.noTable = false := by rw [f.spec]; exact hn
      rw [List.filter_cons_of_pos (by simp [hq]), List.map_cons, ← ih]
      rcases ptype_cases q.ptype with ht | ht
      · obtain ⟨a, b, c, d, e⟩ := n.primary rfl hn ht
        have h4 := hi'.prim_4
        have hne : ¬ (PTable.msdos = PTable.msdos ∧ q.num = s''.extendedpart) := by
          rw [hfin]
          split <;> omega
        unfold createOne
        rw [if_neg (show ¬ q.num = 0 by omega), if_neg hne, b, e]
        unfold numbersOf
        simp only [List.cons_append, List.nil_append, partedNumbers, mkPart, ht, Option.some.injEq,
          reduceCtorEq, and_false, if_false]
        rw [List.filter_cons_of_pos (by rfl)]
        simp only [List.map_cons, a, Nat.add_comm 1]
      · by_cases h0 : s.extendedpart = 0
        · obtain ⟨a, b, c, d, e⟩ := n.firstLogical rfl hn ht h0
          have hext : s''.extendedpart = q.num := by
            rw [ext_mono _ _ _ _ h2 (by omega), c]
          unfold createOne
          rw [if_neg (show ¬ q.num = 0 by omega), if_pos ⟨rfl, hext.symm⟩, b, e]
          unfold numbersOf
          simp only [List.cons_append, List.nil_append, partedNumbers, mkPart, ht, reduceCtorEq,
            and_false, if_false, and_true, if_true]
          rw [List.filter_cons_of_neg (by simp), List.filter_cons_of_pos (by rfl)]
          simp only [List.map_cons, a, Nat.add_comm 5]
        · obtain ⟨a, b, c, d, e⟩ := n.nextLogical rfl hn ht h0
          have hcnt : s.logicalPartCnt ≠ 0 := by
            intro hz
            apply h0
            rw [hi.ext_log, if_pos hz]
          have hne : ¬ (PTable.msdos = PTable.msdos ∧ q.num = s''.extendedpart) := by
            rw [hfin]
            split <;> omega
          unfold createOne
          rw [if_neg (show ¬ q.num = 0 by omega), if_neg hne, b, e]
          unfold numbersOf
          simp only [List.cons_append, List.nil_append, partedNumbers, mkPart, ht,
            and_true, if_true]
          rw [List.filter_cons_of_pos (by rfl)]
          simp only [List.map_cons, a, Nat.add_comm 5]
    · obtain ⟨a, b, c, d, e⟩ := n.noTable rfl hn
      have hq : q.spec.noTable = true := by rw [f.spec]; exact hn
      rw [List.filter_cons_of_neg (by simp [hq]), ← ih, b, e]
      simp [createOne, a]

/-- C45: the partition numbers that the layout hands to `sgdisk`, `sfdisk` and `parted set` are
the numbers that the partitions have in the table, for every `.wks` file and table format. -/
theorem numbers_match_table {pt x ps l} (h : layoutPartitions pt x ps = .ok l) :
    ((partedNumbers pt 0 0 (createParts pt l)).filter (fun x => x.1.kind.isSome)).map Prod.snd =
      (l.parts.filter (fun q => !q.spec.noTable)).map Placed.num := by
  obtain ⟨s, h1, -, h2, -⟩ := layoutPartitions_ok h
  rw [createParts_eq]
  by_cases hpt : pt = .msdos
  · subst hpt
    rw [h2]
    exact loop_partedMsdos _ _ _ _ h1 (by simp) (msInv_init _)
  · exact loop_partedGpt hpt _ _ _ _ h1

example : ∃ l, layoutPartitions .msdos 0 demoMsdos = .ok l ∧
    (partedNumbers .msdos 0 0 (createParts .msdos l)).map Prod.snd = [1, 2, 3, 4, 5, 6, 7] ∧
    l.parts.map Placed.num = [1, 2, 3, 5, 6, 7] :=
  ⟨_, rfl, rfl, rfl⟩

/-! ## C46: unsupported options -/

/-- C46: a layout succeeds only if no option is used that the table format does not support:
partition names and types need gpt, MBR entries need gpt-hybrid. -/
theorem unsupported_rejected {pt x ps l} (h : layoutPartitions pt x ps = .ok l) :
    ∀ p ∈ ps, (pt = .msdos → p.hasPartName = false ∧ p.hasPartType = false) ∧
      (p.mbr = true → pt = .gptHybrid) := by
  obtain ⟨s, h1, -⟩ := layoutPartitions_ok h
  have hall := loop_all_steps (pt := pt) (P := fun q =>
      (pt = .msdos → q.spec.hasPartName = false ∧ q.spec.hasPartType = false) ∧
      (q.spec.mbr = true → pt = .gptHybrid)) (by
    intro s p s' q hs
    rw [(layoutStep_facts hs).spec]
    unfold layoutStep at hs
    obtain ⟨_, hc, -⟩ := Except.bind_ok hs
    unfold checkPart at hc
    split at hc
    · simp at hc
    · next ha =>
      split at hc
      · simp at hc
      · next hb =>
        split at hc
        · simp at hc
        · next hd =>
          refine ⟨fun hm => ⟨?_, ?_⟩, fun hm => ?_⟩
          · cases hx : p.hasPartName
            · rfl
            · exact absurd ⟨hm, hx⟩ ha
          · cases hx : p.hasPartType
            · rfl
            · exact absurd ⟨hm, hx⟩ hb
          · apply Classical.byContradiction
            intro hx
            exact hd ⟨hm, hx⟩) _ _ _ _ h1
  intro p hp
  rw [← (layout_no_overlap h).1, List.mem_map] at hp
  obtain ⟨q, hq, rfl⟩ := hp
  exact hall q hq

example : ∃ l, layoutPartitions .gptHybrid 0 [{ sizeSec := 10, mbr := true, hasPartName := true }] =
    .ok l := ⟨_, rfl⟩

example : layoutPartitions .gpt 0 [{ sizeSec := 10, mbr := true }] = .error .mbrWithoutHybrid := rfl

end Isar.Wic
