import Verif.Meta.StatsModel

/-!
C289: the recorded pressure adds up to the growth of the counters.
C290: the recorded shares of the processor are shares.
C291: the recorded data of disks are those of the disks of the machine.
C292: samples are as far apart as intended, and none is missing.
-/

namespace Isar.Meta.Stats

open Py

/-! ### Pressure -/

theorem pressures_some : ∀ (ts : List Nat) (l : Nat), l ≠ 0 → (∀ t ∈ ts, t ≠ 0) →
    (pressures (some l) ts).sum = (((l :: ts).getLast (List.cons_ne_nil _ _) : Nat) : Int) - (l : Int) ∧ (pressures (some l) ts).length = ts.length
  | [], l, _, _ => by
    refine ⟨?_, rfl⟩
    show (0 : Int) = (l : Int) - l
    omega
  | t :: ts, l, hl, h => by
    obtain ⟨h1, h2⟩ := pressures_some ts t (h t (List.mem_cons_self ..)) (fun x hx => h x (List.mem_cons_of_mem _ hx))
    have he : pressures (some l) (t :: ts) = ((t : Int) - (l : Int)) :: pressures (some t) ts := by
      rw [pressures]
      unfold reducePressure
      dsimp only
      rw [if_pos hl]
      rfl
    rw [he, List.sum_cons, h1, List.length_cons, h2, List.getLast_cons (List.cons_ne_nil t ts)]
    exact ⟨by omega, rfl⟩

/-- **C289**: when no sample of the counter is 0, there is one record for each sample but the first, and the records add up to the growth from the first sample to the last.
Missing: counters that are 0 at the start (`zero_forgotten`). -/
theorem pressure_partial (t : Nat) (ts : List Nat) (h : ∀ x ∈ t :: ts, x ≠ 0) :
    (pressures none (t :: ts)).sum = (((t :: ts).getLast (List.cons_ne_nil _ _) : Nat) : Int) - (t : Int) ∧ (pressures none (t :: ts)).length = ts.length :=
  pressures_some ts t (h t (List.mem_cons_self ..)) (fun x hx => h x (List.mem_cons_of_mem _ hx))

example : pressures none [3, 5, 5, 9] = [2, 0, 4] := by decide

theorem pressures_zero (ts : List Nat) : pressures (some 0) ts = pressures none ts := by
  cases ts with
  | nil => rfl
  | cons t ts => rfl

/-- **C289 is false of the code**: a sample of 0 is forgotten; so a machine that has had no pressure yet has no record of the first growth, however large. -/
theorem zero_forgotten (ts : List Nat) (n : Nat) : pressures none (0 :: ts) = pressures none ts ∧ pressures none [0, n] = [] := by
  have h (ts : List Nat) : pressures none (0 :: ts) = pressures none ts := pressures_zero ts
  exact ⟨h ts, h [n]⟩

/-! ### Processor -/

/-- **C290**: when no counter goes back, each share is between 0 and 1 and together they are at most 1, exactly 1 with the idle time when any time has passed.
Missing: a counter for waiting that goes back, as /proc/stat allows (`iowait_back`). -/
theorem shares_partial (o n : Times) (h1 : o.user ≤ n.user) (h2 : o.nice ≤ n.nice) (h3 : o.system ≤ n.system) (h4 : o.idle ≤ n.idle) (h5 : o.iowait ≤ n.iowait) (h6 : o.irq ≤ n.irq) (h7 : o.softirq ≤ n.softirq) :
    0 < (reduceStat o n).whole ∧ 0 ≤ (reduceStat o n).user ∧ 0 ≤ (reduceStat o n).system ∧ 0 ≤ (reduceStat o n).iowait ∧
    (reduceStat o n).user + (reduceStat o n).system + (reduceStat o n).iowait ≤ (reduceStat o n).whole ∧
    (reduceStat o n).user = ((n.user - o.user) + (n.nice - o.nice) : Nat) ∧
    (reduceStat o n).system = ((n.system - o.system) + (n.irq - o.irq) + (n.softirq - o.softirq) : Nat) ∧
    (reduceStat o n).iowait = (n.iowait - o.iowait : Nat) ∧
    (0 < (reduceStat o n).user + (reduceStat o n).system + (reduceStat o n).iowait + (n.idle - o.idle : Nat) →
      (reduceStat o n).user + (reduceStat o n).system + (reduceStat o n).iowait + (n.idle - o.idle : Nat) = (reduceStat o n).whole) := by
  unfold reduceStat
  dsimp only
  omega

example : reduceStat ⟨1, 1, 1, 1, 1, 1, 1⟩ ⟨5, 2, 3, 11, 4, 1, 2⟩ = ⟨5, 3, 3, 21⟩ := by decide

/-- **C290 is false of the code**: when the counter for waiting goes back, the share of users can be any number, and that of waiting negative. -/
theorem iowait_back (k : Nat) : reduceStat ⟨0, 0, 0, 0, k + 1, 0, 0⟩ ⟨k, 0, 0, 0, 0, 0, 0⟩ = ⟨k, 0, -(k + 1), 1⟩ := by
  unfold reduceStat
  simp only [Shares.mk.injEq]
  omega

/-! ### Disks -/

namespace Spec

/-- a name of a whole disk as drivers give them: IDE, SCSI and virtio with one letter, flash with one digit -/
inductive Disk : Str → Prop
  | letter (a c : Char) (h : a ∈ ['h', 's', 'v']) (hc : c ≠ '\n') : Disk [a, 'd', c]
  | mtd (c : Char) (h : c.isDigit = true) : Disk ("mtdblock".toList ++ [c])
  | mmc (c : Char) (h : c.isDigit = true) : Disk ("mmcblk".toList ++ [c])

end Spec

theorem diskName_iff (s : Str) : diskName s = true ↔ Spec.Disk s := by
  constructor
  · intro h
    unfold diskName at h
    split at h
    · obtain ⟨h1, h2⟩ := of_decide_eq_true h
      exact .letter _ _ (by simpa using h1) h2
    · exact .mtd _ h
    · exact .mmc _ h
    · cases h
  · intro h
    cases h with
    | letter a c h hc => exact decide_eq_true ⟨by simpa using h, hc⟩
    | mtd c h => exact h
    | mmc c h => exact h

theorem diskSums_filter (p : DiskLine → Bool) (hp : ∀ l, p l = relevant l) : ∀ ls : List DiskLine,
    diskSums ls = (((ls.filter p).map (·.read)).sum, ((ls.filter p).map (·.written)).sum, ((ls.filter p).map (·.use)).sum)
  | [] => rfl
  | l :: ls => by
    rw [diskSums, diskSums_filter p hp ls]
    dsimp only
    by_cases h : relevant l = true
    · rw [if_pos h, List.filter_cons_of_pos (by rw [hp]; exact h)]
      simp only [List.map_cons, List.sum_cons, Prod.mk.injEq]
      omega
    · rw [if_neg h, List.filter_cons_of_neg (by rw [hp]; exact h)]

/-- **C291**: on kernels with 14 fields in a line the sums are those over the whole disks with the known names, without their partitions.
Missing: later kernels (`more_fields`) and other disks (`nvme`). -/
theorem disks_partial (ls : List DiskLine) (h : ∀ l ∈ ls, l.fields = 14) (disk : DiskLine → Bool) (hd : ∀ l ∈ ls, disk l = true ↔ Spec.Disk l.name) :
    diskSums ls = (((ls.filter disk).map (·.read)).sum, ((ls.filter disk).map (·.written)).sum, ((ls.filter disk).map (·.use)).sum) := by
  rw [diskSums_filter relevant (fun _ => rfl)]
  have : ls.filter relevant = ls.filter disk := by
    apply List.filter_congr
    intro l hl
    unfold relevant
    rw [if_neg (fun hn => hn (h l hl))]
    exact Bool.eq_iff_iff.mpr ((diskName_iff l.name).trans (hd l hl).symm)
  rw [this]

example : diskSums [⟨"sda".toList, 14, 5, 6, 7⟩, ⟨"sda1".toList, 14, 1, 1, 1⟩, ⟨"mmcblk0".toList, 14, 1, 2, 3⟩, ⟨"mmcblk0p1".toList, 14, 1, 1, 1⟩] = (6, 8, 10) := by decide

/-- **C291 is false of the code**: where the lines have other than 14 fields, as they do since Linux 4.18, nothing is counted at all. -/
theorem more_fields (ls : List DiskLine) (h : ∀ l ∈ ls, l.fields ≠ 14) : diskSums ls = (0, 0, 0) := by
  rw [diskSums_filter relevant (fun _ => rfl)]
  have : ls.filter relevant = [] := List.filter_eq_nil_iff.mpr fun l hl => by
    unfold relevant
    rw [if_pos (h l hl)]
    exact Bool.false_ne_true
  rw [this]
  rfl

/-- **C291 is false of the code**: disks with NVMe and the 27th disk with SCSI are never counted. -/
theorem nvme (s : Str) (n : Nat) (r w u : Nat) (ls : List DiskLine) (a b : Char) :
    diskSums (⟨"nvme".toList ++ s, n, r, w, u⟩ :: ls) = diskSums ls ∧ diskSums (⟨['s', 'd', a, b], n, r, w, u⟩ :: ls) = diskSums ls := by
  have h1 : ¬ diskName ("nvme".toList ++ s) = true := by
    rw [diskName_iff]
    intro h
    generalize hx : "nvme".toList ++ s = x at h
    cases h with
    | letter a c h hc => exact absurd (congrArg List.length hx) (by simp)
    | mtd c h => exact absurd (show some 'n' = some 'm' from congrArg List.head? hx) (by decide)
    | mmc c h => exact absurd (show some 'n' = some 'm' from congrArg List.head? hx) (by decide)
  have h2 : ¬ diskName ['s', 'd', a, b] = true := by
    rw [diskName_iff]
    intro h
    generalize hx : ['s', 'd', a, b] = x at h
    cases h with
    | letter a c h hc => exact absurd (congrArg List.length hx) (by simp)
    | mtd c h => exact absurd (show some 's' = some 'm' from congrArg List.head? hx) (by decide)
    | mmc c h => exact absurd (show some 's' = some 'm' from congrArg List.head? hx) (by decide)
  have key : ∀ l : DiskLine, ¬ diskName l.name = true → diskSums (l :: ls) = diskSums ls := by
    intro l hl
    rw [diskSums]
    dsimp only
    rw [if_neg]
    unfold relevant
    split
    · exact Bool.false_ne_true
    · exact hl
  exact ⟨key _ h1, key _ h2⟩

/-! ### When samples are taken -/

theorem samples_after (m : Int) (hm : 0 ≤ m) : ∀ (calls : List (Int × Bool)) (last : Int), (∀ c ∈ calls, last ≤ c.1) → calls.Pairwise (fun a b => a.1 ≤ b.1) →
    (∀ s ∈ samples m last calls, s ∈ calls ∧ (s.2 = true ∨ s.1 - last > m)) ∧
    (samples m last calls).Pairwise fun a b => b.2 = true ∨ b.1 - a.1 > m
  | [], _, _, _ => ⟨fun _ h => (by cases h), List.Pairwise.nil⟩
  | (now, force) :: calls, last, h, hp => by
    rw [List.pairwise_cons] at hp
    have hl : last ≤ now := h _ (List.mem_cons_self ..)
    unfold samples
    by_cases hc : now - last > m ∨ force = true
    · rw [if_pos hc]
      obtain ⟨h1, h2⟩ := samples_after m hm calls now (fun c hc => hp.1 c hc) hp.2
      refine ⟨fun s hs => ?_, List.pairwise_cons.mpr ⟨fun s hs => (h1 s hs).2, h2⟩⟩
      rcases List.mem_cons.mp hs with hs | hs
      · rw [hs]
        exact ⟨List.mem_cons_self .., hc.symm⟩
      · obtain ⟨h3, h4⟩ := h1 s hs
        exact ⟨List.mem_cons_of_mem _ h3, h4.imp_right fun h => by omega⟩
    · rw [if_neg hc]
      obtain ⟨h1, h2⟩ := samples_after m hm calls last (fun c hc => h c (List.mem_cons_of_mem _ hc)) hp.2
      exact ⟨fun s hs => ⟨List.mem_cons_of_mem _ (h1 s hs).1, (h1 s hs).2⟩, h2⟩

theorem samples_cover (m : Int) (hm : 0 ≤ m) : ∀ (calls : List (Int × Bool)) (last : Int), (∀ c ∈ calls, last ≤ c.1) → calls.Pairwise (fun a b => a.1 ≤ b.1) →
    ∀ c ∈ calls, (c.2 = true → c ∈ samples m last calls) ∧ (c.1 - last ≤ m ∨ ∃ s ∈ samples m last calls, s.1 ≤ c.1 ∧ c.1 - s.1 ≤ m)
  | [], _, _, _ => fun _ h => (by cases h)
  | (now, force) :: calls, last, h, hp => by
    rw [List.pairwise_cons] at hp
    intro c hc
    unfold samples
    by_cases ht : now - last > m ∨ force = true
    · rw [if_pos ht]
      rcases List.mem_cons.mp hc with hc | hc
      · rw [hc]
        exact ⟨fun _ => List.mem_cons_self .., Or.inr ⟨_, List.mem_cons_self .., Int.le_refl _, by show now - now ≤ m; omega⟩⟩
      · obtain ⟨h1, h2⟩ := samples_cover m hm calls now (fun c hc => hp.1 c hc) hp.2 c hc
        refine ⟨fun hf => List.mem_cons_of_mem _ (h1 hf), Or.inr ?_⟩
        rcases h2 with h2 | ⟨s, hs, h3⟩
        · exact ⟨_, List.mem_cons_self .., hp.1 c hc, h2⟩
        · exact ⟨s, List.mem_cons_of_mem _ hs, h3⟩
    · rw [if_neg ht]
      rcases List.mem_cons.mp hc with hc | hc
      · rw [hc]
        have h' := not_or.mp ht
        exact ⟨fun hf => absurd hf h'.2, Or.inl (by show now - last ≤ m; omega)⟩
      · exact samples_cover m hm calls last (fun c hc => h c (List.mem_cons_of_mem _ hc)) hp.2 c hc

/-- **C292**: as long as the clock does not go back, a sample that is not forced is more than the least distance after every earlier one; every forced call takes a sample; and at every call there is a sample
that is at most this distance old.  Missing: a clock that is set back (`clock_back`). -/
theorem sampling_partial (m : Int) (hm : 0 ≤ m) (calls : List (Int × Bool)) (h0 : ∀ c ∈ calls, m < c.1) (hp : calls.Pairwise (fun a b => a.1 ≤ b.1)) :
    ((samples m 0 calls).Pairwise fun a b => b.2 = true ∨ b.1 - a.1 > m) ∧ (∀ s ∈ samples m 0 calls, s ∈ calls) ∧
    ∀ c ∈ calls, (c.2 = true → c ∈ samples m 0 calls) ∧ ∃ s ∈ samples m 0 calls, s.1 ≤ c.1 ∧ c.1 - s.1 ≤ m := by
  have hl : ∀ c ∈ calls, (0 : Int) ≤ c.1 := fun c hc => by have := h0 c hc; omega
  obtain ⟨h1, h2⟩ := samples_after m hm calls 0 hl hp
  refine ⟨h2, fun s hs => (h1 s hs).1, fun c hc => ?_⟩
  obtain ⟨h3, h4⟩ := samples_cover m hm calls 0 hl hp c hc
  refine ⟨h3, h4.resolve_left fun h => ?_⟩
  have := h0 c hc
  omega

example : samples 990 0 [(5000, false), (5300, false), (5990, false), (5991, false), (6000, true), (6990, false), (6991, false)] = [(5000, false), (5991, false), (6000, true), (6991, false)] := by decide

/-- **C292 is false of the code** when the clock is set back: no call that is not forced takes a sample until the clock is where it was. -/
theorem clock_back (m t : Int) (ht : m < t) (calls : List (Int × Bool)) (h : ∀ c ∈ calls, c.1 ≤ t + m ∧ c.2 = false) : samples m 0 ((t, false) :: calls) = [(t, false)] := by
  unfold samples
  rw [if_pos (Or.inl (by omega))]
  congr 1
  induction calls with
  | nil => rfl
  | cons c calls ih =>
    obtain ⟨h1, h2⟩ := h c (List.mem_cons_self ..)
    obtain ⟨now, f⟩ := c
    unfold samples
    dsimp only at h1 h2
    rw [if_neg (by rw [h2]; simp; omega)]
    exact ih fun c hc => h c (List.mem_cons_of_mem _ hc)

end Isar.Meta.Stats
