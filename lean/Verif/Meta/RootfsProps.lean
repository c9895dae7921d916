import Verif.Meta.RootfsLemmas
/-!
# Properties of the rootfs tasks: mounts and the lock of isar-apt
-/

namespace Isar.Rootfs
open Py

/-! ### C32: mounting and unmounting -/

/-- **C32.**  If nothing is mounted below the rootfs, running the mount script (any of its mount
commands may fail, which ends it) and then the unmount script gives back the mount table
exactly. -/
theorem umount_inverse {r : Path} {s : Sys} (h : Unmounted r s) (em : Env) {eu : Env}
    (hu : Idle eu) :
    (doUmounts eu r (doMounts em r s).1).2 = true ∧
    (doUmounts eu r (doMounts em r s).1).1.mounts = s.mounts := by
  have hg := h.good.doMounts em (Or.inr (h.not_mem (by decide)))
  have := doUmounts_ok hu hg.1
  rw [doMounts_others, h.others] at this
  exact this

/-- **C32.**  Neither script touches a mount outside the rootfs: in any state and whatever fails,
the mounts that do not lie below the rootfs stay, in their order. -/
theorem other_mounts_kept (e : Env) (r : Path) (s : Sys) :
    others r (doMounts e r s).1.mounts = others r s.mounts ∧
    others r (doUmounts e r s).1.mounts = others r s.mounts :=
  ⟨doMounts_others e r s, doUmounts_others e r s⟩

/-- **C32.**  What a successful run of the mount script mounts: exactly the paths in `Wanted`, on
top of what was mounted before. -/
theorem mounts_exact {e : Env} {r : Path} {s t : Sys} (hs : Unmounted r s)
    (h : doMounts e r s = (t, true)) (m : Path) :
    m ∈ t.mounts ↔ m ∈ s.mounts ∨ ∃ q, Wanted e s q ∧ m = r ++ q := by
  obtain ⟨x1, x2, x3, x4, x5, x6, h1, h2, h3, h4, h5, h6, h7⟩ := doMounts_chain h
  obtain ⟨m1, a1, _, _⟩ := mountDev_success (hs.not_mem (by decide)) h1
  obtain ⟨m2, a2, _, _⟩ := mountOnce_success h2
  obtain ⟨m3, a3, _, _⟩ := mountOnce_success h3
  obtain ⟨m4, a4, _, _⟩ := mountFirmware_success h4
  have hne : ∀ a b : Path, a ≠ b → r ++ a ≠ r ++ b := fun a b h hc => h (List.append_cancel_left hc)
  have hn : r ++ pApt ∉ x4.mounts := by
    rw [m4, m3, m2, m1]
    rintro (⟨_, hc⟩ | hc | hc | hc | hc | hc | hc)
    · exact hne _ _ (by decide) hc
    · exact hne _ _ (by decide) hc
    · exact hne _ _ (by decide) hc
    · exact hne _ _ (by decide) hc
    · exact hne _ _ (by decide) hc
    · exact hne _ _ (by decide) hc
    · exact hs.not_mem (by decide) hc
  obtain ⟨m5, _, _, _⟩ := mountApt_success hn h5
  obtain ⟨m6, _, _, _⟩ := mountOnce_success h6
  obtain ⟨m7, _, _, _⟩ := mountBase_success h7
  rw [m7 m, m6 m, show m ∈ Sys.mounts { x5 with work := mkdirP x5.work } ↔ m ∈ x5.mounts from Iff.rfl,
    m5 m, m4 m, m3 m, m2 m, m1 m, a4, a3, a2, a1]
  unfold Wanted
  constructor
  · rintro (⟨hc, rfl⟩ | rfl | ⟨hc, rfl⟩ | ⟨hc, rfl⟩ | rfl | rfl | rfl | rfl | rfl | hm)
    · exact Or.inr ⟨_, Or.inr (Or.inr (Or.inr ⟨hc, rfl⟩)), rfl⟩
    · exact Or.inr ⟨_, Or.inl (by decide), rfl⟩
    · exact Or.inr ⟨_, Or.inr (Or.inr (Or.inl ⟨hc, rfl⟩)), rfl⟩
    · exact Or.inr ⟨_, Or.inr (Or.inl ⟨hc, rfl⟩), rfl⟩
    · exact Or.inr ⟨_, Or.inl (by decide), rfl⟩
    · exact Or.inr ⟨_, Or.inl (by decide), rfl⟩
    · exact Or.inr ⟨_, Or.inl (by decide), rfl⟩
    · exact Or.inr ⟨_, Or.inl (by decide), rfl⟩
    · exact Or.inr ⟨_, Or.inl (by decide), rfl⟩
    · exact Or.inl hm
  · rintro (hm | ⟨q, hq, rfl⟩)
    · simp [hm]
    · rcases hq with hq | ⟨hc, rfl⟩ | ⟨hc, rfl⟩ | ⟨hc, rfl⟩
      · simp only [List.mem_cons, List.not_mem_nil, or_false] at hq
        rcases hq with rfl | rfl | rfl | rfl | rfl | rfl <;> simp
      · simp [hc]
      · exact Or.inr (Or.inr (Or.inl ⟨hc, rfl⟩))
      · exact Or.inl ⟨hc, rfl⟩

/-- **C32.**  The directories made for the mounts disappear again: after a successful run of the
mount script and the unmount script, `isar-work` exists only if it existed before with content,
and then with that content; the same for `base-apt` if the base repository was mounted, and for
`isar-apt`. -/
theorem placeholders_removed {em eu : Env} {r : Path} {s : Sys} (hs : Unmounted r s)
    (hu : Idle eu) (h : (doMounts em r s).2 = true) :
    (doUmounts eu r (doMounts em r s).1).1.work = nonEmpty s.work ∧
    (doUmounts eu r (doMounts em r s).1).1.apt = nonEmpty s.apt ∧
    (doUmounts eu r (doMounts em r s).1).1.base =
      (if em.cached then nonEmpty s.base else s.base) := by
  have hg := hs.good.doMounts em (Or.inr (hs.not_mem (by decide)))
  obtain ⟨_, _, ha, hb, hw⟩ := doUmounts_full hu hg.1
  rw [ha, hb, hw]
  generalize hx : doMounts em r s = x at h
  obtain ⟨t, b⟩ := x
  obtain rfl : b = true := h
  have hmem := mounts_exact hs hx
  obtain ⟨x1, x2, x3, x4, x5, x6, h1, h2, h3, h4, h5, h6, h7⟩ := doMounts_chain hx
  obtain ⟨m1, a1, b1, w1⟩ := mountDev_success (hs.not_mem (by decide)) h1
  obtain ⟨m2, a2, b2, w2⟩ := mountOnce_success h2
  obtain ⟨m3, a3, b3, w3⟩ := mountOnce_success h3
  obtain ⟨m4, a4, b4, w4⟩ := mountFirmware_success h4
  have hne : ∀ a b : Path, a ≠ b → r ++ a ≠ r ++ b := fun a b h hc => h (List.append_cancel_left hc)
  have hn : r ++ pApt ∉ x4.mounts := by
    rw [m4, m3, m2, m1]
    rintro (⟨_, hc⟩ | hc | hc | hc | hc | hc | hc)
    · exact hne _ _ (by decide) hc
    · exact hne _ _ (by decide) hc
    · exact hne _ _ (by decide) hc
    · exact hne _ _ (by decide) hc
    · exact hne _ _ (by decide) hc
    · exact hne _ _ (by decide) hc
    · exact hs.not_mem (by decide) hc
  obtain ⟨m5, a5, b5, w5⟩ := mountApt_success hn h5
  obtain ⟨m6, a6, b6, w6⟩ := mountOnce_success h6
  obtain ⟨m7, a7, b7, w7⟩ := mountBase_success h7
  have hwm : r ++ pWork ∈ t.mounts := (hmem _).mpr (Or.inr ⟨_, Or.inl (by decide), rfl⟩)
  have ham : r ++ pApt ∈ t.mounts ↔ (s.apt = none ∨ s.apt = some 0) := by
    rw [hmem]
    constructor
    · rintro (hc | ⟨q, hq, hc⟩)
      · exact absurd hc (hs.not_mem (by decide))
      · obtain rfl := List.append_cancel_left hc
        rcases hq with hq | ⟨_, hq⟩ | ⟨hq, _⟩ | ⟨_, hq⟩
        · exact absurd hq (by decide)
        · exact absurd hq (by decide)
        · exact hq
        · exact absurd hq (by decide)
    · exact fun hc => Or.inr ⟨_, Or.inr (Or.inr (Or.inl ⟨hc, rfl⟩)), rfl⟩
  have hbm : r ++ pBase ∈ t.mounts ↔ em.cached = true := by
    rw [hmem]
    constructor
    · rintro (hc | ⟨q, hq, hc⟩)
      · exact absurd hc (hs.not_mem (by decide))
      · obtain rfl := List.append_cancel_left hc
        rcases hq with hq | ⟨_, hq⟩ | ⟨_, hq⟩ | ⟨hq, _⟩
        · exact absurd hq (by decide)
        · exact absurd hq (by decide)
        · exact absurd hq (by decide)
        · exact hq
    · exact fun hc => Or.inr ⟨_, Or.inr (Or.inr (Or.inr ⟨hc, rfl⟩)), rfl⟩
  have hround : ∀ o, rmdirEmpty (mkdirP o) = nonEmpty o := by
    intro o
    match o with
    | none => rfl
    | some 0 => rfl
    | some (n + 1) => rfl
  refine ⟨?_, ?_, ?_⟩
  · show (if r ++ pWork ∈ t.mounts then rmdirEmpty t.work else t.work) = _
    rw [if_pos hwm, w7, w6]
    show rmdirEmpty (mkdirP x5.work) = _
    rw [w5, w4, w3, w2, w1, hround]
  · show (if r ++ pApt ∈ t.mounts then rmdirEmpty t.apt else t.apt) = _
    rw [a7, a6]
    show (if r ++ pApt ∈ t.mounts then rmdirEmpty x5.apt else x5.apt) = _
    rw [a5, a4, a3, a2, a1]
    simp only [ham]
    match s.apt with
    | none => rfl
    | some 0 => rfl
    | some (n + 1) => rfl
  · show (if r ++ pBase ∈ t.mounts then rmdirEmpty t.base else t.base) = _
    rw [b7, b6]
    show (if r ++ pBase ∈ t.mounts then rmdirEmpty (if em.cached then mkdirP x5.base else x5.base)
      else (if em.cached then mkdirP x5.base else x5.base)) = _
    rw [b5, b4, b3, b2, b1]
    simp only [hbm]
    by_cases hc : em.cached = true
    · rw [if_pos hc, if_pos hc, if_pos hc, hround]
    · rw [if_neg hc, if_neg hc, if_neg hc]

/-- **C32 (partial).**  Mounting any number of times and then unmounting once gives back the
mount table if the host has no `/sys/firmware`.  Missing: hosts with `/sys/firmware`, for which
it is false (`mount_twice_stuck`). -/
theorem mounts_repeated_partial {r : Path} {s : Sys} (h : Unmounted r s) (es : List Env)
    (hes : ∀ e ∈ es, e.firmware = false) {eu : Env} (hu : Idle eu) :
    let t := es.foldl (fun t e => (doMounts e r t).1) s
    (doUmounts eu r t).2 = true ∧ (doUmounts eu r t).1.mounts = s.mounts := by
  have key : ∀ (es : List Env) (t : Sys), (∀ e ∈ es, e.firmware = false) → Good r t →
      others r t.mounts = s.mounts →
      Good r (es.foldl (fun t e => (doMounts e r t).1) t) ∧
      others r (es.foldl (fun t e => (doMounts e r t).1) t).mounts = s.mounts := by
    intro es
    induction es with
    | nil => exact fun t _ hg ho => ⟨hg, ho⟩
    | cons e es ih =>
      intro t hes hg ho
      refine ih _ (fun x hx => hes x (List.mem_cons_of_mem _ hx))
        (hg.doMounts e (Or.inl (hes e List.mem_cons_self))) ?_
      rw [doMounts_others, ho]
  obtain ⟨hg, ho⟩ := key es s hes h.good h.others
  have := doUmounts_ok hu hg.1
  rw [ho] at this
  exact this

theorem umountIf_count {e : Env} {p q : Path} {s : Sys} (hpq : p ≠ q) :
    (umountIf e p s).1.mounts.count q = s.mounts.count q := by
  unfold umountIf umount
  split
  · split
    · rfl
    · exact List.count_erase_of_ne hpq.symm
  · rfl

theorem umountApt_count {e : Env} {r q : Path} {s : Sys} (hpq : r ++ pApt ≠ q) :
    (umountApt e r s).1.mounts.count q = s.mounts.count q := by
  unfold umountApt
  split
  · refine andThen_inv (P := fun t => t.mounts.count q = s.mounts.count q) ?_ ?_
    · unfold umount
      split
      · rfl
      · exact List.count_erase_of_ne hpq.symm
    · intro t ht
      split
      · exact ht
      · exact ht
  · rfl

theorem umountBase_count {e : Env} {r q : Path} {s : Sys} (hpq : r ++ pBase ≠ q) :
    (umountBase e r s).1.mounts.count q = s.mounts.count q := by
  unfold umountBase
  split
  · refine andThen_inv (P := fun t => t.mounts.count q = s.mounts.count q) ?_ ?_
    · unfold umount
      split
      · rfl
      · exact List.count_erase_of_ne hpq.symm
    · intro t ht
      split
      · exact ht
      · exact ht
  · rfl

theorem umountWork_count {e : Env} {r q : Path} {s : Sys} (hpq : r ++ pWork ≠ q) :
    (umountWork e r s).1.mounts.count q = s.mounts.count q := by
  unfold umountWork
  split
  · refine andThen_inv (P := fun t => t.mounts.count q = s.mounts.count q) ?_ ?_
    · unfold umount
      split
      · rfl
      · exact List.count_erase_of_ne hpq.symm
    · intro t ht
      split
      · exact ht
      · exact ht
  · rfl

/-- If the tmpfs on `/sys/firmware` is mounted twice, unmounting fails and `/sys` stays mounted,
whatever else is mounted. -/
theorem umount_stuck {r : Path} {s : Sys} (e : Env) (hf : 2 ≤ s.mounts.count (r ++ pFirmware))
    (hs : r ++ pSys ∈ s.mounts) :
    (doUmounts e r s).2 = false ∧ r ++ pSys ∈ (doUmounts e r s).1.mounts := by
  let P : Sys → Prop := fun t => t.mounts.count (r ++ pFirmware) = s.mounts.count (r ++ pFirmware) ∧
    t.mounts.count (r ++ pSys) = s.mounts.count (r ++ pSys)
  have hne : ∀ a b : Path, a ≠ b → r ++ a ≠ r ++ b := fun a b h hc => h (List.append_cancel_left hc)
  have hP : P (((((((umountApt e r s).andThen (umountBase e r)).andThen (umountWork e r)).andThen
      (umountIf e (r ++ pPts))).andThen (umountIf e (r ++ pShm))).andThen
      (umountIf e (r ++ pDev))).andThen (umountIf e (r ++ pProc))).1 := by
    refine andThen_inv (P := P) (andThen_inv (P := P) (andThen_inv (P := P) (andThen_inv (P := P)
      (andThen_inv (P := P) (andThen_inv (P := P) ?_ ?_) ?_) ?_) ?_) ?_) ?_
    · exact ⟨umountApt_count (hne _ _ (by decide)), umountApt_count (hne _ _ (by decide))⟩
    · exact fun t ht => ⟨(umountBase_count (hne _ _ (by decide))).trans ht.1,
        (umountBase_count (hne _ _ (by decide))).trans ht.2⟩
    · exact fun t ht => ⟨(umountWork_count (hne _ _ (by decide))).trans ht.1,
        (umountWork_count (hne _ _ (by decide))).trans ht.2⟩
    all_goals exact fun t ht => ⟨(umountIf_count (hne _ _ (by decide))).trans ht.1,
        (umountIf_count (hne _ _ (by decide))).trans ht.2⟩
  unfold doUmounts
  generalize ((((((umountApt e r s).andThen (umountBase e r)).andThen (umountWork e r)).andThen
      (umountIf e (r ++ pPts))).andThen (umountIf e (r ++ pShm))).andThen
      (umountIf e (r ++ pDev))).andThen (umountIf e (r ++ pProc)) = x at hP ⊢
  obtain ⟨hP1, hP2⟩ := hP
  have hpos : 0 < s.mounts.count (r ++ pSys) := List.count_pos_iff.mpr hs
  have hsx : r ++ pSys ∈ x.1.mounts := List.count_pos_iff.mp (by rw [hP2]; exact hpos)
  unfold Res.andThen
  by_cases hx : x.2 = true
  · rw [if_pos hx]
    by_cases hy : (umountIf e (r ++ pFirmware) x.1).2 = true
    · rw [if_pos hy]
      have hfm : 1 ≤ (umountIf e (r ++ pFirmware) x.1).1.mounts.count (r ++ pFirmware) := by
        unfold umountIf umount
        split
        · split
          · show 1 ≤ x.1.mounts.count (r ++ pFirmware)
            omega
          · show 1 ≤ (x.1.mounts.erase (r ++ pFirmware)).count (r ++ pFirmware)
            rw [List.count_erase_self]
            omega
        · show 1 ≤ x.1.mounts.count (r ++ pFirmware)
          omega
      have hsm : r ++ pSys ∈ (umountIf e (r ++ pFirmware) x.1).1.mounts := by
        refine List.count_pos_iff.mp ?_
        rw [umountIf_count (hne _ _ (by decide)), hP2]
        exact hpos
      generalize (umountIf e (r ++ pFirmware) x.1).1 = y at hfm hsm
      have hfmem := List.count_pos_iff.mp hfm
      unfold umountIf
      rw [if_pos (by unfold mountpoint; simpa using hsm)]
      unfold umount
      have hb : (r ++ pSys).isPrefixOf (r ++ pFirmware) && decide (r ++ pFirmware ≠ r ++ pSys) := by
        refine below_iff.mpr ⟨["firmware".toList], by decide, ?_⟩
        rw [List.append_assoc]; rfl
      rw [if_pos (by
        rw [Bool.or_eq_true]
        exact Or.inr (List.any_eq_true.mpr ⟨_, hfmem, hb⟩))]
      exact ⟨rfl, hsm⟩
    · rw [if_neg hy]
      refine ⟨by simpa using hy, ?_⟩
      refine List.count_pos_iff.mp ?_
      rw [umountIf_count (hne _ _ (by decide)), hP2]
      exact hpos
  · rw [if_neg hx, if_neg hx]
    exact ⟨by simpa using hx, hsx⟩

theorem mount_count_le {e : Env} {p q : Path} {s : Sys} :
    s.mounts.count q ≤ (mount e p s).1.mounts.count q := by
  unfold mount
  split
  · exact List.count_le_count_cons
  · exact Nat.le_refl _

theorem mountOnce_count_le {e : Env} {p q : Path} {s : Sys} :
    s.mounts.count q ≤ (mountOnce e p s).1.mounts.count q := by
  unfold mountOnce
  split
  · exact Nat.le_refl _
  · exact mount_count_le

/-- A successful run of the mount script only adds mounts, `/sys` is mounted afterwards, and on a
host with `/sys/firmware` one more tmpfs is mounted there. -/
theorem doMounts_adds {e : Env} {r : Path} {s : Sys} (h : (doMounts e r s).2 = true) :
    r ++ pSys ∈ (doMounts e r s).1.mounts ∧
    (e.firmware = true →
      s.mounts.count (r ++ pFirmware) + 1 ≤ (doMounts e r s).1.mounts.count (r ++ pFirmware)) := by
  have mono : ∀ (q : Path) (n : Nat) (x : Res) (f : Sys → Res), n ≤ x.1.mounts.count q →
      (∀ t : Sys, t.mounts.count q ≤ (f t).1.mounts.count q) →
      n ≤ (x.andThen f).1.mounts.count q := by
    intro q n x f hx hf
    exact andThen_inv (P := fun t => n ≤ t.mounts.count q) hx (fun t ht => Nat.le_trans ht (hf t))
  have succ : ∀ (x : Res) (f : Sys → Res), (x.andThen f).2 = true →
      x.2 = true ∧ (f x.1).2 = true ∧ x.andThen f = f x.1 := by
    intro x f hx
    unfold Res.andThen at hx ⊢
    by_cases h2 : x.2 = true
    · rw [if_pos h2] at hx ⊢; exact ⟨h2, hx, rfl⟩
    · rw [if_neg h2] at hx; exact absurd hx h2
  unfold doMounts at h ⊢
  have tail : ∀ (q : Path) (n : Nat) (x : Res), n ≤ x.1.mounts.count q →
      n ≤ (((x.andThen (mountApt e r)).andThen (mountWork e r)).andThen
        (mountBase e r)).1.mounts.count q := by
    intro q n x hx
    refine mono _ _ _ _ (mono _ _ _ _ (mono _ _ _ _ hx ?_) ?_) ?_
    · intro t
      unfold mountApt
      split
      · exact mountOnce_count_le (s := { t with apt := mkdirP t.apt })
      · exact Nat.le_refl _
    · intro t
      exact mountOnce_count_le (s := { t with work := mkdirP t.work })
    · intro t
      unfold mountBase
      split
      · exact mountOnce_count_le (s := { t with base := mkdirP t.base })
      · exact Nat.le_refl _
  have h5 := (succ _ _ (succ _ _ (succ _ _ h).1).1).1
  obtain ⟨h4, hfw, e5⟩ := succ _ _ h5
  obtain ⟨h3, _, e4⟩ := succ _ _ h4
  obtain ⟨h2, hsys, e3⟩ := succ _ _ h3
  have hcount0 : s.mounts.count (r ++ pFirmware) ≤
      ((mountDev e r s).andThen (mountOnce e (r ++ pProc))).1.mounts.count (r ++ pFirmware) := by
    refine mono _ _ _ _ ?_ (fun t => mountOnce_count_le)
    unfold mountDev
    split
    · exact Nat.le_refl _
    · exact mono _ _ _ _ (mono _ _ _ _ mount_count_le (fun t => mount_count_le))
        (fun t => mount_count_le)
  generalize (mountDev e r s).andThen (mountOnce e (r ++ pProc)) = x at *
  have hsysm : r ++ pSys ∈ (mountOnce e (r ++ pSys) x.1).1.mounts := by
    unfold mountOnce at hsys ⊢
    split
    · rename_i hm
      unfold mountpoint at hm
      simpa using hm
    · rename_i hm
      rw [if_neg hm] at hsys
      exact mount_ok_mem hsys
  have hcount1 := Nat.le_trans hcount0
    (mountOnce_count_le (e := e) (p := r ++ pSys) (q := r ++ pFirmware) (s := x.1))
  rw [e3] at e4
  constructor
  · refine List.count_pos_iff.mp (tail _ 1 _ ?_)
    rw [e5]
    have h1 : 1 ≤ (((x.andThen (mountOnce e (r ++ pSys))).andThen (makeRslave e)).1.mounts).count
        (r ++ pSys) := by
      rw [e3, e4]
      exact List.count_pos_iff.mpr hsysm
    refine Nat.le_trans h1 ?_
    unfold mountFirmware
    split
    · exact mount_count_le
    · exact Nat.le_refl _
  · intro hfwt
    refine tail _ _ _ ?_
    rw [e5]
    unfold mountFirmware at hfw ⊢
    rw [if_pos hfwt] at hfw ⊢
    have hok : e.ok (r ++ pFirmware) = true := by
      unfold mount at hfw
      split at hfw
      · assumption
      · cases hfw
    unfold mount
    rw [if_pos hok]
    show _ ≤ List.count _ (_ :: _)
    rw [List.count_cons_self, e3, e4]
    exact Nat.succ_le_succ hcount1

/-- **C32 is false on hosts with `/sys/firmware`**: after two successful runs of the mount
script, from any state and for any rootfs, the unmount script fails and `/sys` stays mounted in
the rootfs. -/
theorem mount_twice_stuck (e1 e2 eu : Env) (r : Path) (s : Sys) (hf1 : e1.firmware = true)
    (hf2 : e2.firmware = true) (h1 : (doMounts e1 r s).2 = true)
    (h2 : (doMounts e2 r (doMounts e1 r s).1).2 = true) :
    (doUmounts eu r (doMounts e2 r (doMounts e1 r s).1).1).2 = false ∧
    r ++ pSys ∈ (doUmounts eu r (doMounts e2 r (doMounts e1 r s).1).1).1.mounts := by
  obtain ⟨_, c1⟩ := doMounts_adds h1
  obtain ⟨m2, c2⟩ := doMounts_adds h2
  have := c1 hf1
  have := c2 hf2
  exact umount_stuck eu (by omega) m2

/-! ### C30: the tasks unmount what they mounted -/

theorem runCmds_good {r : Path} : ∀ (cs : List Cmd) (w : World) (P : Sys → Prop),
    P w.sys → (∀ c ∈ cs, ∀ s, P s → P (c.act s).1) → P (runCmds cs w).1.sys
  | [], _, _, h, _ => h
  | c :: cs, w, P, h, hc => by
    have ha : (acquire c w).sys = w.sys := by
      unfold acquire; split <;> rfl
    have hx : P (execCmd c (acquire c w)).1.sys := by
      show P (c.act (acquire c w).sys).1
      rw [ha]
      exact hc c List.mem_cons_self _ h
    unfold runCmds
    dsimp only
    split
    · have hy : P (release c (execCmd c (acquire c w)).1).1.sys := by
        unfold release
        split
        · split
          · exact hx
          · exact hx
        · exact hx
      split
      · exact runCmds_good (r := r) cs _ P hy (fun d hd => hc d (List.mem_cons_of_mem _ hd))
      · exact hy
    · exact hx

theorem runCmds_cons (c : Cmd) (cs : List Cmd) (w : World) :
    runCmds (c :: cs) w =
      if (execCmd c (acquire c w)).2 then
        if (release c (execCmd c (acquire c w)).1).2 then
          runCmds cs (release c (execCmd c (acquire c w)).1).1
        else release c (execCmd c (acquire c w)).1
      else execCmd c (acquire c w) := rfl

theorem runCmds_append (cs ds : List Cmd) : ∀ w : World,
    runCmds (cs ++ ds) w =
      if (runCmds cs w).2 then runCmds ds (runCmds cs w).1 else runCmds cs w := by
  induction cs with
  | nil => intro w; rfl
  | cons c cs ih =>
    intro w
    rw [List.cons_append, runCmds_cons, runCmds_cons]
    by_cases h1 : (execCmd c (acquire c w)).2 = true
    · rw [if_pos h1, if_pos h1]
      by_cases h2 : (release c (execCmd c (acquire c w)).1).2 = true
      · rw [if_pos h2, if_pos h2]
        exact ih _
      · rw [if_neg h2, if_neg h2, if_neg h2]
    · rw [if_neg h1, if_neg h1, if_neg h1]

/-- **C30.**  Installation of a rootfs: for all configuration and installation commands, and for
every way in which they, the mount script or the lock handling may fail, the mount table after
the task is the one before. -/
theorem install_restores {r : Path} {s : Sys} (h : Unmounted r s) (em : Env) {eu : Env}
    (hu : Idle eu) (prepare : Cmd) (configure install : List Cmd)
    (hk : ∀ c ∈ prepare :: configure ++ install, KeepsMounts c.act) :
    (installTask em eu r prepare configure install s).1.sys.mounts = s.mounts := by
  unfold installTask
  show (doUmounts eu r _).1.mounts = s.mounts
  have hsplit : prepare :: configure ++ (⟨[], doMounts em r⟩ : Cmd) :: install =
      (prepare :: configure) ++ ([⟨[], doMounts em r⟩] ++ install) := rfl
  have hgood : Inv r names (runCmds (prepare :: configure ++ (⟨[], doMounts em r⟩ : Cmd) :: install)
      ⟨s, .unbound, []⟩).1.sys ∧ others r (runCmds (prepare :: configure ++
      (⟨[], doMounts em r⟩ : Cmd) :: install) ⟨s, .unbound, []⟩).1.sys.mounts = s.mounts := by
    rw [hsplit, runCmds_append]
    have h1 : (runCmds (prepare :: configure) ⟨s, .unbound, []⟩).1.sys.mounts = s.mounts :=
      runCmds_good (r := r) _ _ (fun t => t.mounts = s.mounts) rfl
        (fun c hc t ht => (hk c (List.mem_append_left _ hc) t).trans ht)
    generalize runCmds (prepare :: configure) ⟨s, .unbound, []⟩ = x at h1 ⊢
    have hun : Unmounted r x.1.sys := by
      unfold Unmounted
      rw [h1]; exact h
    split
    · let P : Sys → Prop := fun t => Inv r names t ∧ others r t.mounts = s.mounts
      rw [runCmds_append]
      have h2 : P (runCmds [⟨[], doMounts em r⟩] x.1).1.sys := by
        have ha : (runCmds [⟨[], doMounts em r⟩] x.1).1.sys = (doMounts em r x.1.sys).1 := by
          unfold runCmds runCmds
          dsimp only
          rw [show acquire ⟨[], doMounts em r⟩ x.1 = x.1 from rfl]
          split
          · rw [show release ⟨[], doMounts em r⟩ (execCmd ⟨[], doMounts em r⟩ x.1).1 =
              ((execCmd ⟨[], doMounts em r⟩ x.1).1, true) from rfl]
            rfl
          · rfl
        show Inv _ _ _ ∧ _
        rw [ha]
        refine ⟨(hun.good.doMounts em (Or.inr (hun.not_mem (by decide)))).1, ?_⟩
        rw [doMounts_others, hun.others, h1]
      split
      · refine runCmds_good (r := r) _ _ P h2 ?_
        intro c hc t ht
        have := hk c (List.mem_append_right _ hc) t
        show Inv _ _ _ ∧ _
        unfold Inv
        rw [this]; exact ht
      · exact h2
    · refine ⟨hun.good.1, ?_⟩
      rw [hun.others, h1]
  have := doUmounts_ok hu hgood.1
  rw [hgood.2] at this
  exact this.2

theorem runAll_good : ∀ (cs : List (Sys → Res)) (s : Sys) (P : Sys → Prop), P s →
    (∀ c ∈ cs, ∀ t, P t → P (c t).1) → P (runAll cs s).1
  | [], _, _, h, _ => h
  | c :: cs, s, P, h, hc => by
    unfold runAll
    exact andThen_inv (hc c List.mem_cons_self s h)
      (fun t ht => runAll_good cs t P ht (fun d hd => hc d (List.mem_cons_of_mem _ hd)))

theorem good_keeps {r : Path} {s : Sys} {act : Sys → Res} (hk : KeepsMounts act) {m : List Path}
    (h : Inv r names s ∧ others r s.mounts = m) :
    Inv r names (act s).1 ∧ others r (act s).1.mounts = m := by
  unfold Inv
  rw [hk]; exact h

/-- **C30 (partial).**  Postprocessing restores the mount table, whichever of its commands fails,
if mounting and the installation of qemu succeed and there is at least one command.  Missing:
the failure of those two steps and an empty command list, for which it is false
(`postprocess_leaves_mounts`, `postprocess_without_commands`). -/
theorem postprocess_restores_partial {r : Path} {s : Sys} (h : Unmounted r s) {em eu : Env}
    (hu : Idle eu) {qemu : Sys → Res} {cmds : List (Sys → Res)}
    (hm : (doMounts em r s).2 = true) (hq : (qemu (doMounts em r s).1).2 = true)
    (hne : cmds ≠ []) (hkq : KeepsMounts qemu) (hk : ∀ c ∈ cmds, KeepsMounts c) :
    (postprocessTask em eu r qemu cmds s).1.mounts = s.mounts := by
  unfold postprocessTask
  unfold Res.andThen
  rw [if_pos hm]
  dsimp only
  rw [if_pos hq, if_neg (by simpa using hne)]
  have hg : Inv r names (doMounts em r s).1 ∧ others r (doMounts em r s).1.mounts = s.mounts :=
    ⟨(h.good.doMounts em (Or.inr (h.not_mem (by decide)))).1, by rw [doMounts_others, h.others]⟩
  have hx := runAll_good cmds (qemu (doMounts em r s).1).1
    (fun t => Inv r names t ∧ others r t.mounts = s.mounts) (good_keeps hkq hg)
    (fun c hc t ht => good_keeps (hk c hc) ht)
  have := doUmounts_ok hu hx.1
  rw [hx.2] at this
  exact this.2

/-- **C30 (partial)** for the generation of the initramfs; the same cases are missing
(`initramfs_leaves_mounts`). -/
theorem initramfs_restores_partial {r : Path} {s : Sys} (h : Unmounted r s) {em eu : Env}
    (hu : Idle eu) {qemu generate : Sys → Res}
    (hm : (doMounts em r s).2 = true) (hq : (qemu (doMounts em r s).1).2 = true)
    (hkq : KeepsMounts qemu) (hk : KeepsMounts generate) :
    (initramfsTask em eu r qemu generate s).1.mounts = s.mounts := by
  unfold initramfsTask
  unfold Res.andThen
  rw [if_pos hm]
  dsimp only
  rw [if_pos hq]
  have hg : Inv r names (doMounts em r s).1 ∧ others r (doMounts em r s).1.mounts = s.mounts :=
    ⟨(h.good.doMounts em (Or.inr (h.not_mem (by decide)))).1, by rw [doMounts_others, h.others]⟩
  have hx := good_keeps hk (good_keeps hkq hg)
  have := doUmounts_ok hu hx.1
  rw [hx.2] at this
  exact this.2

/-- **C30 is false for postprocessing** if a mount command or the installation of qemu fails: what
was mounted until then stays, for every rootfs and every set of commands. -/
theorem postprocess_leaves_mounts (em eu : Env) (r : Path) (qemu : Sys → Res)
    (cmds : List (Sys → Res)) (s : Sys) (hkq : KeepsMounts qemu)
    (hf : (doMounts em r s).2 = false ∨ (qemu (doMounts em r s).1).2 = false) :
    (postprocessTask em eu r qemu cmds s).1.mounts = (doMounts em r s).1.mounts ∧
    (postprocessTask em eu r qemu cmds s).2 = false := by
  unfold postprocessTask Res.andThen
  by_cases hm : (doMounts em r s).2 = true
  · rw [if_pos hm]
    rcases hf with hf | hf
    · rw [hf] at hm; cases hm
    · dsimp only
      rw [if_neg (by rw [hf]; decide)]
      exact ⟨hkq _, hf⟩
  · rw [if_neg hm]
    exact ⟨rfl, by simpa using hm⟩

/-- The same for the generation of the initramfs. -/
theorem initramfs_leaves_mounts (em eu : Env) (r : Path) (qemu generate : Sys → Res)
    (s : Sys) (hkq : KeepsMounts qemu)
    (hf : (doMounts em r s).2 = false ∨ (qemu (doMounts em r s).1).2 = false) :
    (initramfsTask em eu r qemu generate s).1.mounts = (doMounts em r s).1.mounts ∧
    (initramfsTask em eu r qemu generate s).2 = false := by
  unfold initramfsTask Res.andThen
  by_cases hm : (doMounts em r s).2 = true
  · rw [if_pos hm]
    rcases hf with hf | hf
    · rw [hf] at hm; cases hm
    · dsimp only
      rw [if_neg (by rw [hf]; decide)]
      exact ⟨hkq _, hf⟩
  · rw [if_neg hm]
    exact ⟨rfl, by simpa using hm⟩

/-- **C30 is false for postprocessing without commands**: the task succeeds and everything stays
mounted. -/
theorem postprocess_without_commands (em eu : Env) (r : Path) (qemu : Sys → Res) (s : Sys)
    (hm : (doMounts em r s).2 = true) (hq : (qemu (doMounts em r s).1).2 = true)
    (hkq : KeepsMounts qemu) :
    (postprocessTask em eu r qemu [] s).2 = true ∧
    r ++ pSys ∈ (postprocessTask em eu r qemu [] s).1.mounts := by
  unfold postprocessTask Res.andThen
  rw [if_pos hm]
  dsimp only
  rw [if_pos hq, if_pos (show ([] : List (Sys → Res)).isEmpty = true from rfl)]
  refine ⟨rfl, ?_⟩
  rw [hkq]
  exact (doMounts_adds hm).1

/-! ### C31: the lock -/

theorem outstanding_snoc (cs : List Cmd) (c : Cmd) :
    Outstanding (cs ++ [c]) ↔ c.releases = false ∧ (Outstanding cs ∨ c.acquires = true) := by
  constructor
  · rintro ⟨j, ⟨d, hd, ha⟩, hr⟩
    have hj : j < cs.length + 1 := by
      rw [List.getElem?_eq_some_iff] at hd
      obtain ⟨hlt, _⟩ := hd
      simpa using hlt
    refine ⟨hr cs.length c (by omega) (by simp), ?_⟩
    by_cases hjl : j < cs.length
    · left
      rw [List.getElem?_append_left hjl] at hd
      refine ⟨j, ⟨d, hd, ha⟩, fun k e hk he => hr k e hk ?_⟩
      have : k < cs.length := by
        rw [List.getElem?_eq_some_iff] at he
        exact he.1
      rw [List.getElem?_append_left this]
      exact he
    · right
      obtain rfl : j = cs.length := by omega
      rw [List.getElem?_concat_length, Option.some.injEq] at hd
      rw [hd]; exact ha
  · rintro ⟨hc, hor⟩
    rcases hor with ⟨j, ⟨d, hd, ha⟩, hr⟩ | ha
    · have hj : j < cs.length := by
        rw [List.getElem?_eq_some_iff] at hd
        exact hd.1
      refine ⟨j, ⟨d, by rw [List.getElem?_append_left hj]; exact hd, ha⟩, fun k e hk he => ?_⟩
      by_cases hkl : k < cs.length
      · rw [List.getElem?_append_left hkl] at he
        exact hr k e hk he
      · have hlt : k < (cs ++ [c]).length := by
          rw [List.getElem?_eq_some_iff] at he
          exact he.1
        obtain rfl : k = cs.length := by
          rw [List.length_append, List.length_singleton] at hlt; omega
        rw [List.getElem?_concat_length, Option.some.injEq] at he
        rw [← he]; exact hc
    · refine ⟨cs.length, ⟨c, List.getElem?_concat_length, ha⟩, fun k e hk he => ?_⟩
      have hlt : k < (cs ++ [c]).length := by
        rw [List.getElem?_eq_some_iff] at he
        exact he.1
      obtain rfl : k = cs.length := by
        rw [List.length_append, List.length_singleton] at hlt; omega
      rw [List.getElem?_concat_length, Option.some.injEq] at he
      rw [← he]; exact hc

theorem needsLock_at (cs ds : List Cmd) (c : Cmd) :
    NeedsLock (cs ++ c :: ds) cs.length ↔ Outstanding cs ∨ c.acquires = true := by
  have hat : (cs ++ c :: ds)[cs.length]? = some c := by simp
  constructor
  · rintro ⟨j, hj, ⟨d, hd, ha⟩, hr⟩
    by_cases hjl : j < cs.length
    · left
      rw [List.getElem?_append_left hjl] at hd
      refine ⟨j, ⟨d, hd, ha⟩, fun k e hk he => ?_⟩
      have hkl : k < cs.length := by
        rw [List.getElem?_eq_some_iff] at he
        exact he.1
      exact hr k e hk hkl (by rw [List.getElem?_append_left hkl]; exact he)
    · right
      obtain rfl : j = cs.length := by omega
      rw [hat, Option.some.injEq] at hd
      rw [hd]; exact ha
  · rintro (⟨j, ⟨d, hd, ha⟩, hr⟩ | ha)
    · have hj : j < cs.length := by
        rw [List.getElem?_eq_some_iff] at hd
        exact hd.1
      refine ⟨j, by omega, ⟨d, by rw [List.getElem?_append_left hj]; exact hd, ha⟩, ?_⟩
      intro k e hk hkl he
      rw [List.getElem?_append_left hkl] at he
      exact hr k e hk he
    · exact ⟨cs.length, Nat.le_refl _, ⟨c, hat, ha⟩, fun k e hk hkl => by omega⟩

theorem runCmds_lock : ∀ (cs pre : List Cmd) (w : World), w.ran.length = pre.length →
    (w.lock = .held ↔ Outstanding pre) →
    (∀ (i : Nat) b, w.ran[i]? = some b → (b = true ↔ NeedsLock (pre ++ cs) i)) →
    (∀ (i : Nat) b, (runCmds cs w).1.ran[i]? = some b → (b = true ↔ NeedsLock (pre ++ cs) i)) ∧
    ((runCmds cs w).2 = true → (runCmds cs w).1.ran.length = (pre ++ cs).length ∧
      ((runCmds cs w).1.lock = .held ↔ Outstanding (pre ++ cs)))
  | [], pre, w, hl, hh, hr => by
    rw [List.append_nil] at hr ⊢
    exact ⟨hr, fun _ => ⟨hl, hh⟩⟩
  | c :: cs, pre, w, hl, hh, hr => by
    have hacq : (acquire c w).lock = .held ↔ Outstanding pre ∨ c.acquires = true := by
      unfold acquire
      by_cases ha : c.acquires = true
      · rw [if_pos ha]; simp [ha]
      · rw [if_neg ha, hh]; simp [ha]
    have hran : (acquire c w).ran = w.ran := by
      unfold acquire; split <;> rfl
    have hx : ∀ (i : Nat) b, (execCmd c (acquire c w)).1.ran[i]? = some b →
        (b = true ↔ NeedsLock (pre ++ c :: cs) i) := by
      intro i b hb
      have hb' : (w.ran ++ [decide ((acquire c w).lock = .held)])[i]? = some b := by
        rw [← hran]; exact hb
      by_cases hi : i < w.ran.length
      · rw [List.getElem?_append_left hi] at hb'
        exact hr i b hb'
      · have hlt : i < (w.ran ++ [decide ((acquire c w).lock = .held)]).length := by
          rw [List.getElem?_eq_some_iff] at hb'
          exact hb'.1
        obtain rfl : i = w.ran.length := by
          rw [List.length_append, List.length_singleton] at hlt; omega
        rw [List.getElem?_concat_length, Option.some.injEq] at hb'
        rw [← hb', hl, needsLock_at, decide_eq_true_iff, hacq]
    have hxlen : (execCmd c (acquire c w)).1.ran.length = (pre ++ [c]).length := by
      show ((acquire c w).ran ++ [decide ((acquire c w).lock = .held)]).length = _
      rw [hran, List.length_append, List.length_append, hl]; rfl
    have happ : pre ++ c :: cs = (pre ++ [c]) ++ cs := by simp
    unfold runCmds
    dsimp only
    by_cases h1 : (execCmd c (acquire c w)).2 = true
    · rw [if_pos h1]
      have hlk : (execCmd c (acquire c w)).1.lock = (acquire c w).lock := rfl
      have hrr : (release c (execCmd c (acquire c w)).1).1.ran =
          (execCmd c (acquire c w)).1.ran := by
        unfold release
        split
        · split <;> rfl
        · rfl
      by_cases h2 : (release c (execCmd c (acquire c w)).1).2 = true
      · rw [if_pos h2]
        rw [happ]
        refine runCmds_lock cs (pre ++ [c]) _ (by rw [hrr, hxlen]) ?_ ?_
        · rw [outstanding_snoc, ← hacq]
          unfold release at h2 ⊢
          by_cases hrel : c.releases = true
          · rw [if_pos hrel] at h2 ⊢
            by_cases hheld : (execCmd c (acquire c w)).1.lock = .held
            · rw [if_pos hheld]
              simp [hrel]
            · rw [if_neg hheld] at h2; cases h2
          · rw [if_neg hrel]
            rw [hlk]
            simp [hrel]
        · rw [hrr, ← happ]; exact hx
      · rw [if_neg h2]
        refine ⟨?_, fun h => absurd h h2⟩
        rw [hrr]; exact hx
    · rw [if_neg h1]
      exact ⟨hx, fun h => absurd h h1⟩

/-- **C31.**  For every list of commands and every point at which one fails: a command that was
started ran with the lock held exactly if a command up to it acquires the lock and none in
between releases it. -/
theorem lock_held_exactly (cs : List Cmd) (s : Sys) (i : Nat) (b : Bool)
    (h : (runCmds cs ⟨s, .unbound, []⟩).1.ran[i]? = some b) : b = true ↔ NeedsLock cs i :=
  (runCmds_lock cs [] ⟨s, .unbound, []⟩ rfl
    (by constructor
        · intro hc; cases hc
        · rintro ⟨j, ⟨d, hd, _⟩, _⟩; cases hd)
    (fun i b hb => by cases hb)).1 i b h

/-- **C31 (partial).**  If all commands succeeded, the lock is free afterwards unless a command
that acquires it is not followed by one that releases it.  Missing: the failure of a command,
after which the function is left with the lock held (`lock_kept_on_failure`); it is then freed
only by the end of the process. -/
theorem lock_free_at_end_partial (cs : List Cmd) (s : Sys)
    (h : (runCmds cs ⟨s, .unbound, []⟩).2 = true) :
    (runCmds cs ⟨s, .unbound, []⟩).1.ran.length = cs.length ∧
    ((runCmds cs ⟨s, .unbound, []⟩).1.lock = .held ↔ Outstanding cs) :=
  (runCmds_lock cs [] ⟨s, .unbound, []⟩ rfl
    (by constructor
        · intro hc; cases hc
        · rintro ⟨j, ⟨d, hd, _⟩, _⟩; cases hd)
    (fun i b hb => by cases hb)).2 h

theorem runCmds_balanced : ∀ (cs pre : List Cmd) (w : World),
    (w.lock = .held ↔ Outstanding pre) → Balanced (pre ++ cs) →
    (∀ c ∈ cs, ∀ s, (c.act s).2 = true) → (runCmds cs w).2 = true
  | [], _, _, _, _, _ => rfl
  | c :: cs, pre, w, hh, hb, hok => by
    have hacq : (acquire c w).lock = .held ↔ Outstanding pre ∨ c.acquires = true := by
      unfold acquire
      by_cases ha : c.acquires = true
      · rw [if_pos ha]; simp [ha]
      · rw [if_neg ha, hh]; simp [ha]
    have happ : pre ++ c :: cs = (pre ++ [c]) ++ cs := by simp
    unfold runCmds
    dsimp only
    rw [if_pos (show (execCmd c (acquire c w)).2 = true from hok c List.mem_cons_self _)]
    have hlk : (execCmd c (acquire c w)).1.lock = (acquire c w).lock := rfl
    by_cases hrel : c.releases = true
    · have hn := hb pre.length c (by simp) hrel
      rw [needsLock_at, ← hacq] at hn
      have e : release c (execCmd c (acquire c w)).1 =
          ({ (execCmd c (acquire c w)).1 with lock := .closed }, true) := by
        unfold release
        rw [if_pos hrel, if_pos (hlk.trans hn)]
      rw [e, if_pos rfl]
      refine runCmds_balanced cs (pre ++ [c]) _ ?_ (happ ▸ hb)
        (fun d hd => hok d (List.mem_cons_of_mem _ hd))
      rw [outstanding_snoc]
      simp [hrel]
    · have e : release c (execCmd c (acquire c w)).1 = ((execCmd c (acquire c w)).1, true) := by
        unfold release
        rw [if_neg hrel]
      rw [e, if_pos rfl]
      refine runCmds_balanced cs (pre ++ [c]) _ ?_ (happ ▸ hb)
        (fun d hd => hok d (List.mem_cons_of_mem _ hd))
      rw [outstanding_snoc, ← hacq, hlk]
      simp [hrel]

/-- **C31.**  The lock handling itself does not fail: if no command fails and every command that
releases the lock runs with the lock held, all commands are run. -/
theorem lock_handling_total (cs : List Cmd) (s : Sys) (hb : Balanced cs)
    (hok : ∀ c ∈ cs, ∀ s, (c.act s).2 = true) : (runCmds cs ⟨s, .unbound, []⟩).2 = true :=
  runCmds_balanced cs [] ⟨s, .unbound, []⟩
    (by constructor
        · intro hc; cases hc
        · rintro ⟨j, ⟨d, hd, _⟩, _⟩; cases hd) hb hok

/-- **C31.**  Which commands take part: those whose flag `isar-apt-lock` contains the text
`acquire-before`, or `release-after`. -/
theorem lock_flags (c : Cmd) :
    (c.acquires = true ↔ ∃ a b, c.flag = a ++ "acquire-before".toList ++ b) ∧
    (c.releases = true ↔ ∃ a b, c.flag = a ++ "release-after".toList ++ b) :=
  ⟨isSub_iff, isSub_iff⟩

/-- A command of the examples. -/
def exCmd (flag : String) (ok : Bool) : Cmd := ⟨flag.toList, fun s => (s, ok)⟩

/-- **C31 is false after a failure** as far as the function is concerned: if a command that
acquires the lock fails, the task function ends with the lock held, although a later command
would have released it. -/
theorem lock_kept_on_failure (em eu : Env) (r : Path) (s : Sys)
    (hm : (doMounts em r s).2 = true) :
    (installTask em eu r (exCmd "" true) []
      [exCmd "acquire-before" false, exCmd "release-after" true] s).1.lock = .held := by
  unfold installTask
  show (runCmds _ _).1.lock = .held
  have : runCmds (exCmd "" true :: [] ++ (⟨[], doMounts em r⟩ : Cmd) ::
      [exCmd "acquire-before" false, exCmd "release-after" true]) ⟨s, .unbound, []⟩ =
      runCmds ((⟨[], doMounts em r⟩ : Cmd) ::
        [exCmd "acquire-before" false, exCmd "release-after" true]) ⟨s, .unbound, [false]⟩ := rfl
  rw [this]
  unfold runCmds
  dsimp only
  rw [show (execCmd ⟨[], doMounts em r⟩ (acquire ⟨[], doMounts em r⟩ ⟨s, .unbound, [false]⟩)).2 =
    true from hm, if_pos rfl]
  rfl

/-! ### Examples -/

/-- A host with `/sys/firmware` where everything succeeds. -/
def exEnv : Env := ⟨fun _ => true, true, true, 3, false, fun _ => false⟩
/-- The same host, but the tmpfs on `/dev/shm` cannot be mounted. -/
def exEnvFail : Env := ⟨fun p => p.getLast? ≠ some "shm".toList, true, true, 3, false, fun _ => false⟩
def exRoot : Path := ["build".toList, "rootfs".toList]
def exSys : Sys := ⟨[["home".toList], ["build".toList]], none, none, none⟩

example : Unmounted exRoot exSys := by unfold Unmounted; decide +kernel
example : Idle exEnv := fun _ => rfl

example : doMounts exEnv exRoot exSys = (⟨[exRoot ++ pWork, exRoot ++ pApt, exRoot ++ pFirmware,
    exRoot ++ pSys, exRoot ++ pProc, exRoot ++ pPts, exRoot ++ pShm, exRoot ++ pDev,
    ["home".toList], ["build".toList]], some 0, none, some 0⟩, true) := by decide +kernel

example : doUmounts exEnv exRoot (doMounts exEnv exRoot exSys).1 = (exSys, true) := by
  decide +kernel

example : (doMounts exEnvFail exRoot exSys) =
    ({ exSys with mounts := (exRoot ++ pDev) :: exSys.mounts }, false) := by decide +kernel

/-- A task that fails after mounting leaves the mounts; the next run of the task then mounts
`/sys/firmware` a second time, does everything and cannot unmount. -/
example :
    let s1 := (postprocessTask exEnv exEnv exRoot (fun s => (s, false)) [fun s => (s, true)] exSys).1
    let x := postprocessTask exEnv exEnv exRoot (fun s => (s, true)) [fun s => (s, true)] s1
    x.2 = false ∧ x.1.mounts = [exRoot ++ pFirmware, exRoot ++ pSys, ["home".toList],
      ["build".toList]] := by decide +kernel

/-- The commands of the class with their flags: `rootfs_install_pkgs_update`,
`rootfs_install_resolvconf`, `rootfs_install_pkgs_download`, `rootfs_export_package_cache`,
`rootfs_install_pkgs_isar_download`, `rootfs_install_pkgs_install`. -/
def exCmds : List Cmd := [exCmd "acquire-before" true, exCmd "" true, exCmd "release-after" true,
  exCmd "" true, exCmd "acquire-before release-after" true, exCmd "" true]

example : runCmds exCmds ⟨exSys, .unbound, []⟩ =
    (⟨exSys, .closed, [true, true, true, false, true, false]⟩, true) := by decide +kernel

example : NeedsLock exCmds 2 :=
  ⟨0, by decide, ⟨_, rfl, by decide +kernel⟩, fun k c h1 h2 hc => by
    match k, h2 with
    | 0, _ => obtain rfl : exCmd "acquire-before" true = c := by simpa [exCmds] using hc
              decide +kernel
    | 1, _ => obtain rfl : exCmd "" true = c := by simpa [exCmds] using hc
              decide +kernel⟩

example : (installTask exEnv exEnv exRoot (exCmd "" true) [exCmd "" true] exCmds exSys) =
    (⟨exSys, .closed, [false, false, false, true, true, true, false, true, false]⟩, true) := by
  decide +kernel

end Isar.Rootfs
