import Verif.Meta.RootfsSpec
/-!
# Lemmas about mounting, unmounting and the lock
-/

namespace Isar.Rootfs
open Py

theorem below_iff {r m : Path} : below r m = true ↔ ∃ t, t ≠ [] ∧ m = r ++ t := by
  unfold below
  rw [Bool.and_eq_true, List.isPrefixOf_iff_prefix]
  constructor
  · rintro ⟨⟨t, rfl⟩, h⟩
    refine ⟨t, ?_, rfl⟩
    rintro rfl
    simp at h
  · rintro ⟨t, ht, rfl⟩
    refine ⟨⟨t, rfl⟩, ?_⟩
    simp [ht]

theorem below_append (r q : Path) (hq : q ≠ []) : below r (r ++ q) = true :=
  below_iff.mpr ⟨q, hq, rfl⟩

theorem erase_eq_filter (p : Path) : ∀ l : List Path, l.count p ≤ 1 →
    l.erase p = l.filter (fun m => m ≠ p)
  | [], _ => rfl
  | a :: l, h => by
    by_cases hap : a = p
    · subst hap
      rw [List.count_cons_self] at h
      have h0 : a ∉ l := List.count_eq_zero.mp (by omega)
      rw [List.erase_cons_head, List.filter_cons_of_neg (by simp)]
      refine (List.filter_eq_self.mpr ?_).symm
      intro m hm
      have : m ≠ a := fun hma => h0 (hma ▸ hm)
      simp [this]
    · rw [List.count_cons_of_ne hap] at h
      rw [List.erase_cons_tail (by simpa using hap), List.filter_cons_of_pos (by simpa using hap),
        erase_eq_filter p l h]

/-! ### Sequencing -/

theorem andThen_inv {P : Sys → Prop} {x : Res} {f : Sys → Res} (hx : P x.1)
    (hf : ∀ s, P s → P (f s).1) : P (x.andThen f).1 := by
  unfold Res.andThen
  by_cases h : x.2 = true
  · rw [if_pos h]; exact hf _ hx
  · rw [if_neg h]; exact hx

theorem andThen_ok (s : Sys) (f : Sys → Res) : Res.andThen (s, true) f = f s := rfl

/-! ### Mounts elsewhere are kept -/

theorem others_cons_below {r p : Path} (h : below r p = true) (ms : List Path) :
    others r (p :: ms) = others r ms := by
  unfold others
  rw [List.filter_cons_of_neg (by simp [h])]

theorem others_erase_below {r p : Path} (h : below r p = true) (ms : List Path) :
    others r (ms.erase p) = others r ms := by
  unfold others
  induction ms with
  | nil => rfl
  | cons a ms ih =>
    by_cases hap : a = p
    · subst hap
      rw [List.erase_cons_head, List.filter_cons_of_neg (by simp [h])]
    · rw [List.erase_cons_tail (by simpa using hap)]
      by_cases ha : below r a = true
      · rw [List.filter_cons_of_neg (by simp [ha]), List.filter_cons_of_neg (by simp [ha]), ih]
      · rw [List.filter_cons_of_pos (by simpa using ha), List.filter_cons_of_pos (by simpa using ha),
          ih]

theorem mount_others (e : Env) (r q : Path) (hq : q ≠ []) (s : Sys) :
    others r (mount e (r ++ q) s).1.mounts = others r s.mounts := by
  unfold mount
  by_cases h : e.ok (r ++ q) = true
  · rw [if_pos h]; exact others_cons_below (below_append r q hq) _
  · rw [if_neg h]

theorem mountOnce_others (e : Env) (r q : Path) (hq : q ≠ []) (s : Sys) :
    others r (mountOnce e (r ++ q) s).1.mounts = others r s.mounts := by
  unfold mountOnce
  by_cases h : mountpoint (r ++ q) s = true
  · rw [if_pos h]
  · rw [if_neg h]; exact mount_others e r q hq s

theorem doMounts_others (e : Env) (r : Path) (s : Sys) :
    others r (doMounts e r s).1.mounts = others r s.mounts := by
  have key : ∀ (x : Res) (f : Sys → Res),
      others r x.1.mounts = others r s.mounts →
      (∀ t, others r (f t).1.mounts = others r t.mounts) →
      others r (x.andThen f).1.mounts = others r s.mounts := by
    intro x f hx hf
    exact andThen_inv (P := fun t => others r t.mounts = others r s.mounts) hx
      (fun t ht => (hf t).trans ht)
  unfold doMounts
  refine key _ _ (key _ _ (key _ _ (key _ _ (key _ _ (key _ _ (key _ _ ?_ ?_) ?_) ?_) ?_) ?_) ?_) ?_
  · unfold mountDev
    by_cases h : mountpoint (r ++ pDev) s = true
    · rw [if_pos h]
    · rw [if_neg h]
      exact key _ _ (key _ _ (mount_others e r _ (by decide) s)
        (fun t => mount_others e r _ (by decide) t)) (fun t => mount_others e r _ (by decide) t)
  · exact fun t => mountOnce_others e r _ (by decide) t
  · exact fun t => mountOnce_others e r _ (by decide) t
  · exact fun t => rfl
  · intro t
    unfold mountFirmware
    by_cases h : e.firmware = true
    · rw [if_pos h]; exact mount_others e r _ (by decide) t
    · rw [if_neg h]
  · intro t
    unfold mountApt
    by_cases h : aptFree e r t = true
    · rw [if_pos h]; exact mountOnce_others e r _ (by decide) _
    · rw [if_neg h]
  · intro t
    exact mountOnce_others e r _ (by decide) _
  · intro t
    unfold mountBase
    by_cases h : e.cached = true
    · rw [if_pos h]; exact mountOnce_others e r _ (by decide) _
    · rw [if_neg h]

theorem umount_others (e : Env) (r q : Path) (hq : q ≠ []) (s : Sys) :
    others r (umount e (r ++ q) s).1.mounts = others r s.mounts := by
  unfold umount
  split
  · rfl
  · exact others_erase_below (below_append r q hq) _

theorem umountIf_others (e : Env) (r q : Path) (hq : q ≠ []) (s : Sys) :
    others r (umountIf e (r ++ q) s).1.mounts = others r s.mounts := by
  unfold umountIf
  split
  · exact umount_others e r q hq s
  · rfl

theorem doUmounts_others (e : Env) (r : Path) (s : Sys) :
    others r (doUmounts e r s).1.mounts = others r s.mounts := by
  have key : ∀ (s : Sys) (x : Res) (f : Sys → Res),
      others r x.1.mounts = others r s.mounts →
      (∀ t, others r (f t).1.mounts = others r t.mounts) →
      others r (x.andThen f).1.mounts = others r s.mounts := by
    intro s x f hx hf
    exact andThen_inv (P := fun t => others r t.mounts = others r s.mounts) hx
      (fun t ht => (hf t).trans ht)
  unfold doUmounts
  refine key _ _ _ (key _ _ _ (key _ _ _ (key _ _ _ (key _ _ _ (key _ _ _ (key _ _ _ (key _ _ _
    ?_ ?_) ?_) ?_) ?_) ?_) ?_) ?_) ?_
  · unfold umountApt
    split
    · refine key _ _ _ (umount_others e r _ (by decide) _) (fun t => ?_)
      split <;> rfl
    · rfl
  · intro t
    unfold umountBase
    split
    · refine key _ _ _ (umount_others e r _ (by decide) _) (fun t => ?_)
      split <;> rfl
    · rfl
  · intro t
    unfold umountWork
    split
    · refine key _ _ _ (umount_others e r _ (by decide) _) (fun t => ?_)
      split <;> rfl
    · rfl
  all_goals exact fun t => umountIf_others e r _ (by decide) t

/-! ### Unmounting -/

/-- What is mounted below the rootfs is one of the paths `S`, and nothing is mounted twice. -/
def Inv (r : Path) (S : List Path) (s : Sys) : Prop :=
  (∀ m ∈ s.mounts, below r m = true → ∃ n ∈ S, m = r ++ n) ∧
  ∀ q, q ≠ [] → s.mounts.count (r ++ q) ≤ 1

theorem count_filter_le (p m : Path) (l : List Path) :
    (l.filter (fun x => x ≠ p)).count m ≤ l.count m :=
  (List.filter_sublist).count_le m

theorem Inv.remove {r : Path} {S : List Path} {s : Sys} (h : Inv r S s) (q : Path)
    (s' : Sys) (hs' : s'.mounts = s.mounts.filter (fun m => m ≠ r ++ q)) :
    Inv r (S.filter (fun n => n ≠ q)) s' := by
  constructor
  · intro m hm hb
    rw [hs', List.mem_filter] at hm
    obtain ⟨n, hn, rfl⟩ := h.1 m hm.1 hb
    refine ⟨n, List.mem_filter.mpr ⟨hn, ?_⟩, rfl⟩
    have := hm.2
    simp only [ne_eq, decide_not, Bool.not_eq_eq_eq_not, Bool.not_true, decide_eq_false_iff_not,
      List.append_cancel_left_eq] at this ⊢
    exact this
  · intro q' hq'
    rw [hs']
    exact Nat.le_trans (count_filter_le _ _ _) (h.2 q' hq')

theorem not_mem_filter_self {p : Path} {l : List Path} (h : p ∉ l) :
    l.filter (fun m => m ≠ p) = l := by
  refine List.filter_eq_self.mpr ?_
  intro m hm
  have : m ≠ p := fun e => h (e ▸ hm)
  simp [this]

theorem umount_ok {e : Env} {r q : Path} {S : List Path} {s : Sys} (he : Idle e)
    (hq : q ≠ []) (hS : ∀ n ∈ S, below q n = false) (h : Inv r S s) :
    umount e (r ++ q) s =
      ({ s with mounts := s.mounts.filter (fun m => m ≠ r ++ q) }, true) := by
  unfold umount
  have hany : s.mounts.any (fun m => (r ++ q).isPrefixOf m && m ≠ r ++ q) = false := by
    rw [List.any_eq_false]
    intro m hm hc
    obtain ⟨t, ht, rfl⟩ := below_iff.mp hc
    have hb : below r (r ++ q ++ t) = true :=
      below_iff.mpr ⟨q ++ t, by simp [hq], by rw [List.append_assoc]⟩
    obtain ⟨n, hn, hmn⟩ := h.1 _ hm hb
    rw [List.append_assoc, List.append_cancel_left_eq] at hmn
    have := hS n hn
    rw [← hmn, below_append q t ht] at this
    cases this
  rw [if_neg (by rw [he, hany]; decide), erase_eq_filter _ _ (h.2 q hq)]

theorem umountIf_ok {e : Env} {r q : Path} {S : List Path} {s : Sys} (he : Idle e)
    (hq : q ≠ []) (hS : ∀ n ∈ S, below q n = false) (h : Inv r S s) :
    ∃ s', umountIf e (r ++ q) s = (s', true) ∧
      s'.mounts = s.mounts.filter (fun m => m ≠ r ++ q) ∧
      s'.apt = s.apt ∧ s'.base = s.base ∧ s'.work = s.work := by
  unfold umountIf
  by_cases hm : mountpoint (r ++ q) s = true
  · rw [if_pos hm, umount_ok he hq hS h]
    exact ⟨_, rfl, rfl, rfl, rfl, rfl⟩
  · rw [if_neg hm]
    have : r ++ q ∉ s.mounts := fun hc => hm (by unfold mountpoint; simpa using hc)
    exact ⟨s, rfl, (not_mem_filter_self this).symm, rfl, rfl, rfl⟩

theorem not_mountpoint_filter (p : Path) (s : Sys) :
    mountpoint p { s with mounts := s.mounts.filter (fun m => m ≠ p) } = false := by
  unfold mountpoint
  rw [← Bool.not_eq_true]
  intro hc
  rw [List.contains_iff_mem, List.mem_filter] at hc
  simpa using hc.2

theorem umountApt_ok {e : Env} {r : Path} {S : List Path} {s : Sys} (he : Idle e)
    (hS : ∀ n ∈ S, below pApt n = false) (h : Inv r S s) :
    ∃ s', umountApt e r s = (s', true) ∧
      s'.mounts = s.mounts.filter (fun m => m ≠ r ++ pApt) ∧
      s'.apt = (if r ++ pApt ∈ s.mounts then rmdirEmpty s.apt else s.apt) ∧
      s'.base = s.base ∧ s'.work = s.work := by
  unfold umountApt
  by_cases hm : mountpoint (r ++ pApt) s = true
  · have hmem : r ++ pApt ∈ s.mounts := by unfold mountpoint at hm; simpa using hm
    rw [if_pos hm, umount_ok he (by decide) hS h, andThen_ok, not_mountpoint_filter, if_pos hmem]
    exact ⟨_, rfl, rfl, rfl, rfl, rfl⟩
  · have hmem : r ++ pApt ∉ s.mounts := fun hc => hm (by unfold mountpoint; simpa using hc)
    rw [if_neg hm, if_neg hmem]
    exact ⟨s, rfl, (not_mem_filter_self hmem).symm, rfl, rfl, rfl⟩

theorem umountBase_ok {e : Env} {r : Path} {S : List Path} {s : Sys} (he : Idle e)
    (hS : ∀ n ∈ S, below pBase n = false) (h : Inv r S s) :
    ∃ s', umountBase e r s = (s', true) ∧
      s'.mounts = s.mounts.filter (fun m => m ≠ r ++ pBase) ∧
      s'.base = (if r ++ pBase ∈ s.mounts then rmdirEmpty s.base else s.base) ∧
      s'.apt = s.apt ∧ s'.work = s.work := by
  unfold umountBase
  by_cases hm : mountpoint (r ++ pBase) s = true
  · have hmem : r ++ pBase ∈ s.mounts := by unfold mountpoint at hm; simpa using hm
    rw [if_pos hm, umount_ok he (by decide) hS h, andThen_ok, not_mountpoint_filter, if_pos hmem]
    exact ⟨_, rfl, rfl, rfl, rfl, rfl⟩
  · have hmem : r ++ pBase ∉ s.mounts := fun hc => hm (by unfold mountpoint; simpa using hc)
    rw [if_neg hm, if_neg hmem]
    exact ⟨s, rfl, (not_mem_filter_self hmem).symm, rfl, rfl, rfl⟩

theorem umountWork_ok {e : Env} {r : Path} {S : List Path} {s : Sys} (he : Idle e)
    (hS : ∀ n ∈ S, below pWork n = false) (h : Inv r S s) :
    ∃ s', umountWork e r s = (s', true) ∧
      s'.mounts = s.mounts.filter (fun m => m ≠ r ++ pWork) ∧
      s'.work = (if r ++ pWork ∈ s.mounts then rmdirEmpty s.work else s.work) ∧
      s'.apt = s.apt ∧ s'.base = s.base := by
  unfold umountWork
  by_cases hm : mountpoint (r ++ pWork) s = true
  · have hmem : r ++ pWork ∈ s.mounts := by unfold mountpoint at hm; simpa using hm
    rw [if_pos hm, umount_ok he (by decide) hS h, andThen_ok, not_mountpoint_filter, if_pos hmem]
    exact ⟨_, rfl, rfl, rfl, rfl, rfl⟩
  · have hmem : r ++ pWork ∉ s.mounts := fun hc => hm (by unfold mountpoint; simpa using hc)
    rw [if_neg hm, if_neg hmem]
    exact ⟨s, rfl, (not_mem_filter_self hmem).symm, rfl, rfl, rfl⟩

/-- The paths that the scripts know. -/
def names : List Path := [pApt, pBase, pWork, pPts, pShm, pDev, pProc, pFirmware, pSys]

theorem mem_filter_other {r p q : Path} (hpq : q ≠ p) {l : List Path} :
    r ++ q ∈ l.filter (fun m => m ≠ r ++ p) ↔ r ++ q ∈ l := by
  rw [List.mem_filter]
  refine ⟨fun h => h.1, fun h => ⟨h, ?_⟩⟩
  simpa using hpq

theorem doUmounts_full_mounts {r : Path} {ms : List Path} {s9 : Sys}
    (ho : others r s9.mounts = others r ms)
    (i9 : Inv r (((((((((names.filter (fun n => n ≠ pApt)).filter (fun n => n ≠ pBase)).filter
        (fun n => n ≠ pWork)).filter (fun n => n ≠ pPts)).filter (fun n => n ≠ pShm)).filter
        (fun n => n ≠ pDev)).filter (fun n => n ≠ pProc)).filter
        (fun n => n ≠ pFirmware)).filter (fun n => n ≠ pSys)) s9) :
    s9.mounts = others r ms := by
  rw [← ho]
  refine (List.filter_eq_self.mpr ?_).symm
  intro m hm
  by_cases hb : below r m = true
  · obtain ⟨n, hn, _⟩ := i9.1 m hm hb
    have : ¬ ∃ n, n ∈ (((((((((names.filter (fun n => n ≠ pApt)).filter (fun n => n ≠ pBase)).filter
        (fun n => n ≠ pWork)).filter (fun n => n ≠ pPts)).filter (fun n => n ≠ pShm)).filter
        (fun n => n ≠ pDev)).filter (fun n => n ≠ pProc)).filter
        (fun n => n ≠ pFirmware)).filter (fun n => n ≠ pSys)) := by
      rintro ⟨n, hn⟩
      simp only [names, List.mem_filter, List.mem_cons, List.not_mem_nil, or_false] at hn
      simp only [ne_eq, decide_not, Bool.not_eq_eq_eq_not, Bool.not_true,
        decide_eq_false_iff_not] at hn
      grind
    exact absurd ⟨n, hn⟩ this
  · simpa using hb

theorem doUmounts_full {e : Env} {r : Path} {s : Sys} (he : Idle e) (h : Inv r names s) :
    (doUmounts e r s).2 = true ∧ (doUmounts e r s).1.mounts = others r s.mounts ∧
    (doUmounts e r s).1.apt = (if r ++ pApt ∈ s.mounts then rmdirEmpty s.apt else s.apt) ∧
    (doUmounts e r s).1.base = (if r ++ pBase ∈ s.mounts then rmdirEmpty s.base else s.base) ∧
    (doUmounts e r s).1.work = (if r ++ pWork ∈ s.mounts then rmdirEmpty s.work else s.work) := by
  have ho := doUmounts_others e r s
  obtain ⟨s1, e1, m1, a1, b1, w1⟩ := umountApt_ok he (by decide +kernel) h
  have i1 := h.remove _ _ m1
  obtain ⟨s2, e2, m2, b2, a2, w2⟩ := umountBase_ok he (by decide +kernel) i1
  have i2 := i1.remove _ _ m2
  obtain ⟨s3, e3, m3, w3, a3, b3⟩ := umountWork_ok he (by decide +kernel) i2
  have i3 := i2.remove _ _ m3
  obtain ⟨s4, e4, m4, a4, b4, w4⟩ :=
    umountIf_ok (q := pPts) he (by decide) (by decide +kernel) i3
  have i4 := i3.remove _ _ m4
  obtain ⟨s5, e5, m5, a5, b5, w5⟩ :=
    umountIf_ok (q := pShm) he (by decide) (by decide +kernel) i4
  have i5 := i4.remove _ _ m5
  obtain ⟨s6, e6, m6, a6, b6, w6⟩ :=
    umountIf_ok (q := pDev) he (by decide) (by decide +kernel) i5
  have i6 := i5.remove _ _ m6
  obtain ⟨s7, e7, m7, a7, b7, w7⟩ :=
    umountIf_ok (q := pProc) he (by decide) (by decide +kernel) i6
  have i7 := i6.remove _ _ m7
  obtain ⟨s8, e8, m8, a8, b8, w8⟩ :=
    umountIf_ok (q := pFirmware) he (by decide) (by decide +kernel) i7
  have i8 := i7.remove _ _ m8
  obtain ⟨s9, e9, m9, a9, b9, w9⟩ :=
    umountIf_ok (q := pSys) he (by decide) (by decide +kernel) i8
  have i9 := i8.remove _ _ m9
  have hfin : doUmounts e r s = (s9, true) := by
    unfold doUmounts
    rw [e1, andThen_ok, e2, andThen_ok, e3, andThen_ok, e4, andThen_ok, e5, andThen_ok, e6,
      andThen_ok, e7, andThen_ok, e8, andThen_ok, e9]
  rw [hfin] at ho ⊢
  refine ⟨rfl, ?_, ?_, ?_, ?_⟩
  · exact doUmounts_full_mounts ho i9
  · show s9.apt = _
    rw [a9, a8, a7, a6, a5, a4, a3, a2, a1]
  · show s9.base = _
    rw [b9, b8, b7, b6, b5, b4, b3, b2, b1, m1]
    simp only [mem_filter_other (show pBase ≠ pApt by decide)]
  · show s9.work = _
    rw [w9, w8, w7, w6, w5, w4, w3, w2, w1, m2, m1]
    simp only [mem_filter_other (show pWork ≠ pApt by decide),
      mem_filter_other (show pWork ≠ pBase by decide)]

theorem doUmounts_ok {e : Env} {r : Path} {s : Sys} (he : Idle e) (h : Inv r names s) :
    (doUmounts e r s).2 = true ∧ (doUmounts e r s).1.mounts = others r s.mounts :=
  ⟨(doUmounts_full he h).1, (doUmounts_full he h).2.1⟩

/-! ### Mounting -/

/-- Nothing below `dev` is mounted unless `dev` is. -/
def DevFirst (r : Path) (s : Sys) : Prop :=
  (r ++ pShm ∈ s.mounts ∨ r ++ pPts ∈ s.mounts) → r ++ pDev ∈ s.mounts

/-- The state between tasks and within them: known paths, nothing twice. -/
def Good (r : Path) (s : Sys) : Prop := Inv r names s ∧ DevFirst r s

theorem mem_or_not_mountpoint {p : Path} {s : Sys} (h : ¬ mountpoint p s = true) :
    p ∉ s.mounts := fun hc => h (by unfold mountpoint; simpa using hc)

theorem Inv.mount {r q : Path} {s : Sys} (h : Inv r names s) (hq : q ∈ names)
    (hn : r ++ q ∉ s.mounts) (e : Env) : Inv r names (mount e (r ++ q) s).1 := by
  unfold Rootfs.mount
  by_cases hok : e.ok (r ++ q) = true
  · rw [if_pos hok]
    constructor
    · intro m hm hb
      rcases List.mem_cons.mp hm with rfl | hm'
      · exact ⟨q, hq, rfl⟩
      · exact h.1 m hm' hb
    · intro p hp
      by_cases hpq : p = q
      · subst hpq
        show List.count _ (_ :: _) ≤ 1
        rw [List.count_cons_self, List.count_eq_zero.mpr hn]
        exact Nat.le_refl _
      · show List.count _ (_ :: _) ≤ 1
        rw [List.count_cons_of_ne (by simpa using fun hc => hpq hc.symm)]
        exact h.2 p hp
  · rw [if_neg hok]; exact h

theorem mount_mem {e : Env} {p m : Path} {s : Sys} (h : m ∈ (mount e p s).1.mounts) :
    m = p ∨ m ∈ s.mounts := by
  unfold mount at h
  by_cases hok : e.ok p = true
  · rw [if_pos hok] at h; exact List.mem_cons.mp h
  · rw [if_neg hok] at h; exact Or.inr h

theorem mem_mount {e : Env} {p m : Path} {s : Sys} (h : m ∈ s.mounts) :
    m ∈ (mount e p s).1.mounts := by
  unfold mount
  by_cases hok : e.ok p = true
  · rw [if_pos hok]; exact List.mem_cons_of_mem _ h
  · rw [if_neg hok]; exact h

theorem mount_ok_mem {e : Env} {p : Path} {s : Sys} (h : (mount e p s).2 = true) :
    p ∈ (mount e p s).1.mounts := by
  unfold mount at h ⊢
  by_cases hok : e.ok p = true
  · rw [if_pos hok]; exact List.mem_cons_self
  · rw [if_neg hok] at h; cases h

/-- Mounting a path that is none of the two below `dev`. -/
theorem Good.mountOnce {r q : Path} {s : Sys} (h : Good r s) (hq : q ∈ names)
    (hs : q ≠ pShm) (hp : q ≠ pPts) (e : Env) : Good r (mountOnce e (r ++ q) s).1 := by
  unfold Rootfs.mountOnce
  by_cases hm : mountpoint (r ++ q) s = true
  · rw [if_pos hm]; exact h
  · rw [if_neg hm]
    refine ⟨h.1.mount hq (mem_or_not_mountpoint hm) e, fun hx => mem_mount (h.2 ?_)⟩
    rcases hx with hx | hx
    · rcases mount_mem hx with hc | hc
      · exact absurd (List.append_cancel_left hc).symm hs
      · exact Or.inl hc
    · rcases mount_mem hx with hc | hc
      · exact absurd (List.append_cancel_left hc).symm hp
      · exact Or.inr hc

theorem Good.congr {r : Path} {s t : Sys} (h : Good r s) (hm : t.mounts = s.mounts) : Good r t := by
  unfold Good Inv DevFirst at h ⊢
  rw [hm]; exact h

theorem Good.mountDev {r : Path} {s : Sys} (h : Good r s) (e : Env) : Good r (mountDev e r s).1 := by
  unfold Rootfs.mountDev
  by_cases hm : mountpoint (r ++ pDev) s = true
  · rw [if_pos hm]; exact h
  · rw [if_neg hm]
    have hd := mem_or_not_mountpoint hm
    have hs : r ++ pShm ∉ s.mounts := fun hc => hd (h.2 (Or.inl hc))
    have hp : r ++ pPts ∉ s.mounts := fun hc => hd (h.2 (Or.inr hc))
    unfold Res.andThen
    have i1 := h.1.mount (q := pDev) (by decide) hd e
    by_cases h1 : (mount e (r ++ pDev) s).2 = true
    · rw [if_pos h1]
      have d1 := mount_ok_mem h1
      have hs1 : r ++ pShm ∉ (mount e (r ++ pDev) s).1.mounts := by
        intro hc
        rcases mount_mem hc with hc | hc
        · exact absurd (List.append_cancel_left hc) (by decide)
        · exact hs hc
      have hp1 : r ++ pPts ∉ (mount e (r ++ pDev) s).1.mounts := by
        intro hc
        rcases mount_mem hc with hc | hc
        · exact absurd (List.append_cancel_left hc) (by decide)
        · exact hp hc
      have i2 := i1.mount (q := pShm) (by decide) hs1 e
      have d2 : r ++ pDev ∈ (mount e (r ++ pShm) (mount e (r ++ pDev) s).1).1.mounts := mem_mount d1
      by_cases h2 : (mount e (r ++ pShm) (mount e (r ++ pDev) s).1).2 = true
      · rw [if_pos h2]
        have hp2 : r ++ pPts ∉ (mount e (r ++ pShm) (mount e (r ++ pDev) s).1).1.mounts := by
          intro hc
          rcases mount_mem hc with hc | hc
          · exact absurd (List.append_cancel_left hc) (by decide)
          · exact hp1 hc
        exact ⟨i2.mount (q := pPts) (by decide) hp2 e, fun _ => mem_mount d2⟩
      · rw [if_neg h2]
        exact ⟨i2, fun _ => d2⟩
    · rw [if_neg h1, if_neg h1]
      refine ⟨i1, fun hx => ?_⟩
      rcases hx with hx | hx
      · rcases mount_mem hx with hc | hc
        · exact absurd (List.append_cancel_left hc) (by decide)
        · exact absurd hc hs
      · rcases mount_mem hx with hc | hc
        · exact absurd (List.append_cancel_left hc) (by decide)
        · exact absurd hc hp

/-- `p` is not mounted by a command that mounts on another path. -/
theorem mountOnce_not_mem {e : Env} {p q : Path} {s : Sys} (h : p ∉ s.mounts) (hne : p ≠ q) :
    p ∉ (mountOnce e q s).1.mounts := by
  unfold mountOnce
  split
  · exact h
  · intro hc
    rcases mount_mem hc with hc | hc
    · exact hne hc
    · exact h hc

theorem mountDev_not_mem {e : Env} {r p : Path} {s : Sys} (h : p ∉ s.mounts) (h1 : p ≠ r ++ pDev)
    (h2 : p ≠ r ++ pShm) (h3 : p ≠ r ++ pPts) : p ∉ (mountDev e r s).1.mounts := by
  have key : ∀ q, p ≠ q → ∀ t : Sys, p ∉ t.mounts → p ∉ (mount e q t).1.mounts := by
    intro q hq t ht hc
    rcases mount_mem hc with hc | hc
    · exact hq hc
    · exact ht hc
  unfold mountDev
  split
  · exact h
  · exact andThen_inv (P := fun t => p ∉ t.mounts)
      (andThen_inv (P := fun t => p ∉ t.mounts) (key _ h1 _ h) (key _ h2)) (key _ h3)

theorem Good.doMounts {r : Path} {s : Sys} (h : Good r s) (e : Env)
    (hf : e.firmware = false ∨ r ++ pFirmware ∉ s.mounts) : Good r (doMounts e r s).1 := by
  unfold Rootfs.doMounts
  refine andThen_inv (P := Good r) (andThen_inv (P := Good r) (andThen_inv (P := Good r) ?_ ?_) ?_) ?_
  · -- up to the firmware
    rcases hf with hf | hf
    · refine andThen_inv (P := Good r) (andThen_inv (P := Good r) (andThen_inv (P := Good r)
        (andThen_inv (P := Good r) (h.mountDev e) ?_) ?_) ?_) ?_
      · exact fun t ht => ht.mountOnce (by decide) (by decide) (by decide) e
      · exact fun t ht => ht.mountOnce (by decide) (by decide) (by decide) e
      · exact fun t ht => ht
      · intro t ht
        unfold mountFirmware
        rw [hf]; exact ht
    · let P : Sys → Prop := fun t => Good r t ∧ r ++ pFirmware ∉ t.mounts
      have hP : P ((((Rootfs.mountDev e r s).andThen (Rootfs.mountOnce e (r ++ pProc))).andThen
          (Rootfs.mountOnce e (r ++ pSys))).andThen (makeRslave e)).1 := by
        refine andThen_inv (P := P) (andThen_inv (P := P)
          (andThen_inv (P := P) ⟨h.mountDev e, ?_⟩ ?_) ?_) ?_
        · refine mountDev_not_mem hf ?_ ?_ ?_ <;>
            exact fun hc => absurd (List.append_cancel_left hc) (by decide)
        · exact fun t ht => ⟨ht.1.mountOnce (by decide) (by decide) (by decide) e,
            mountOnce_not_mem ht.2 (fun hc => absurd (List.append_cancel_left hc) (by decide))⟩
        · exact fun t ht => ⟨ht.1.mountOnce (by decide) (by decide) (by decide) e,
            mountOnce_not_mem ht.2 (fun hc => absurd (List.append_cancel_left hc) (by decide))⟩
        · exact fun t ht => ht
      generalize (((Rootfs.mountDev e r s).andThen (Rootfs.mountOnce e (r ++ pProc))).andThen
          (Rootfs.mountOnce e (r ++ pSys))).andThen (makeRslave e) = x at hP ⊢
      unfold Res.andThen
      by_cases hx : x.2 = true
      · rw [if_pos hx]
        unfold mountFirmware
        by_cases hfw : e.firmware = true
        · rw [if_pos hfw]
          have := hP.1.mountOnce (q := pFirmware) (by decide) (by decide) (by decide) e
          unfold Rootfs.mountOnce at this
          rw [if_neg (by unfold mountpoint; simpa using hP.2)] at this
          exact this
        · rw [if_neg hfw]; exact hP.1
      · rw [if_neg hx]; exact hP.1
  · intro t ht
    unfold mountApt
    split
    · exact (ht.congr (t := { t with apt := mkdirP t.apt }) rfl).mountOnce (by decide) (by decide)
        (by decide) e
    · exact ht
  · intro t ht
    exact (ht.congr (t := { t with work := mkdirP t.work }) rfl).mountOnce (by decide) (by decide)
      (by decide) e
  · intro t ht
    unfold mountBase
    split
    · exact (ht.congr (t := { t with base := mkdirP t.base }) rfl).mountOnce (by decide) (by decide)
        (by decide) e
    · exact ht

/-! ### What a successful run of the mount script has done -/

theorem andThen_success {x : Res} {f : Sys → Res} {t : Sys} (h : x.andThen f = (t, true)) :
    ∃ y, x = (y, true) ∧ f y = (t, true) := by
  unfold Res.andThen at h
  by_cases h2 : x.2 = true
  · rw [if_pos h2] at h
    exact ⟨x.1, by rw [← h2], h⟩
  · rw [if_neg h2] at h
    rw [h] at h2
    exact absurd rfl h2

theorem mount_success {e : Env} {p : Path} {s t : Sys} (h : mount e p s = (t, true)) :
    t = { s with mounts := p :: s.mounts } := by
  unfold mount at h
  split at h
  · exact (Prod.mk.inj h).1.symm
  · cases h

theorem mountOnce_success {e : Env} {p : Path} {s t : Sys} (h : mountOnce e p s = (t, true)) :
    (∀ m, m ∈ t.mounts ↔ m = p ∨ m ∈ s.mounts) ∧ t.apt = s.apt ∧ t.base = s.base ∧
      t.work = s.work := by
  unfold mountOnce at h
  split at h
  · rename_i hm
    obtain rfl := (Prod.mk.inj h).1
    have hm' : p ∈ s.mounts := by unfold mountpoint at hm; simpa using hm
    refine ⟨fun m => ⟨Or.inr, ?_⟩, rfl, rfl, rfl⟩
    rintro (rfl | h')
    · exact hm'
    · exact h'
  · obtain rfl := mount_success h
    exact ⟨fun m => List.mem_cons, rfl, rfl, rfl⟩

theorem mountDev_success {e : Env} {r : Path} {s t : Sys} (hd : r ++ pDev ∉ s.mounts)
    (h : mountDev e r s = (t, true)) :
    (∀ m, m ∈ t.mounts ↔ m = r ++ pPts ∨ m = r ++ pShm ∨ m = r ++ pDev ∨ m ∈ s.mounts) ∧
      t.apt = s.apt ∧ t.base = s.base ∧ t.work = s.work := by
  unfold mountDev at h
  rw [if_neg (by unfold mountpoint; simpa using hd)] at h
  obtain ⟨y2, h2, h3⟩ := andThen_success h
  obtain ⟨y1, h1, h2⟩ := andThen_success h2
  obtain rfl := mount_success h1
  obtain rfl := mount_success h2
  obtain rfl := mount_success h3
  refine ⟨fun m => ?_, rfl, rfl, rfl⟩
  show m ∈ (_ :: _ :: _ :: _) ↔ _
  rw [List.mem_cons, List.mem_cons, List.mem_cons]

theorem mountFirmware_success {e : Env} {r : Path} {s t : Sys}
    (h : mountFirmware e r s = (t, true)) :
    (∀ m, m ∈ t.mounts ↔ (e.firmware = true ∧ m = r ++ pFirmware) ∨ m ∈ s.mounts) ∧
      t.apt = s.apt ∧ t.base = s.base ∧ t.work = s.work := by
  unfold mountFirmware at h
  split at h
  · rename_i hf
    obtain rfl := mount_success h
    refine ⟨fun m => ?_, rfl, rfl, rfl⟩
    show m ∈ (_ :: _) ↔ _
    rw [List.mem_cons]
    simp [hf]
  · rename_i hf
    obtain rfl := (Prod.mk.inj h).1
    exact ⟨fun m => by simp [hf], rfl, rfl, rfl⟩

theorem mountApt_success {e : Env} {r : Path} {s t : Sys} (hn : r ++ pApt ∉ s.mounts)
    (h : mountApt e r s = (t, true)) :
    (∀ m, m ∈ t.mounts ↔ ((s.apt = none ∨ s.apt = some 0) ∧ m = r ++ pApt) ∨ m ∈ s.mounts) ∧
      t.apt = (if s.apt = none ∨ s.apt = some 0 then some 0 else s.apt) ∧ t.base = s.base ∧
      t.work = s.work := by
  have hfree : aptFree e r s = true ↔ (s.apt = none ∨ s.apt = some 0) := by
    unfold aptFree
    rw [if_neg (by unfold mountpoint; simpa using hn), Bool.or_eq_true, decide_eq_true_iff,
      decide_eq_true_iff]
  unfold mountApt at h
  by_cases hf : aptFree e r s = true
  · rw [if_pos hf] at h
    have hf' := hfree.mp hf
    obtain ⟨h1, h2, h3, h4⟩ := mountOnce_success h
    refine ⟨fun m => ?_, ?_, h3, h4⟩
    · rw [h1 m]
      simp [hf']
    · rw [h2, if_pos hf']
      show mkdirP s.apt = _
      rcases hf' with hc | hc <;> rw [hc] <;> rfl
  · rw [if_neg hf] at h
    have hf' := fun hc => hf (hfree.mpr hc)
    obtain rfl := (Prod.mk.inj h).1
    exact ⟨fun m => ⟨Or.inr, fun h => h.elim (fun h => absurd h.1 hf') id⟩, by rw [if_neg hf'],
      rfl, rfl⟩

theorem mountBase_success {e : Env} {r : Path} {s t : Sys} (h : mountBase e r s = (t, true)) :
    (∀ m, m ∈ t.mounts ↔ (e.cached = true ∧ m = r ++ pBase) ∨ m ∈ s.mounts) ∧
      t.apt = s.apt ∧ t.base = (if e.cached then mkdirP s.base else s.base) ∧ t.work = s.work := by
  unfold mountBase at h
  by_cases hc : e.cached = true
  · rw [if_pos hc] at h
    obtain ⟨h1, h2, h3, h4⟩ := mountOnce_success h
    refine ⟨fun m => ?_, h2, ?_, h4⟩
    · rw [h1 m]
      simp [hc]
    · rw [h3, if_pos hc]
  · rw [if_neg hc] at h
    obtain rfl := (Prod.mk.inj h).1
    exact ⟨fun m => by simp [hc], rfl, by rw [if_neg hc], rfl⟩

theorem doMounts_chain {e : Env} {r : Path} {s t : Sys} (h : doMounts e r s = (t, true)) :
    ∃ x1 x2 x3 x4 x5 x6, mountDev e r s = (x1, true) ∧ mountOnce e (r ++ pProc) x1 = (x2, true) ∧
      mountOnce e (r ++ pSys) x2 = (x3, true) ∧ mountFirmware e r x3 = (x4, true) ∧
      mountApt e r x4 = (x5, true) ∧ mountWork e r x5 = (x6, true) ∧
      mountBase e r x6 = (t, true) := by
  unfold doMounts at h
  obtain ⟨x6, g6, h7⟩ := andThen_success h
  obtain ⟨x5, g5, h6⟩ := andThen_success g6
  obtain ⟨x4, g4, h5⟩ := andThen_success g5
  obtain ⟨x3, g3, h4⟩ := andThen_success g4
  obtain ⟨x3', g3', hr⟩ := andThen_success g3
  obtain ⟨x2, g2, h3⟩ := andThen_success g3'
  obtain ⟨x1, g1, h2⟩ := andThen_success g2
  obtain rfl := (Prod.mk.inj hr).1
  exact ⟨x1, x2, x3', x4, x5, x6, g1, h2, h3, h4, h5, h6, h7⟩

theorem Unmounted.not_mem {r : Path} {s : Sys} (h : Unmounted r s) {q : Path} (hq : q ≠ []) :
    r ++ q ∉ s.mounts := by
  intro hc
  have := h _ hc
  rw [below_append r q hq] at this
  cases this

theorem Unmounted.good {r : Path} {s : Sys} (h : Unmounted r s) : Good r s := by
  refine ⟨⟨fun m hm hb => ?_, fun q hq => ?_⟩, ?_⟩
  · rw [h m hm] at hb; cases hb
  · rw [List.count_eq_zero.mpr (h.not_mem hq)]; omega
  · rintro (hc | hc)
    · exact absurd hc (h.not_mem (by decide))
    · exact absurd hc (h.not_mem (by decide))

theorem Unmounted.others {r : Path} {s : Sys} (h : Unmounted r s) : others r s.mounts = s.mounts := by
  refine List.filter_eq_self.mpr ?_
  intro m hm
  rw [h m hm]; rfl

end Isar.Rootfs
