import Verif.Meta.MultiarchModel
/-! # Properties of the multiarch class: C21, C22, C23, C51 -/

namespace Isar.Multiarch
open Py

/-! ## Helpers -/

theorem dropEnd_append (a b : Str) : dropEnd (a ++ b) b.length = a := by
  unfold dropEnd
  rw [List.length_append, Nat.add_sub_cancel, List.take_left]

theorem endsWith_append (a b : Str) : endsWith (a ++ b) b = true := endsWith_iff.2 ⟨a, rfl⟩

theorem not_both (a x y : Str) (hx : x.length = y.length) (hne : x ≠ y) :
    endsWith (a ++ x) y = false := by
  cases h : endsWith (a ++ x) y with
  | false => rfl
  | true =>
    obtain ⟨b, hb⟩ := endsWith_iff.1 h
    exact absurd (List.append_inj_right' hb hx) hne

theorem not_native (a : Str) : endsWith (a ++ compat) native = false :=
  not_both a compat native (by decide) (by decide)
theorem not_compat (a : Str) : endsWith (a ++ native) compat = false :=
  not_both a native compat (by decide) (by decide)

theorem not_archall (a x : Str) (hx : x = native ∨ x = compat) :
    endsWith (a ++ x) archall = false := by
  cases h : endsWith (a ++ x) archall with
  | false => rfl
  | true =>
    obtain ⟨b, hb⟩ := endsWith_iff.1 h
    exfalso
    have e : archall = '-' :: "archall".toList := rfl
    have hb' : a ++ x = (b ++ ['-']) ++ "archall".toList := by rw [hb, e]; simp
    have := List.append_inj_right' hb' (by rcases hx with rfl | rfl <;> decide)
    rcases hx with rfl | rfl <;> exact absurd this (by decide)

/-! ## C21 -/

/-- C21: exactly which names the variant of a recipe depends on (or provides): every name that
carried a variant suffix before, every name except `-archall` names with the suffix of the
variant, and, in the native variant only, the `-archall` names without `-archall`. -/
theorem variant_names_exact (suffix : Str) (ws : List Str) (x : Str) :
    x ∈ fixup suffix ws ↔
      (x ∈ ws ∧ ∃ n, x = n ++ "-compat".toList ∨ x = n ++ "-native".toList) ∨
      (∃ v ∈ ws, (¬ ∃ n, v = n ++ "-archall".toList) ∧ x = v ++ suffix) ∨
      (suffix = "-native".toList ∧ x ++ "-archall".toList ∈ ws) := by
  have key : ∀ v, x ∈ fixupWord suffix v ↔
      (x = v ∧ ∃ n, x = n ++ "-compat".toList ∨ x = n ++ "-native".toList) ∨
      ((¬ ∃ n, v = n ++ "-archall".toList) ∧ x = v ++ suffix) ∨
      (suffix = "-native".toList ∧ x ++ "-archall".toList = v) := by
    intro v
    unfold fixupWord
    rw [List.mem_append]
    have h1 : (x ∈ (if (endsWith v compat || endsWith v native) = true then [v] else [])) ↔
        (x = v ∧ ∃ n, x = n ++ "-compat".toList ∨ x = n ++ "-native".toList) := by
      by_cases h : (endsWith v compat || endsWith v native) = true
      · rw [if_pos h, List.mem_singleton]
        rw [Bool.or_eq_true, endsWith_iff, endsWith_iff] at h
        constructor
        · rintro rfl
          rcases h with ⟨n, h⟩ | ⟨n, h⟩
          · exact ⟨rfl, n, Or.inl h⟩
          · exact ⟨rfl, n, Or.inr h⟩
        · exact fun h => h.1
      · rw [if_neg h]
        rw [Bool.or_eq_true, endsWith_iff, endsWith_iff] at h
        constructor
        · intro hx; exact absurd hx (List.not_mem_nil)
        · rintro ⟨rfl, n, h' | h'⟩
          · exact absurd (Or.inl ⟨n, h'⟩) h
          · exact absurd (Or.inr ⟨n, h'⟩) h
    rw [h1]
    refine or_congr Iff.rfl ?_
    by_cases ha : endsWith v archall = true
    · rw [if_pos ha]
      obtain ⟨n, rfl⟩ := endsWith_iff.1 ha
      have hdrop : dropEnd (n ++ archall) 8 = n := dropEnd_append n archall
      rw [hdrop]
      by_cases hs : suffix = native
      · rw [if_pos hs, List.mem_singleton]
        constructor
        · rintro rfl; exact Or.inr ⟨hs, rfl⟩
        · rintro (⟨h, _⟩ | ⟨_, h⟩)
          · exact absurd ⟨n, rfl⟩ h
          · exact List.append_cancel_right h
      · rw [if_neg hs]
        constructor
        · intro hx; exact absurd hx (List.not_mem_nil)
        · rintro (⟨h, _⟩ | ⟨h, _⟩)
          · exact absurd ⟨n, rfl⟩ h
          · exact absurd h hs
    · rw [if_neg ha, List.mem_singleton]
      rw [endsWith_iff] at ha
      constructor
      · intro h; exact Or.inl ⟨ha, h⟩
      · rintro (⟨_, h⟩ | ⟨_, h⟩)
        · exact h
        · exact absurd ⟨x, h.symm⟩ ha
  unfold fixup
  rw [List.mem_flatten]
  simp only [List.mem_map]
  constructor
  · rintro ⟨_, ⟨v, hv, rfl⟩, hx⟩
    rcases (key v).1 hx with ⟨rfl, h⟩ | ⟨h1, h2⟩ | ⟨h1, rfl⟩
    · exact Or.inl ⟨hv, h⟩
    · exact Or.inr (Or.inl ⟨v, hv, h1, h2⟩)
    · exact Or.inr (Or.inr ⟨h1, hv⟩)
  · rintro (⟨hv, h⟩ | ⟨v, hv, h1, h2⟩ | ⟨h1, hv⟩)
    · exact ⟨_, ⟨x, hv, rfl⟩, (key x).2 (Or.inl ⟨rfl, h⟩)⟩
    · exact ⟨_, ⟨v, hv, rfl⟩, (key v).2 (Or.inr (Or.inl ⟨h1, h2⟩))⟩
    · exact ⟨_, ⟨_, hv, rfl⟩, (key _).2 (Or.inr (Or.inr ⟨h1, rfl⟩))⟩

example : fixup native ["libc".toList, "x-archall".toList] = ["libc-native".toList, "x".toList] ∧
    fixup compat ["libc".toList, "x-archall".toList] = ["libc-compat".toList] := by decide

/-- C21, partial: as long as no name carries a suffix already, every dependency becomes the
dependency on the same variant, in order.  Missing: names that already carry a variant suffix
do not stay alone, see `variant_name_twice`. -/
theorem variant_suffix_added_partial (suffix : Str) (ws : List Str)
    (h : ∀ v ∈ ws, ∀ n s, v = n ++ s → s ≠ "-compat".toList ∧ s ≠ "-native".toList ∧
      s ≠ "-archall".toList) :
    fixup suffix ws = ws.map (· ++ suffix) := by
  unfold fixup
  induction ws with
  | nil => rfl
  | cons v ws ih =>
    have hv := h v List.mem_cons_self
    rw [List.map_cons, List.flatten_cons, ih fun u hu => h u (List.mem_cons_of_mem _ hu),
      List.map_cons]
    have h1 : endsWith v compat = false := by
      cases hh : endsWith v compat with
      | false => rfl
      | true => obtain ⟨n, hn⟩ := endsWith_iff.1 hh; exact absurd rfl (hv n _ hn).1
    have h2 : endsWith v native = false := by
      cases hh : endsWith v native with
      | false => rfl
      | true => obtain ⟨n, hn⟩ := endsWith_iff.1 hh; exact absurd rfl (hv n _ hn).2.1
    have h3 : endsWith v archall = false := by
      cases hh : endsWith v archall with
      | false => rfl
      | true => obtain ⟨n, hn⟩ := endsWith_iff.1 hh; exact absurd rfl (hv n _ hn).2.2
    unfold fixupWord
    rw [h1, h2, h3]
    rfl

example : fixup native ["libc".toList, "native-tool".toList] =
    ["libc-native".toList, "native-tool-native".toList] := by decide

/-- C21, why the full statement is false: a name that already carries a variant suffix does not
just stay as it is, the suffix is added a second time as well, so that the native variant of a
recipe with `DEPENDS = "tool-native"` depends on `tool-native-native`. -/
theorem variant_name_twice :
    fixup native ["tool-native".toList] = ["tool-native".toList, "tool-native-native".toList] ∧
    fixup compat ["tool-native".toList] = ["tool-native".toList, "tool-native-compat".toList] := by
  decide

/-! ## C22 -/

/-- C22: names ending in `-compat` and `-native` get the architecture of the variant (with a
compat architecture configured), all others stay, one by one. -/
theorem packages_exact (compatArch : Option Str) (hostArch : Str) (targets : List Str) :
    (packages compatArch hostArch targets).length = targets.length ∧
    ∀ (i : Nat) t, targets[i]? = some t → ∃ p, (packages compatArch hostArch targets)[i]? = some p ∧
      (∀ n a, t = n ++ "-compat".toList → compatArch = some a → p = n ++ ":".toList ++ a) ∧
      (∀ n, t = n ++ "-native".toList → p = n ++ ":".toList ++ hostArch) ∧
      ((¬ ∃ n, t = n ++ "-compat".toList ∧ compatArch ≠ none) →
        (¬ ∃ n, t = n ++ "-native".toList) → p = t) := by
  refine ⟨by simp [packages], fun i t ht => ?_⟩
  refine ⟨_, by unfold packages; rw [List.getElem?_map, ht]; rfl, ?_, ?_, ?_⟩
  · rintro n a rfl rfl
    have : endsWith (n ++ compat) compat = true := endsWith_append n compat
    change (match endsWith (n ++ compat) compat, some a with
      | true, some a => dropEnd (n ++ compat) 7 ++ ':' :: a
      | _, _ => _) = _
    rw [this, show dropEnd (n ++ compat) 7 = n from dropEnd_append n compat]
    simp
  · rintro n rfl
    change (match endsWith (n ++ native) compat, compatArch with
      | true, some a => dropEnd (n ++ native) 7 ++ ':' :: a
      | _, _ => if endsWith (n ++ native) native then dropEnd (n ++ native) 7 ++ ':' :: hostArch
                else n ++ native) = _
    rw [not_compat, endsWith_append, show dropEnd (n ++ native) 7 = n from dropEnd_append n native]
    simp
  · intro h1 h2
    have hn : endsWith t native = false := by
      cases hh : endsWith t native with
      | false => rfl
      | true => exact absurd (endsWith_iff.1 hh) h2
    cases hc : endsWith t compat with
    | false => simp [hn, hc]
    | true =>
      cases ha : compatArch with
      | none => simp [hn]
      | some a =>
        obtain ⟨n, hn'⟩ := endsWith_iff.1 hc
        exact absurd ⟨n, hn', by rw [ha]; exact Option.some_ne_none a⟩ h1

example : packages (some "i386".toList) "amd64".toList
    ["hello-compat".toList, "a-compat-native".toList, "native".toList] =
    ["hello:i386".toList, "a-compat:amd64".toList, "native".toList] := by decide

/-! ## C23 -/

theorem isTarget_iff (p : Str) : isTarget p = true ↔ ∃ n, p = n ++ native ∨ p = n ++ compat := by
  unfold isTarget
  rw [Bool.or_eq_true, endsWith_iff, endsWith_iff]
  constructor
  · rintro (⟨n, h⟩ | ⟨n, h⟩)
    · exact ⟨n, Or.inl h⟩
    · exact ⟨n, Or.inr h⟩
  · rintro ⟨n, h | h⟩
    · exact Or.inl ⟨n, h⟩
    · exact Or.inr ⟨n, h⟩

/-- The number of variants of a recipe which provide a name. -/
def providers (c : Conf) (pn : Str) (provides : List Str) (name : Str) : Nat :=
  ((variants c pn provides).filter fun v => name ∈ v.2).length

theorem mem_extendProvides {pn s : Str} (hpn : isTarget pn = false) {ps : List Str} {x : Str} :
    x ∈ extendProvides pn s ps ↔
      x ∈ ps ∨ (∃ p ∈ ps, isTarget p = false ∧ x = p ++ s) ∨ x = pn ++ s := by
  unfold extendProvides
  rw [hpn]
  simp only [Bool.false_eq_true, if_false, List.mem_append, List.mem_map, List.mem_filter,
    List.mem_singleton, Bool.not_eq_true']
  constructor
  · rintro ((h | ⟨p, ⟨h1, h2⟩, rfl⟩) | h)
    · exact Or.inl h
    · exact Or.inr (Or.inl ⟨p, h1, h2, rfl⟩)
    · exact Or.inr (Or.inr h)
  · rintro (h | ⟨p, h1, h2, rfl⟩ | h)
    · exact Or.inl (Or.inl h)
    · exact Or.inl (Or.inr ⟨p, ⟨h1, h2⟩, rfl⟩)
    · exact Or.inr h

theorem extend_target (c : Conf) {pn : Str} (h : isTarget pn = true) (ps : List Str) :
    (extend c pn ps []).1 = ps := by
  unfold extend extendProvides
  simp only [h, if_true]
  cases c.canCompat <;> cases c.isAll <;> cases c.differs <;> rfl

theorem finalProvides_native (c : Conf) (pn : Str) (ps : List Str) :
    finalProvides c (pn ++ native) ps = fixup native ps := by
  unfold finalProvides
  rw [not_compat, endsWith_append]
  simp only [Bool.false_eq_true, if_false, if_true]
  exact extend_target c ((isTarget_iff _).2 ⟨pn, Or.inl rfl⟩) _

theorem finalProvides_compat (c : Conf) (pn : Str) (ps : List Str) :
    finalProvides c (pn ++ compat) ps = fixup compat ps := by
  unfold finalProvides
  rw [endsWith_append]
  simp only [if_true]
  exact extend_target c ((isTarget_iff _).2 ⟨pn, Or.inr rfl⟩) _

theorem finalProvides_base (c : Conf) {pn : Str} (h : isTarget pn = false) (ps : List Str) :
    finalProvides c pn ps = (extend c pn ps []).1 := by
  unfold isTarget at h
  rw [Bool.or_eq_false_iff] at h
  unfold finalProvides
  rw [h.1, h.2]
  rfl

/-- Names in the variant with suffix `s`, for provided names without suffixes. -/
theorem mem_fixup_plain {s : Str} {ps : List Str}
    (hps : ∀ p ∈ ps, isTarget p = false ∧ endsWith p archall = false) {x : Str} :
    x ∈ fixup s ps ↔ ∃ p ∈ ps, x = p ++ s := by
  have : fixup s ps = ps.map (· ++ s) := by
    unfold fixup
    induction ps with
    | nil => rfl
    | cons p ps ih =>
      obtain ⟨h1, h2⟩ := hps p List.mem_cons_self
      rw [List.map_cons, List.flatten_cons, ih fun u hu => hps u (List.mem_cons_of_mem _ hu),
        List.map_cons]
      unfold isTarget at h1
      rw [Bool.or_comm] at h1
      unfold fixupWord
      rw [h1, h2]
      rfl
  rw [this, List.mem_map]
  exact ⟨fun ⟨p, h1, h2⟩ => ⟨p, h1, h2.symm⟩, fun ⟨p, h1, h2⟩ => ⟨p, h1, h2.symm⟩⟩

theorem suffix_ne (a b : Str) : a ++ native ≠ b ++ compat := by
  intro h
  have := not_compat a
  rw [h, endsWith_append] at this
  exact absurd this (by decide)

/-- C23: for every recipe and architecture setting and every name the recipe stands for (its
own name and the names in `PROVIDES`), the `-native` name is provided by exactly one variant of
the recipe - the separate native variant if the architectures differ, else the recipe itself -
and the `-compat` name by exactly one variant if compat can be built (the recipe itself for
architecture-independent packages, else the separate compat variant), by none otherwise. -/
theorem variant_provided_once (c : Conf) (pn : Str) (provides : List Str)
    (hplain : ∀ p ∈ pn :: provides, ∀ n, p ≠ n ++ "-native".toList ∧ p ≠ n ++ "-compat".toList ∧
      (p ∈ provides → p ≠ n ++ "-archall".toList))
    (q : Str) (hq : q = pn ∨ q ∈ provides) :
    providers c pn provides (q ++ "-native".toList) = 1 ∧
    providers c pn provides (q ++ "-compat".toList) = (if c.canCompat then 1 else 0) ∧
    (∀ v ∈ variants c pn provides, q ++ "-native".toList ∈ v.2 →
      v.1 = if c.hostArch = c.distroArch then pn else pn ++ "-native".toList) ∧
    (∀ v ∈ variants c pn provides, q ++ "-compat".toList ∈ v.2 →
      v.1 = if c.dpkgArch = "all".toList then pn else pn ++ "-compat".toList) := by
  have htgt : ∀ p ∈ pn :: provides, isTarget p = false := by
    intro p hp
    cases h : isTarget p with
    | false => rfl
    | true =>
      obtain ⟨n, h | h⟩ := (isTarget_iff p).1 h
      · exact absurd h (hplain p hp n).1
      · exact absurd h (hplain p hp n).2.1
  have hpn : isTarget pn = false := htgt pn List.mem_cons_self
  have hps : ∀ p ∈ provides, isTarget p = false ∧ endsWith p archall = false := by
    intro p hp
    refine ⟨htgt p (List.mem_cons_of_mem _ hp), ?_⟩
    cases h : endsWith p archall with
    | false => rfl
    | true =>
      obtain ⟨n, h⟩ := endsWith_iff.1 h
      exact absurd h ((hplain p (List.mem_cons_of_mem _ hp) n).2.2 hp)
  have hqt : isTarget q = false := by
    rcases hq with rfl | hq
    · exact hpn
    · exact (hps q hq).1
  have nat_not_base : ∀ p, isTarget p = false → ∀ a, a ++ native ≠ p := by
    intro p hp a h
    have := (isTarget_iff p).2 ⟨a, Or.inl h.symm⟩
    rw [hp] at this; exact absurd this (by decide)
  have com_not_base : ∀ p, isTarget p = false → ∀ a, a ++ compat ≠ p := by
    intro p hp a h
    have := (isTarget_iff p).2 ⟨a, Or.inr h.symm⟩
    rw [hp] at this; exact absurd this (by decide)
  -- membership in the three possible variants
  have hnn : q ++ native ∈ (pn ++ native) :: fixup native provides := by
    rw [List.mem_cons, mem_fixup_plain hps]
    rcases hq with rfl | hq
    · exact Or.inl rfl
    · exact Or.inr ⟨q, hq, rfl⟩
  have hcc : q ++ compat ∈ (pn ++ compat) :: fixup compat provides := by
    rw [List.mem_cons, mem_fixup_plain hps]
    rcases hq with rfl | hq
    · exact Or.inl rfl
    · exact Or.inr ⟨q, hq, rfl⟩
  have hnc : q ++ native ∉ (pn ++ compat) :: fixup compat provides := by
    rw [List.mem_cons, mem_fixup_plain hps]
    rintro (h | ⟨p, _, h⟩) <;> exact suffix_ne _ _ h
  have hcn : q ++ compat ∉ (pn ++ native) :: fixup native provides := by
    rw [List.mem_cons, mem_fixup_plain hps]
    rintro (h | ⟨p, _, h⟩) <;> exact suffix_ne _ _ h.symm
  have hn0 : q ++ native ∉ pn :: provides := by
    rw [List.mem_cons]
    rintro (h | h)
    · exact nat_not_base pn hpn q h
    · exact nat_not_base _ (hps _ h).1 q rfl
  have hc0 : q ++ compat ∉ pn :: provides := by
    rw [List.mem_cons]
    rintro (h | h)
    · exact com_not_base pn hpn q h
    · exact com_not_base _ (hps _ h).1 q rfl
  have ext_yes : ∀ s ps, (∀ p ∈ provides, p ∈ ps) → q ++ s ∈ extendProvides pn s ps := by
    intro s ps hsub
    rw [mem_extendProvides hpn]
    rcases hq with rfl | hq
    · exact Or.inr (Or.inr rfl)
    · exact Or.inr (Or.inl ⟨q, hsub _ hq, hqt, rfl⟩)
  have ext_no_n : ∀ ps, q ++ native ∉ pn :: ps → q ++ native ∉ pn :: extendProvides pn compat ps := by
    intro ps h
    rw [List.mem_cons, mem_extendProvides hpn]
    rintro (h' | h' | ⟨p, _, _, h'⟩ | h')
    · exact h (List.mem_cons.2 (Or.inl h'))
    · exact h (List.mem_cons.2 (Or.inr h'))
    · exact suffix_ne _ _ h'
    · exact suffix_ne _ _ h'
  have ext_no_c : ∀ ps, q ++ compat ∉ pn :: ps → q ++ compat ∉ pn :: extendProvides pn native ps := by
    intro ps h
    rw [List.mem_cons, mem_extendProvides hpn]
    rintro (h' | h' | ⟨p, _, _, h'⟩ | h')
    · exact h (List.mem_cons.2 (Or.inl h'))
    · exact h (List.mem_cons.2 (Or.inr h'))
    · exact suffix_ne _ _ h'.symm
    · exact suffix_ne _ _ h'.symm
  have ext_yes' : ∀ s s' ps, q ++ s ∈ ps → q ++ s ∈ pn :: extendProvides pn s' ps := by
    intro s s' ps h
    rw [List.mem_cons, mem_extendProvides hpn]
    exact Or.inr (Or.inl h)
  have hsub : ∀ p ∈ provides, p ∈ extendProvides pn compat provides := fun p hp =>
    (mem_extendProvides hpn).2 (Or.inl hp)
  change providers c pn provides (q ++ native) = 1 ∧
    providers c pn provides (q ++ compat) = (if c.canCompat then 1 else 0) ∧
    (∀ v ∈ variants c pn provides, q ++ native ∈ v.2 →
      v.1 = if c.hostArch = c.distroArch then pn else pn ++ native) ∧
    (∀ v ∈ variants c pn provides, q ++ compat ∈ v.2 →
      v.1 = if c.dpkgArch = "all".toList then pn else pn ++ compat)
  have en : pn ++ '-' :: "native".toList = pn ++ native := rfl
  have ec : pn ++ '-' :: "compat".toList = pn ++ compat := rfl
  unfold providers variants
  rw [finalProvides_base c hpn]
  have hd : (c.hostArch = c.distroArch) ↔ c.differs = false := by
    unfold Conf.differs; simp
  have ha : (c.dpkgArch = "all".toList) ↔ c.isAll = true := by
    unfold Conf.isAll; exact (decide_eq_true_iff).symm
  simp only [hd, ha]
  have e1 := List.mem_cons_of_mem pn (ext_yes native provides fun p h => h)
  have e2 := List.mem_cons_of_mem pn (ext_yes compat provides fun p h => h)
  have e3 := List.mem_cons_of_mem pn (ext_yes native _ hsub)
  have e4 := ext_no_n provides hn0
  have e5 := ext_no_c provides hc0
  have e6 := ext_yes' compat native _ (ext_yes compat provides fun p h => h)
  cases hcc' : c.canCompat <;> cases hall : c.isAll <;> cases hdiff : c.differs <;>
    simp only [extend, hcc', hall, hdiff, Bool.false_eq_true, if_false, if_true, List.map_nil,
      List.map_cons, List.nil_append, List.cons_append, en, ec, finalProvides_native,
      finalProvides_compat, List.filter_cons, List.filter_nil, hnn, hcc, hnc, hcn, hn0, hc0,
      e1, e2, e3, e4, e5, e6,
      decide_true, decide_false, List.length_cons, List.length_nil, List.forall_mem_cons,
      Bool.true_eq_false, implies_true, false_implies, true_implies, true_and, and_true,
      List.not_mem_nil]

example : providers ⟨"amd64".toList, "arm64".toList, "any".toList, true, true⟩ "hello".toList
    ["libhello".toList] "libhello-native".toList = 1 := by decide

/-! ## C51 -/

/-- C51: a recipe for a foreign architecture that is not cross compiled depends on the target
variant instead of the native one, and only then; the other dependencies stay, in order. -/
theorem native_depends (c : Conf) (ds : List Str) :
    ∃ ds', dropNative c (some ds) = some ds' ∧ ds'.length = ds.length ∧
    ∀ (i : Nat) d, ds[i]? = some d → ∃ d', ds'[i]? = some d' ∧
      (c.hostArch ≠ c.distroArch ∧ c.cross = false → ∀ n, d = n ++ "-native".toList → d' = n) ∧
      ((¬ ∃ n, d = n ++ "-native".toList) ∨ c.hostArch = c.distroArch ∨ c.cross = true →
        d' = d) := by
  have hd : c.differs = true ↔ c.hostArch ≠ c.distroArch := by unfold Conf.differs; simp
  unfold dropNative
  by_cases h : (c.differs && !c.cross) = true
  · simp only [h, if_true]
    refine ⟨_, rfl, by simp, fun i d hi => ⟨_, by rw [List.getElem?_map, hi]; rfl, ?_, ?_⟩⟩
    · rintro _ n rfl
      have h1 : endsWith (n ++ "-native".toList) native = true := endsWith_append n native
      have h2 : dropEnd (n ++ "-native".toList) 7 = n := dropEnd_append n native
      simp only [h1, if_true, h2]
    · intro hh
      rw [Bool.and_eq_true, hd] at h
      rcases hh with hh | hh | hh
      · have : endsWith d native = false := by
          cases he : endsWith d native with
          | false => rfl
          | true => exact absurd (endsWith_iff.1 he) hh
        simp only [this, Bool.false_eq_true, if_false]
      · exact absurd hh h.1
      · rw [hh] at h; exact absurd h.2 (by decide)
  · refine ⟨ds, by simp only [h]; rfl, rfl, fun i d hi => ⟨d, hi, ?_, fun _ => rfl⟩⟩
    rintro ⟨h1, h2⟩
    rw [Bool.and_eq_true, hd, h2] at h
    exact absurd ⟨h1, rfl⟩ h

example : dropNative ⟨"amd64".toList, "arm64".toList, "any".toList, true, false⟩
    (some ["a-native".toList, "b".toList]) = some ["a".toList, "b".toList] := by decide

end Isar.Multiarch
