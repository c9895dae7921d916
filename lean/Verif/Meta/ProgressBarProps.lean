import Verif.Meta.ProgressProps
/-! # The progress bar of a task with several stages (C86) and logs that are filtered by lines (C87) -/

namespace Isar.Progress
open Py Spec

/-! ## The progress bar -/

/-- A task: for each stage, `next_stage()` and the calls of `update`. -/
def stages (r : Reporter) (us : List (List Rat)) : Reporter :=
  us.foldl (fun r u => u.foldl Reporter.update r.next) r

theorem sum_take_succ : ∀ (ws : List Rat) (i : Nat) (h : i < ws.length),
    (ws.take (i + 1)).sum = (ws.take i).sum + ws[i] := by
  intro ws
  induction ws with
  | nil => intro i h; simp at h
  | cons w ws ih =>
    intro i h
    cases i with
    | zero => simp [Rat.add_zero, Rat.zero_add]
    | succ i =>
      rw [List.take_succ_cons, List.sum_cons, List.take_succ_cons, List.sum_cons,
        ih i (by simpa using h), List.getElem_cons_succ, Rat.add_assoc]

theorem sum_nonneg : ∀ {ws : List Rat}, (∀ w ∈ ws, 0 ≤ w) → 0 ≤ ws.sum := by
  intro ws
  induction ws with
  | nil => intro _; simp
  | cons w ws ih =>
    intro h
    rw [List.sum_cons]
    have h1 := h w (by simp)
    have h2 := ih (fun v hv => h v (List.mem_cons_of_mem _ hv))
    grind

theorem sum_take_le {ws : List Rat} (h : ∀ w ∈ ws, 0 ≤ w) (i : Nat) : (ws.take i).sum ≤ ws.sum := by
  have e : ws.sum = (ws.take i).sum + (ws.drop i).sum := by
    rw [← List.sum_append, List.take_append_drop]
  have h2 : 0 ≤ (ws.drop i).sum := sum_nonneg (fun w hw => h w (List.mem_of_mem_drop hw))
  rw [e]
  grind

theorem sum_map_mul (ws : List Rat) (c : Rat) : (ws.map (· * c)).sum = ws.sum * c := by
  induction ws with
  | nil => simp
  | cons w ws ih => rw [List.map_cons, List.sum_cons, List.sum_cons, ih, Rat.add_mul]

/-- Where a stage starts, in percent. -/
def start (ws : List Rat) (i : Nat) : Rat := if i < ws.length then (ws.take i).sum * 100 else 100

/-- The invariant: nothing went back, everything is at most at `top`. -/
structure BarInv (r : Reporter) (top : Rat) : Prop where
  sorted : NeverBack r.fired
  le : ∀ v ∈ r.fired, v ≤ top
  ge : ∀ v ∈ r.fired, 0 ≤ v

theorem BarInv.snoc {r : Reporter} {top v : Rat} (h : BarInv r top) (hv : top ≤ v) (h0 : 0 ≤ v) :
    BarInv { r with fired := r.fired ++ [v] } v := by
  refine ⟨?_, ?_, ?_⟩
  · show (r.fired ++ [v]).Pairwise _
    rw [List.pairwise_append]
    refine ⟨h.sorted, List.pairwise_singleton _ _, ?_⟩
    intro a ha b hb
    rw [List.mem_singleton] at hb
    rw [hb]
    exact Rat.le_trans (h.le a ha) hv
  · intro a ha
    rcases List.mem_append.1 ha with ha | ha
    · exact Rat.le_trans (h.le a ha) hv
    · rw [List.mem_singleton] at ha; rw [ha]; exact Rat.le_refl
  · intro a ha
    rcases List.mem_append.1 ha with ha | ha
    · exact h.ge a ha
    · rw [List.mem_singleton] at ha; rw [ha]; exact h0

/-- The weights are parts of a whole. -/
structure Parts (ws : List Rat) : Prop where
  nonneg : ∀ w ∈ ws, 0 ≤ w
  sum : ws.sum ≤ 1

theorem start_bounds {ws : List Rat} (h : Parts ws) (i : Nat) : 0 ≤ start ws i ∧ start ws i ≤ 100 := by
  unfold start
  split
  · have h1 := sum_take_le h.nonneg i
    have h2 : 0 ≤ (ws.take i).sum := sum_nonneg (fun w hw => h.nonneg w (List.mem_of_mem_take hw))
    have h3 := h.sum
    grind
  · decide +kernel

theorem start_succ {ws : List Rat} (h : Parts ws) (i : Nat) (hi : i < ws.length) :
    start ws i + 100 * ws[i] ≤ start ws (i + 1) := by
  have e := sum_take_succ ws i hi
  have h1 : start ws i = (ws.take i).sum * 100 := by unfold start; rw [if_pos hi]
  rw [h1]
  unfold start
  split
  · rw [e]; grind
  · have h2 := sum_take_le h.nonneg (i + 1)
    have h3 := h.sum
    rw [e] at h2
    grind

theorem updates_inv {ws : List Rat} (hp : Parts ws) (i : Nat) : ∀ (u : List Rat) (r : Reporter) (top : Rat),
    r.weights = ws → r.stage = i + 1 → r.stageTotal = 0 → r.base = start ws i →
    BarInv r top → top ≤ start ws (i + 1) → (∀ p ∈ u, 0 ≤ p ∧ p ≤ 100) → NeverBack u →
    (∀ p ∈ u, ∀ h : i < ws.length, top ≤ start ws i + p * ws[i]) →
    (¬ i < ws.length → top ≤ 100) →
    (u.foldl Reporter.update r).weights = ws ∧ (u.foldl Reporter.update r).stage = i + 1 ∧
      ∃ top', BarInv (u.foldl Reporter.update r) top' ∧ top' ≤ start ws (i + 1) := by
  intro u
  induction u with
  | nil => intro r top h1 h2 h3 h4 h5 h6 _ _ _ _; exact ⟨h1, h2, top, h5, h6⟩
  | cons p u ih =>
    intro r top h1 h2 h3 h4 h5 h6 hu hs hl hb
    have hp0 := hu p (by simp)
    rw [NeverBack, List.pairwise_cons] at hs
    obtain ⟨b1, b2⟩ := start_bounds hp i
    obtain ⟨b3, b4⟩ := start_bounds hp (i + 1)
    rw [List.foldl_cons]
    have e0 : r.stage ≠ 0 := by omega
    have e1 : r.stage - 1 = i := by omega
    have eu : r.update p =
        if (if h : i < ws.length then start ws i + p * ws[i] else start ws i) = 0 then r
        else { r with
          fired := r.fired ++ [if (if h : i < ws.length then start ws i + p * ws[i]
            else start ws i) > 100 then 100
            else (if h : i < ws.length then start ws i + p * ws[i] else start ws i)] } := by
      unfold Reporter.update
      simp only [h3, if_true, e0, if_false, e1, h4, h1]
    by_cases hi : i < ws.length
    · rw [dif_pos hi] at eu
      have hw := hp.nonneg ws[i] (List.getElem_mem hi)
      have hv1 : start ws i + p * ws[i] ≤ start ws (i + 1) := by
        have := start_succ hp i hi
        have h7 : p * ws[i] ≤ 100 * ws[i] := Rat.mul_le_mul_of_nonneg_right hp0.2 hw
        grind
      have hv0 : 0 ≤ p * ws[i] := Rat.mul_nonneg hp0.1 hw
      have hv2 : top ≤ start ws i + p * ws[i] := hl p (by simp) hi
      have mono : ∀ q ∈ u, start ws i + p * ws[i] ≤ start ws i + q * ws[i] := by
        intro q hq
        have h8 : p * ws[i] ≤ q * ws[i] := Rat.mul_le_mul_of_nonneg_right (hs.1 q hq) hw
        grind
      by_cases hz : start ws i + p * ws[i] = 0
      · rw [if_pos hz] at eu
        rw [eu]
        exact ih r top h1 h2 h3 h4 h5 h6 (fun q hq => hu q (List.mem_cons_of_mem _ hq)) hs.2
          (fun q hq => hl q (List.mem_cons_of_mem _ hq)) hb
      · have hle : ¬ (start ws i + p * ws[i] > 100) := by grind
        rw [if_neg hz, if_neg hle] at eu
        rw [eu]
        exact ih _ (start ws i + p * ws[i]) h1 h2 h3 h4 (h5.snoc hv2 (by grind)) hv1
          (fun q hq => hu q (List.mem_cons_of_mem _ hq)) hs.2 (fun q hq _ => mono q hq)
          (fun h => absurd hi h)
    · rw [dif_neg hi] at eu
      have hs1 : start ws i = 100 := by unfold start; rw [if_neg hi]
      have hs2 : start ws (i + 1) = 100 := by unfold start; rw [if_neg (by omega)]
      rw [hs1, if_neg (by decide +kernel), if_neg (by decide +kernel)] at eu
      rw [eu]
      exact ih _ 100 h1 h2 h3 h4 (h5.snoc (hb hi) (by decide +kernel)) (by rw [hs2]; exact Rat.le_refl)
        (fun q hq => hu q (List.mem_cons_of_mem _ hq)) hs.2 (fun q hq h => absurd h hi)
        (fun _ => Rat.le_refl)

theorem stages_inv {ws : List Rat} (hp : Parts ws) : ∀ (us : List (List Rat)) (i : Nat) (r : Reporter) (top : Rat),
    r.weights = ws → r.stage = i → BarInv r top → top ≤ start ws i → (i = 0 → r.base = start ws 0) →
    (∀ u ∈ us, NeverBack u ∧ ∀ p ∈ u, 0 ≤ p ∧ p ≤ 100) →
    ∃ top', BarInv (stages r us) top' ∧ top' ≤ 100 := by
  intro us
  induction us with
  | nil => intro i r top h1 h2 h3 h4 _ _; exact ⟨top, h3, Rat.le_trans h4 (start_bounds hp i).2⟩
  | cons u us ih =>
    intro i r top h1 h2 h3 h4 h5 hu
    obtain ⟨hu1, hu2⟩ := hu u (by simp)
    have hnext : ∃ top', BarInv r.next top' ∧ top' ≤ start ws i ∧ r.next.weights = ws ∧
        r.next.stage = i + 1 ∧ r.next.stageTotal = 0 ∧ r.next.base = start ws i := by
      unfold Reporter.next
      simp only
      by_cases hi : i = 0
      · rw [if_pos (by omega)]
        refine ⟨top, ⟨h3.sorted, h3.le, h3.ge⟩, h4, h1, by simp only; omega, rfl, ?_⟩
        simp only
        rw [hi]
        exact h5 hi
      · rw [if_neg (by omega)]
        have e : (if r.stage + 1 - 1 < r.weights.length then
            (r.weights.take (r.stage + 1 - 1)).sum * 100 else 100) = start ws i := by
          rw [h1, h2, Nat.add_sub_cancel]
          rfl
        rw [e]
        have h6 : BarInv { r with stage := r.stage + 1, stageTotal := 0, base := start ws i } top :=
          ⟨h3.sorted, h3.le, h3.ge⟩
        exact ⟨_, h6.snoc h4 (start_bounds hp i).1, Rat.le_refl, h1, by simp only; omega, rfl, rfl⟩
    obtain ⟨top1, n1, n2, n3, n4, n5, n6⟩ := hnext
    have hmono : top1 ≤ start ws (i + 1) := by
      by_cases hi : i < ws.length
      · have := start_succ hp i hi
        have hw := hp.nonneg ws[i] (List.getElem_mem hi)
        grind
      · have hs2 : start ws (i + 1) = 100 := by unfold start; rw [if_neg (by omega)]
        rw [hs2]
        exact Rat.le_trans n2 (start_bounds hp i).2
    obtain ⟨k1, k2, top2, k3, k4⟩ := updates_inv hp i u r.next top1 n3 n4 n5 n6 n1 hmono hu2 hu1
      (fun p hpm hi => by
        have hw := hp.nonneg ws[i] (List.getElem_mem hi)
        have := Rat.mul_nonneg (hu2 p hpm).1 hw
        grind)
      (fun _ => Rat.le_trans n2 (start_bounds hp i).2)
    exact ih (i + 1) _ top2 k1 k2 k3 k4 (fun h => by omega)
      (fun v hv => hu v (List.mem_cons_of_mem _ hv))

/-- C86: the progress bar of a task never goes back and stays between 0 and 100, if within each
stage the reports do not go back and stay between 0 and 100; also if there are more or fewer stages
than weights. -/
theorem bar_never_back_partial {weights : List Rat} {r : Reporter} (hne : weights ≠ [])
    (hw : ∀ w ∈ weights, 0 ≤ w) (hr : Reporter.new weights = .ok r) (us : List (List Rat))
    (hu : ∀ u ∈ us, NeverBack u ∧ ∀ p ∈ u, 0 ≤ p ∧ p ≤ 100) :
    NeverBack (stages r us).fired ∧ ∀ v ∈ (stages r us).fired, 0 ≤ v ∧ v ≤ 100 := by
  unfold Reporter.new at hr
  split at hr
  · cases hr
  · rename_i hc
    simp only [Except.ok.injEq] at hr
    subst hr
    have hs := sum_nonneg hw
    have hinv : 0 ≤ weights.sum⁻¹ := by
      by_cases h0 : weights.sum = 0
      · rw [h0]; simp
      · apply Rat.le_of_lt
        rw [Rat.inv_pos]
        grind
    have hp : Parts (weights.map (· / weights.sum)) := by
      refine ⟨?_, ?_⟩
      · intro v hv
        obtain ⟨w, hwm, rfl⟩ := List.mem_map.1 hv
        rw [Rat.div_def]
        exact Rat.mul_nonneg (hw w hwm) hinv
      · have e : (weights.map (· / weights.sum)).sum = weights.sum * weights.sum⁻¹ := by
          rw [← sum_map_mul]
          rfl
        rw [e]
        by_cases h0 : weights.sum = 0
        · rw [h0]; simp; decide +kernel
        · rw [Rat.mul_inv_cancel _ h0]; exact Rat.le_refl
    obtain ⟨top, hb, ht⟩ := stages_inv hp us 0 { weights := weights.map (· / weights.sum) } 0 rfl rfl
      ⟨List.pairwise_singleton _ _, by simp, by simp⟩
      (start_bounds hp 0).1 (fun _ => by
        show (0 : Rat) = _
        unfold start
        split
        · simp
        · rename_i h
          rw [List.length_map] at h
          exact absurd (List.length_pos_iff.2 hne) h) hu
    exact ⟨hb.sorted, fun v hv => ⟨hb.ge v hv, Rat.le_trans (hb.le v hv) ht⟩⟩

example : (Reporter.new [1, 3]).toOption.map (fun r => (stages r [[0, 50], [0, 99]]).fired) =
    some [0, 25 / 2, 25, 25, 25 + 297 / 4] := by decide +kernel

/-- C86: reports above 100 % in one stage make the bar go back at the next one. -/
theorem bar_goes_back : (Reporter.new [1, 1]).toOption.map
    (fun r => (stages r [[0, 99, 198], [0]]).fired) = some [0, 99 / 2, 99, 50, 50] := by
  decide +kernel

/-- C86: a task whose only stages have weight 0 fails before it starts. -/
theorem weights_zero_fails : Reporter.new [0, 0] = .error () := by
  unfold Reporter.new
  rw [if_pos (by decide +kernel)]

/-! ## Logs that are filtered by lines -/

/-- A sequence of calls of `write`. -/
def writesL (keep : Filter) (h : Lines) (pieces : List Str) : Lines := pieces.foldl (writeL keep) h

theorem dropCr_clean {l : Str} (h : '\r' ∉ l) : dropCr l = l := by
  unfold dropCr
  have e : l.contains '\r' = false := by
    rw [← Bool.not_eq_true, List.contains_iff_mem]
    exact h
  simp only [e, Bool.false_and, Bool.false_eq_true, if_false]

theorem drainL_lines (keep : Filter) (rest : Str) (hr : '\n' ∉ rest) (hr2 : '\r' ∉ rest) :
    ∀ (ls : List Str), (∀ l ∈ ls, IsLine l ∧ '\r' ∉ l) → ∀ (n : Nat) (o : Str), ls.length < n →
      drainL keep n ⟨o, ls.flatten ++ rest⟩ = ⟨o ++ (ls.filter keep).flatten, rest⟩ := by
  intro ls
  induction ls with
  | nil =>
    intro _ n o hn
    obtain ⟨n, rfl⟩ : ∃ m, n = m + 1 := ⟨n - 1, by simp only [List.length_nil] at hn; omega⟩
    rw [drainL]
    have e : cutLine (([] : List Str).flatten ++ rest) = none := by
      unfold cutLine
      simp only [List.flatten_nil, List.nil_append]
      rw [cutAt_none hr, cutAt_none hr2]
    simp only [e]
    simp
  | cons l ls ih =>
    intro hl n o hn
    obtain ⟨n, rfl⟩ : ∃ m, n = m + 1 := ⟨n - 1, by simp only [List.length_cons] at hn; omega⟩
    obtain ⟨⟨t, rfl, ht⟩, hcr⟩ := hl l (by simp)
    rw [drainL]
    have e : cutLine (((t ++ ['\n']) :: ls).flatten ++ rest) =
        some (t ++ ['\n'], ls.flatten ++ rest) := by
      unfold cutLine
      have e : ((t ++ ['\n']) :: ls).flatten ++ rest = t ++ '\n' :: (ls.flatten ++ rest) := by simp
      rw [e, cutAt_line ht]
    simp only [e]
    rw [dropCr_clean hcr, ih (fun m hm => hl m (List.mem_cons_of_mem _ hm)) n _
      (by simp only [List.length_cons] at hn; omega), List.filter_cons]
    cases keep (t ++ ['\n']) <;> simp

theorem writeL_lines (keep : Filter) (h : Lines) (s : Str) {ls : List Str} {rest : Str}
    (hc : Cut (h.buf ++ s) ls rest) (hcr : '\r' ∉ h.buf ++ s) :
    writeL keep h s = ⟨h.out ++ (ls.filter keep).flatten, rest⟩ := by
  unfold writeL
  rw [hc.1, List.mem_append, not_or] at hcr
  have e : ({ h with buf := h.buf ++ s } : Lines) = ⟨h.out, ls.flatten ++ rest⟩ := by rw [← hc.1]
  rw [e, drainL_lines keep rest hc.2.2 hcr.2 ls]
  · intro l hl
    exact ⟨hc.2.1 l hl, fun hm => hcr.1 (List.mem_flatten.2 ⟨l, hl, hm⟩)⟩
  · have := length_flatten_lines hc.2.1
    have h2 := congrArg List.length hc.1
    simp only [List.length_append] at h2
    omega

/-- C87: output without carriage returns: the log has exactly the complete lines that the filter
keeps, in their order, however the output is cut into pieces. -/
theorem kept_lines_partial (keep : Filter) {pieces : List Str} {ls : List Str} {rest : Str}
    (hcr : '\r' ∉ pieces.flatten) (hc : Cut pieces.flatten ls rest) :
    (writesL keep {} pieces).out = (ls.filter keep).flatten := by
  have key : ∀ (pieces : List Str) (h : Lines) (ls : List Str) (rest : Str), '\n' ∉ h.buf →
      '\r' ∉ h.buf ++ pieces.flatten → Cut (h.buf ++ pieces.flatten) ls rest →
      writesL keep h pieces = ⟨h.out ++ (ls.filter keep).flatten, rest⟩ := by
    intro pieces
    induction pieces with
    | nil =>
      intro h ls rest hb _ hc
      obtain ⟨rfl, rfl⟩ := cut_unique hc (ls' := []) (r' := h.buf) ⟨by simp, by simp, hb⟩
      simp [writesL]
    | cons p ps ih =>
      intro h ls rest hb hcr hc
      rw [List.flatten_cons, ← List.append_assoc, List.mem_append, not_or] at hcr
      obtain ⟨l1, r1, c1⟩ := cut_exists (h.buf ++ p)
      have e := writeL_lines keep h p c1 hcr.1
      obtain ⟨l2, r2, c2⟩ := cut_exists (r1 ++ ps.flatten)
      have hr1 : '\r' ∉ r1 := by
        intro hm
        exact hcr.1 (by rw [c1.1]; exact List.mem_append_right _ hm)
      have c3 : Cut (h.buf ++ (p :: ps).flatten) (l1 ++ l2) r2 := by
        refine ⟨?_, ?_, c2.2.2⟩
        · rw [List.flatten_cons, ← List.append_assoc, c1.1, List.append_assoc, c2.1,
            List.flatten_append, List.append_assoc]
        · intro l hl
          rcases List.mem_append.1 hl with hl | hl
          · exact c1.2.1 l hl
          · exact c2.2.1 l hl
      obtain ⟨rfl, rfl⟩ := cut_unique hc c3
      have := ih ⟨h.out ++ (l1.filter keep).flatten, r1⟩ l2 rest c1.2.2
        (by rw [List.mem_append, not_or]; exact ⟨hr1, hcr.2⟩) c2
      show ps.foldl (writeL keep) (writeL keep h p) = _
      rw [e]
      unfold writesL at this
      rw [this]
      simp
  rw [key pieces {} ls rest (by simp) (by simpa using hcr) (by simpa using hc)]
  rfl

example : (writesL (fun l => !startsWith l ['#']) {} ["a\n#".toList, "5%\nb\n".toList]).out =
    "a\nb\n".toList := by decide +kernel

/-- C87: the last line of the output is missing in the log if it is not ended. -/
theorem unfinished_line_lost (keep : Filter) {pieces : List Str} (hcr : '\r' ∉ pieces.flatten)
    (hnl : '\n' ∉ pieces.flatten) : (writesL keep {} pieces).out = [] := by
  rw [kept_lines_partial keep hcr (ls := []) (rest := pieces.flatten) ⟨rfl, by simp, hnl⟩]
  rfl

example : (writesL (fun _ => true) {} ["error: disk full".toList]).out = [] := by decide +kernel

/-- C87: with carriage returns the log depends on the pieces: the part of a line before a carriage
return is dropped only if the rest of the line arrives together with it. -/
theorem pieces_matter :
    (writesL (fun _ => true) {} ["10%\r20%\n".toList]).out = "20%\n".toList ∧
    (writesL (fun _ => true) {} ["10%\r".toList, "20%\n".toList]).out = "10%\r20%\n".toList := by
  decide +kernel

end Isar.Progress
