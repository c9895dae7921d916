import Verif.Meta.ProgressLemmas
/-! # Properties of the progress handlers: C85, C86, C87 -/

namespace Isar.Progress
open Py Spec

/-! ## C85: the pieces in which output arrives do not matter -/

/-- C85: however the output of a command is cut into pieces, the log, the progress reports and any
exception are the same as if all of it had been written at once. -/
theorem pieces_irrelevant (k : Kind) (h : Handler) (hb : '\n' ∉ h.buf) (pieces : List Str) :
    writes k h pieces = write k h pieces.flatten := by
  have key : ∀ (pieces : List Str) (h : Handler), '\n' ∉ h.buf →
      writes k h pieces = write k h pieces.flatten := by
    intro pieces
    induction pieces with
    | nil =>
      intro h hb
      rw [write_lines k h _ (ls := []) (rest := h.buf) ⟨by simp, by simp, hb⟩]
      simp [writes, handleAll, Except.map, Handler.io]
    | cons p ps ih =>
      intro h hb
      rw [List.flatten_cons, write_append, writes]
      cases hw : write k h p with
      | error e => rfl
      | ok h' =>
        simp only
        apply ih
        obtain ⟨ls, r, c⟩ := cut_exists (h.buf ++ p)
        rw [write_lines k h p c] at hw
        cases ha : handleAll k h ls with
        | error e => rw [ha] at hw; simp [Except.map] at hw
        | ok h2 =>
          rw [ha] at hw
          simp only [Except.map, Except.ok.injEq] at hw
          rw [← hw]
          exact c.2.2
  exact key pieces h hb

/-- An apt log in pieces. -/
def exPieces : List Str :=
  ["1 upg".toList, "raded, 1 newly installed, 0 to remove.\nGe".toList, "t:1 a\nGet".toList,
    ":2 b\n".toList]

example : (writes .download {} exPieces).toOption.map (fun h => h.ups) =
    some [0, (99 : Rat) / 2, 99] := by decide +kernel

/-- C85: the log is the output, unchanged. -/
theorem log_verbatim {k : Kind} {h h' : Handler} {pieces : List Str} (hb : '\n' ∉ h.buf)
    (hw : writes k h pieces = .ok h') : h'.out = h.out ++ pieces.flatten := by
  rw [pieces_irrelevant k h hb] at hw
  obtain ⟨ls, r, c⟩ := cut_exists (h.buf ++ pieces.flatten)
  rw [write_lines k h _ c] at hw
  cases ha : handleAll k h ls with
  | error e => rw [ha] at hw; simp [Except.map] at hw
  | ok h2 =>
    rw [ha] at hw
    simp only [Except.map, Except.ok.injEq] at hw
    rw [← hw]
    rfl

example : (writes .install {} exPieces).toOption.map (fun h => h.out) = some exPieces.flatten := by
  decide +kernel

/-! ## C86: what is reported -/

/-- By what the number of steps is divided. -/
def den (k : Kind) (num : Nat) : Nat := match k with | .install => num * 2 | _ => num

theorem length_splitOnGo (c : Char) (s : Str) : ∀ cur, (splitOnGo c s cur).length = s.count c + 1 := by
  induction s with
  | nil => intro cur; simp [splitOnGo]
  | cons x s ih =>
    intro cur
    rw [splitOnGo]
    by_cases h : x = c
    · simp [h, ih]
    · simp [h, ih]

theorem length_splitOn (c : Char) (s : Str) : (splitOn c s).length - 1 = s.count c := by
  unfold splitOn
  rw [length_splitOnGo]
  omega

/-- The state after `c` more steps, with a report. -/
theorem processLine_steps (k : Kind) (h : Handler) (line : Str) :
    (stepsOf k line = none ∧ processLine k h line = .ok h) ∨
    (∃ c, stepsOf k line = some c ∧
      ((den k h.num = 0 ∧ processLine k h line = .error ()) ∨
       (den k h.num ≠ 0 ∧ ∃ h', processLine k h line = .ok h' ∧ h'.num = h.num ∧
        h'.prepare = h.prepare ∧ h'.pkg + h'.setUp = h.pkg + h.setUp + c ∧
        (k ≠ .install → h'.setUp = h.setUp) ∧
        h'.ups = h.ups ++ [(99 * ((h'.pkg + (if k = .install then h'.setUp else 0) : Nat) : Rat)) /
          (den k h.num : Rat)]))) := by
  cases k with
  | base => exact Or.inl ⟨rfl, rfl⟩
  | download =>
    unfold stepsOf processLine report
    simp only
    rw [show startsWith line "Get:".toList = "Get:".toList.isPrefixOf line from rfl]
    by_cases hp : "Get:".toList.isPrefixOf line = true
    · rw [if_pos hp]
      refine Or.inr ⟨1, rfl, ?_⟩
      rw [if_pos hp]
      by_cases hz : h.num = 0
      · exact Or.inl ⟨hz, by rw [if_pos hz]⟩
      · rw [if_neg hz]
        refine Or.inr ⟨hz, _, rfl, rfl, rfl, ?_, fun _ => rfl, ?_⟩
        · simp only; omega
        · simp [den]
    · rw [if_neg hp, if_neg hp]
      exact Or.inl ⟨rfl, rfl⟩
  | install =>
    unfold stepsOf processLine report
    simp only
    rw [show startsWith line "Preparing to unpack".toList =
      "Preparing to unpack".toList.isPrefixOf line from rfl,
      show startsWith line "Setting up".toList = "Setting up".toList.isPrefixOf line from rfl]
    by_cases hp : "Preparing to unpack".toList.isPrefixOf line = true
    · rw [if_pos hp, if_pos (by rw [hp]; rfl)]
      refine Or.inr ⟨1, rfl, ?_⟩
      by_cases hz : h.num * 2 = 0
      · exact Or.inl ⟨hz, by rw [if_pos hz]⟩
      · rw [if_neg hz]
        refine Or.inr ⟨hz, _, rfl, rfl, rfl, ?_, fun e => absurd rfl e, ?_⟩
        · simp only; omega
        · simp [den]
    · by_cases hq : "Setting up".toList.isPrefixOf line = true
      · rw [if_neg hp, if_pos hq, if_pos (by rw [hq, Bool.or_true])]
        refine Or.inr ⟨1, rfl, ?_⟩
        by_cases hz : h.num * 2 = 0
        · exact Or.inl ⟨hz, by rw [if_pos hz]⟩
        · rw [if_neg hz]
          refine Or.inr ⟨hz, _, rfl, rfl, rfl, ?_, fun e => absurd rfl e, ?_⟩
          · simp only; omega
          · simp [den]
      · rw [if_neg hp, if_neg hq, if_neg (by rw [Bool.or_eq_true]; exact fun e => e.elim hp hq)]
        exact Or.inl ⟨rfl, rfl⟩
  | initrd =>
    unfold stepsOf processLine report
    simp only
    rw [show startsWith line "Adding module".toList = "Adding module".toList.isPrefixOf line from rfl,
      show startsWith line "dracut-install: cp".toList =
        "dracut-install: cp".toList.isPrefixOf line from rfl,
      show startsWith line "dracut-install: Failed to find module".toList =
        "dracut-install: Failed to find module".toList.isPrefixOf line from rfl,
      show startsWith line "(excluding".toList = "(excluding".toList.isPrefixOf line from rfl,
      length_splitOn]
    by_cases hp : ("Adding module".toList.isPrefixOf line ||
      "dracut-install: cp".toList.isPrefixOf line ||
      "dracut-install: Failed to find module".toList.isPrefixOf line) = true
    · rw [if_pos hp, if_pos hp]
      refine Or.inr ⟨1, rfl, ?_⟩
      by_cases hz : h.num = 0
      · exact Or.inl ⟨hz, by rw [if_pos hz]⟩
      · rw [if_neg hz]
        refine Or.inr ⟨hz, _, rfl, rfl, rfl, ?_, fun _ => rfl, ?_⟩
        · simp only; omega
        · simp [den]
    · by_cases hq : "(excluding".toList.isPrefixOf line = true
      · rw [if_neg hp, if_neg hp, if_pos hq, if_pos hq]
        refine Or.inr ⟨line.count ' ', rfl, ?_⟩
        by_cases hz : h.num = 0
        · exact Or.inl ⟨hz, by rw [if_pos hz]⟩
        · rw [if_neg hz]
          refine Or.inr ⟨hz, _, rfl, rfl, rfl, ?_, fun _ => rfl, ?_⟩
          · simp only; omega
          · simp [den]
      · rw [if_neg hp, if_neg hp, if_neg hq, if_neg hq]
        exact Or.inl ⟨rfl, rfl⟩

theorem filterMap_nil_iff {k : Kind} {ls : List Str} :
    (∃ l ∈ ls, ∃ c, stepsOf k l = some c) ↔ ls.filterMap (stepsOf k) ≠ [] := by
  induction ls with
  | nil => simp
  | cons l ls ih =>
    rw [List.filterMap_cons]
    cases h : stepsOf k l with
    | none => simp only [List.mem_cons, exists_eq_or_imp, h, reduceCtorEq, exists_false, false_or]
              simpa using ih
    | some c => simp [h]

/-- After the announcement. -/
theorem handleAll_after (k : Kind) : ∀ (ls : List Str) (h : Handler), h.prepare = false →
    (k ≠ .install → h.setUp = 0) →
    (den k h.num = 0 ∧ ls.filterMap (stepsOf k) ≠ [] ∧ handleAll k h ls = .error ()) ∨
    ((den k h.num = 0 → ls.filterMap (stepsOf k) = []) ∧ ∃ h', handleAll k h ls = .ok h' ∧
      h'.ups = h.ups ++ (sums (h.pkg + h.setUp) (ls.filterMap (stepsOf k))).map
        (fun (c : Nat) => (99 * (c : Rat)) / (den k h.num : Rat))) := by
  intro ls
  induction ls with
  | nil => intro h _ _; exact Or.inr ⟨fun _ => rfl, h, rfl, by simp [sums]⟩
  | cons l ls ih =>
    intro h hp hs
    have e : handleLine k h l = processLine k h l := by
      unfold handleLine
      rw [hp]
      simp
    rw [handleAll, e, List.filterMap_cons]
    rcases processLine_steps k h l with ⟨h1, h2⟩ | ⟨c, h1, h2⟩
    · rw [h1, h2]
      exact ih h hp hs
    · rw [h1]
      rcases h2 with ⟨hz, h2⟩ | ⟨hz, h', h2, hn, hpr, hc, hs', hu⟩
      · rw [h2]
        exact Or.inl ⟨hz, by simp, rfl⟩
      · rw [h2]
        simp only
        have hs2 : k ≠ .install → h'.setUp = 0 := fun hk => by rw [hs' hk, hs hk]
        rcases ih h' (hpr.trans hp) hs2 with ⟨hz', -⟩ | ⟨-, h'', he, hu'⟩
        · rw [hn] at hz'; exact absurd hz' hz
        · refine Or.inr ⟨fun h0 => absurd h0 hz, h'', he, ?_⟩
          rw [hu', hu, hn, hc, sums, List.map_cons, List.append_assoc, List.singleton_append, ← hc]
          congr 3
          by_cases hk : k = .install
          · rw [if_pos hk]
          · rw [if_neg hk, hs2 hk]

/-- Before the announcement. -/
theorem handleAll_before (k : Kind) : ∀ (ls : List Str) (h : Handler), h.prepare = true →
    (∀ l ∈ ls, total k l = none) → handleAll k h ls = .ok h := by
  intro ls
  induction ls with
  | nil => intro h _ _; rfl
  | cons l ls ih =>
    intro h hp hl
    rw [handleAll]
    have : handleLine k h l = .ok h := by
      unfold handleLine
      rw [hp, hl l (by simp)]
      simp
    rw [this]
    exact ih h hp (fun m hm => hl m (List.mem_cons_of_mem _ hm))

theorem total_none {k : Kind} {l : Str} (h : ∀ n, ¬ Announces k l n) : total k l = none := by
  cases ht : total k l with
  | none => rfl
  | some n =>
    exfalso
    cases k with
    | base => exact h n ⟨n, pkgsTotal_iff.1 ht, rfl⟩
    | download => exact h n ⟨n, pkgsTotal_iff.1 ht, rfl⟩
    | install => exact h (2 * n) ⟨n, pkgsTotal_iff.1 ht, rfl⟩
    | initrd => exact h n (modulesTotal_iff.1 ht)

theorem total_some {k : Kind} {l : Str} {d : Nat} (h : Announces k l d) :
    ∃ n, total k l = some n ∧ den k n = d := by
  cases k with
  | base => obtain ⟨n, hn, e⟩ := h; exact ⟨n, pkgsTotal_iff.2 hn, e.symm⟩
  | download => obtain ⟨n, hn, e⟩ := h; exact ⟨n, pkgsTotal_iff.2 hn, e.symm⟩
  | install =>
    obtain ⟨n, hn, rfl⟩ := h
    exact ⟨n, pkgsTotal_iff.2 hn, Nat.mul_comm n 2⟩
  | initrd => obtain ⟨n, hn, rfl⟩ := h; exact ⟨_, modulesTotal_iff.2 ⟨n, hn, rfl⟩, rfl⟩

theorem total_iff {k : Kind} {l : Str} : total k l = none ↔ ∀ n, ¬ Announces k l n := by
  constructor
  · intro h n hn
    obtain ⟨m, hm, -⟩ := total_some hn
    rw [h] at hm
    cases hm
  · exact total_none

/-- C86: what a new handler reports, for any pieces of any output.  Let `t` be the first complete
line that announces a number of steps.  If it announces 0 steps and a later line stands for a step,
the handler ends with a division by zero.  Otherwise it reports, after the initial 0, 99 % of the
part of the steps that is done, once for each later line that stands for steps. -/
theorem reports_exact (k : Kind) {pieces : List Str} {a b : List Str} {t rest : Str} {steps : Nat}
    (hc : Cut pieces.flatten (a ++ t :: b) rest) (ha : ∀ l ∈ a, ∀ n, ¬ Announces k l n)
    (ht : Announces k t steps) :
    (steps = 0 ∧ (∃ l ∈ b, ∃ c, stepsOf k l = some c) → writes k {} pieces = .error ()) ∧
    (¬ (steps = 0 ∧ ∃ l ∈ b, ∃ c, stepsOf k l = some c) → ∃ h, writes k {} pieces = .ok h ∧
      h.ups = 0 :: (sums 0 (b.filterMap (stepsOf k))).map fun (c : Nat) => (99 * (c : Rat)) / (steps : Rat)) := by
  obtain ⟨n, hn, hd⟩ := total_some ht
  rw [pieces_irrelevant k {} (by simp), write_lines k {} _ (by simpa using hc), handleAll_append,
    handleAll_before k a {} rfl (fun l hl => total_none (ha l hl))]
  simp only
  rw [handleAll]
  have e : handleLine k {} t = .ok { num := n, prepare := false } := by
    unfold handleLine
    rw [hn]
    rfl
  rw [e]
  simp only
  rw [filterMap_nil_iff]
  rcases handleAll_after k b { num := n, prepare := false } rfl (fun _ => rfl) with
    ⟨h0, h1, h2⟩ | ⟨h1, h', h2, h3⟩
  · rw [h2]
    refine ⟨fun _ => rfl, fun h => absurd ⟨?_, h1⟩ h⟩
    rw [← hd]; exact h0
  · rw [h2]
    refine ⟨fun h => ?_, fun _ => ⟨_, rfl, ?_⟩⟩
    · exact absurd (h1 (by rw [← h.1]; exact hd)) h.2
    · show h'.ups = _
      rw [h3, ← hd]
      rfl

/-- C86: without an announcement nothing but the initial 0 is reported. -/
theorem reports_without_announcement (k : Kind) {pieces : List Str} {ls : List Str} {rest : Str}
    (hc : Cut pieces.flatten ls rest) (ha : ∀ l ∈ ls, ∀ n, ¬ Announces k l n) :
    ∃ h, writes k {} pieces = .ok h ∧ h.ups = [0] := by
  rw [pieces_irrelevant k {} (by simp), write_lines k {} _ (by simpa using hc),
    handleAll_before k ls {} rfl (fun l hl => total_none (ha l hl))]
  exact ⟨_, rfl, rfl⟩

theorem sums_ge {a : Nat} : ∀ {l : List Nat} {c : Nat}, c ∈ sums a l → a ≤ c := by
  intro l
  induction l generalizing a with
  | nil => intro c h; simp [sums] at h
  | cons x l ih =>
    intro c h
    rw [sums, List.mem_cons] at h
    rcases h with rfl | h
    · omega
    · have := ih h; omega

theorem sums_sorted : ∀ (l : List Nat) (a : Nat), (sums a l).Pairwise (· ≤ ·) := by
  intro l
  induction l with
  | nil => intro a; simp [sums]
  | cons x l ih =>
    intro a
    rw [sums, List.pairwise_cons]
    exact ⟨fun c hc => sums_ge hc, ih _⟩

theorem sums_le {a : Nat} : ∀ {l : List Nat} {c : Nat}, c ∈ sums a l → c ≤ a + l.sum := by
  intro l
  induction l generalizing a with
  | nil => intro c h; simp [sums] at h
  | cons x l ih =>
    intro c h
    rw [sums, List.mem_cons] at h
    rw [List.sum_cons]
    rcases h with rfl | h
    · omega
    · have := ih h; omega

theorem inv_nonneg (n : Nat) : (0 : Rat) ≤ (n : Rat)⁻¹ := by
  cases n with
  | zero => simp
  | succ n =>
    apply Rat.le_of_lt
    rw [Rat.inv_pos]
    exact_mod_cast Nat.succ_pos n

theorem part_mono (n : Nat) {a b : Nat} (h : a ≤ b) : (99 * (a : Rat)) / (n : Rat) ≤ 99 * (b : Rat) / (n : Rat) := by
  rw [Rat.div_def, Rat.div_def]
  apply Rat.mul_le_mul_of_nonneg_right _ (inv_nonneg n)
  have : (a : Rat) ≤ b := by exact_mod_cast h
  grind

theorem part_le {n a : Nat} (h : a ≤ n) (hn : n ≠ 0) : (99 * (a : Rat)) / (n : Rat) ≤ 99 := by
  have h1 := part_mono n h
  have h2 : (99 * (n : Rat)) / (n : Rat) = 99 :=
    Rat.mul_div_cancel (by exact_mod_cast hn)
  rw [h2] at h1
  exact h1

/-- C86: the reports of a handler never go back, whatever the output. -/
theorem reports_never_back (k : Kind) {pieces : List Str} {h : Handler}
    (hw : writes k {} pieces = .ok h) : NeverBack h.ups := by
  obtain ⟨ls, rest, hc⟩ := cut_exists pieces.flatten
  have hsplit : (∀ l ∈ ls, ∀ n, ¬ Announces k l n) ∨
      ∃ a t b d, ls = a ++ t :: b ∧ (∀ l ∈ a, ∀ n, ¬ Announces k l n) ∧ Announces k t d := by
    clear hc hw
    induction ls with
    | nil => exact Or.inl (by simp)
    | cons l ls ih =>
      by_cases hl : ∃ n, Announces k l n
      · obtain ⟨n, hn⟩ := hl
        exact Or.inr ⟨[], l, ls, n, rfl, by simp, hn⟩
      · have hl' : ∀ n, ¬ Announces k l n := fun n hn => hl ⟨n, hn⟩
        rcases ih with h | ⟨a, t, b, d, e, h1, h2⟩
        · refine Or.inl ?_
          intro m hm
          rcases List.mem_cons.1 hm with rfl | hm
          · exact hl'
          · exact h m hm
        · refine Or.inr ⟨l :: a, t, b, d, by rw [e]; rfl, ?_, h2⟩
          intro m hm
          rcases List.mem_cons.1 hm with rfl | hm
          · exact hl'
          · exact h1 m hm
  rcases hsplit with h1 | ⟨a, t, b, d, rfl, h1, h2⟩
  · obtain ⟨h', e, hu⟩ := reports_without_announcement k hc h1
    rw [hw] at e
    cases e
    rw [hu]
    exact List.pairwise_singleton _ _
  · have := reports_exact k hc h1 h2
    by_cases hz : d = 0 ∧ ∃ l ∈ b, ∃ c, stepsOf k l = some c
    · rw [this.1 hz] at hw
      cases hw
    · obtain ⟨h', e, hu⟩ := this.2 hz
      rw [hw] at e
      cases e
      rw [hu]
      unfold NeverBack
      rw [List.pairwise_cons]
      constructor
      · intro v hv
        obtain ⟨c, -, rfl⟩ := List.mem_map.1 hv
        have := part_mono d (Nat.zero_le c)
        rw [Rat.div_def] at this
        simpa using this
      · rw [List.pairwise_map]
        exact (sums_sorted _ _).imp (fun hab => part_mono d hab)

/-- C86: with no more steps than announced, no report is above 99. -/
theorem reports_bounded_partial (k : Kind) {pieces : List Str} {a b : List Str} {t rest : Str}
    {steps : Nat} {h : Handler} (hc : Cut pieces.flatten (a ++ t :: b) rest)
    (ha : ∀ l ∈ a, ∀ n, ¬ Announces k l n) (ht : Announces k t steps)
    (hs : (b.filterMap (stepsOf k)).sum ≤ steps) (hw : writes k {} pieces = .ok h) :
    ∀ p ∈ h.ups, 0 ≤ p ∧ p ≤ 99 := by
  have := reports_exact k hc ha ht
  by_cases hz : steps = 0 ∧ ∃ l ∈ b, ∃ c, stepsOf k l = some c
  · rw [this.1 hz] at hw
    cases hw
  · obtain ⟨h', e, hu⟩ := this.2 hz
    rw [hw] at e
    cases e
    rw [hu]
    intro p hp
    rcases List.mem_cons.1 hp with rfl | hp
    · decide +kernel
    · obtain ⟨c, hc, rfl⟩ := List.mem_map.1 hp
      have hle := sums_le hc
      have h0 := part_mono steps (Nat.zero_le c)
      rw [Rat.div_def] at h0
      refine ⟨by simpa using h0, part_le (by omega) ?_⟩
      intro h0
      subst h0
      apply hz
      refine ⟨rfl, filterMap_nil_iff.2 ?_⟩
      intro e
      rw [e] at hc
      simp [sums] at hc

/-- The hypotheses of the theorems above are met by the example. -/
theorem exPieces_cut : Cut exPieces.flatten
    ([] ++ "1 upgraded, 1 newly installed, 0 to remove.\n".toList :: ["Get:1 a\n".toList,
      "Get:2 b\n".toList]) [] ∧
    Announces .download "1 upgraded, 1 newly installed, 0 to remove.\n".toList 2 := by
  refine ⟨⟨by decide +kernel, ?_, by simp⟩, ?_⟩
  · intro l hl
    simp only [List.nil_append, List.mem_cons, List.not_mem_nil, or_false] at hl
    rcases hl with rfl | rfl | rfl
    · exact ⟨"1 upgraded, 1 newly installed, 0 to remove.".toList, by decide, by decide⟩
    · exact ⟨"Get:1 a".toList, by decide, by decide⟩
    · exact ⟨"Get:2 b".toList, by decide, by decide⟩
  · refine ⟨2, ⟨['1'], ['1'], 1, 1, ", 0 to remove.\n".toList, ?_, ?_, rfl, by decide⟩, rfl⟩ <;>
      exact ⟨by simp, by decide, by decide⟩

/-- C86: if apt has nothing to install but downloads something all the same, the handler ends with
ZeroDivisionError, and the task with it. -/
theorem nothing_to_install_crashes :
    writes .download {} ["0 upgraded, 0 newly installed.\nGet:1 http://deb.debian.org\n".toList] =
      .error () := by rfl

/-- C86: more lines than announced packages give more than 100 %. -/
theorem more_than_all : (writes .download {}
    ["0 upgraded, 1 newly installed.\nGet:1 a\nGet:2 a\n".toList]).toOption.map (·.ups) =
      some [0, 99, 198] := by decide +kernel

/-- C86: the handler for the initramfs never fails. -/
theorem initrd_never_fails (pieces : List Str) : ∃ h, writes .initrd {} pieces = .ok h := by
  cases hw : writes .initrd {} pieces with
  | ok h => exact ⟨h, rfl⟩
  | error e =>
    exfalso
    obtain ⟨ls, rest, hc⟩ := cut_exists pieces.flatten
    rw [pieces_irrelevant _ {} (by simp), write_lines _ {} _ (by simpa using hc)] at hw
    have key : ∀ (ls : List Str) (h : Handler), h.setUp = 0 → (h.prepare = false → h.num ≠ 0) →
        ∃ h', handleAll .initrd h ls = .ok h' := by
      intro ls
      induction ls with
      | nil => intro h _ _; exact ⟨h, rfl⟩
      | cons l ls ih =>
        intro h hs hn
        cases hp : h.prepare with
        | false =>
          rcases handleAll_after .initrd (l :: ls) h hp (fun _ => hs) with ⟨h0, -⟩ | ⟨-, h', e, -⟩
          · exact absurd h0 (hn hp)
          · exact ⟨h', e⟩
        | true =>
          rw [handleAll]
          unfold handleLine
          rw [hp]
          simp only [if_true]
          cases ht : total .initrd l with
          | none => exact ih h hs hn
          | some n =>
            obtain ⟨m, -, e⟩ := modulesTotal_iff.1 ht
            exact ih _ hs (fun _ => by simp only; omega)
    obtain ⟨h', e⟩ := key ls {} rfl (by simp)
    rw [e] at hw
    cases hw

example : ∃ h, writes .initrd {} ["Total number of modules: 1\nAdding module a\n".toList] = .ok h ∧
    h.ups = [0, 99] := ⟨_, rfl, by decide +kernel⟩

end Isar.Progress
