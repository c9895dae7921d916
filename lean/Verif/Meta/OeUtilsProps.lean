import Verif.Meta.OeUtilsModel

/-!
C297: the number of parallel jobs is the one in the options for make.
C298: features that are filled in are added unless the distribution has decided about them.
C299: a trimmed version has the first parts of the version.
-/

namespace Isar.Meta.OeUtils

open Py

/-! ### Parallel jobs -/

theorem toInt_dec (n : Nat) : toInt (dec n) = some n := by
  unfold toInt
  rw [if_pos ⟨dec_ne_nil n, List.all_eq_true.mpr fun c hc => dec_digits hc⟩, decVal_dec]

theorem scan_skip : ∀ (pre rest : List Str), (∀ o ∈ pre, startsWith o ['-', 'j'] = false) → scan (pre ++ rest) = scan rest
  | [], _, _ => rfl
  | o :: pre, rest, h => by
    have ho := h o (List.mem_cons_self ..)
    have hne : ¬ o = ['-', 'j'] := fun e => by rw [e] at ho; cases ho
    rw [List.cons_append, scan, if_neg hne, ho, if_neg Bool.false_ne_true]
    exact scan_skip pre rest fun p hp => h p (List.mem_cons_of_mem _ hp)

theorem drop_j (n : Nat) : (['-', 'j'] ++ dec n).drop 2 = dec n := rfl

theorem isDigit_not_ws {c : Char} (h : c.isDigit = true) : isWs c = false := by
  cases hw : isWs c
  · rfl
  · simp only [isWs, Bool.or_eq_true, decide_eq_true_eq] at hw
    rcases hw with ((((((((rfl | rfl) | rfl) | rfl) | rfl) | rfl) | rfl) | rfl) | rfl) | rfl <;>
      exact absurd h (by decide)

theorem dec_isWord (n : Nat) : IsWord (dec n) := ⟨dec_ne_nil n, fun _ hc => isDigit_not_ws (dec_digits hc)⟩

/-- **C297**: the first option -j counts, with its number after a blank or directly, whatever other options there are.
Missing: -j without a number and the long option (`other_forms`). -/
theorem jobs_partial (pre post : List Str) (n : Nat) (hpre : ∀ o ∈ pre, IsWord o ∧ startsWith o "-j".toList = false) (hpost : ∀ o ∈ post, IsWord o) :
    parallelMake (some (join [' '] (pre ++ "-j".toList :: dec n :: post))) = some (some n) ∧
    parallelMake (some (join [' '] (pre ++ ("-j".toList ++ dec n) :: post))) = some (some n) := by
  have hn := dec_isWord n
  have hj : IsWord "-j".toList := ⟨by decide, by decide⟩
  have hjn : IsWord ("-j".toList ++ dec n) := by
    refine ⟨fun h => absurd (List.append_eq_nil_iff.mp h).1 (by decide), fun c hc => ?_⟩
    rcases List.mem_append.mp hc with hc | hc
    · exact hj.2 c hc
    · exact hn.2 c hc
  unfold parallelMake
  rw [Option.getD_some, Option.getD_some, words_join_sp, words_join_sp, scan_skip _ _ fun o ho => (hpre o ho).2, scan_skip _ _ fun o ho => (hpre o ho).2]
  · constructor
    · rw [scan, if_pos (show "-j".toList = ['-', 'j'] from rfl)]
      show (toInt (dec n)).map some = _
      rw [toInt_dec]
      rfl
    · rw [scan]
      have hne : ¬ "-j".toList ++ dec n = ['-', 'j'] := fun h => dec_ne_nil n (List.append_cancel_left (show "-j".toList ++ dec n = "-j".toList ++ [] from h))
      rw [if_neg hne, if_pos (show startsWith ("-j".toList ++ dec n) ['-', 'j'] = true from startsWith_iff.mpr ⟨dec n, rfl⟩)]
      show (toInt (dec n)).map some = _
      rw [toInt_dec]
      rfl
  · intro w hw
    rcases List.mem_append.mp hw with hw | hw
    · exact (hpre w hw).1
    · rcases List.mem_cons.mp hw with hw | hw
      · rw [hw]; exact hjn
      · exact hpost w hw
  · intro w hw
    rcases List.mem_append.mp hw with hw | hw
    · exact (hpre w hw).1
    · rcases List.mem_cons.mp hw with hw | hw
      · rw [hw]; exact hj
      · rcases List.mem_cons.mp hw with hw | hw
        · rw [hw]; exact hn
        · exact hpost w hw

/-- **C297**: options without -j give no number. -/
theorem no_jobs (v : Str) (h : ∀ o ∈ words v, startsWith o "-j".toList = false) : parallelMake (some v) = some none ∧ parallelMake none = some none := by
  refine ⟨?_, rfl⟩
  have := scan_skip (words v) [] h
  rw [List.append_nil] at this
  exact this

/-- **C297**: the argument for another program has the number of jobs, or the limit if it is lower, or is empty when there is no number. -/
theorem limited (v : Option Str) (n l : Nat) (pre post : Str) (hn : 0 < n) (hl : 0 < l) (h : parallelMake v = some (some n)) :
    argument v pre post none = some (pre ++ dec n ++ post) ∧ argument v pre post (some l) = some (pre ++ dec (if l < n then l else n) ++ post) := by
  unfold argument
  rw [h]
  dsimp only
  rw [if_pos (by omega), if_pos (by omega), if_pos (by omega)]
  refine ⟨rfl, ?_⟩
  have : min l n = if l < n then l else n := by
    split <;> omega
  rw [this]

/-- **C297**: without a number the argument is empty. -/
theorem no_argument (v : Option Str) (pre post : Str) (l : Option Nat) (h : parallelMake v = some none) : argument v pre post l = some [] := by
  unfold argument
  rw [h]

/-- **C297 is false of the code**: -j without a number, which make takes as no limit, is an exception or takes the next option for its number, and the long option is not seen. -/
theorem other_forms : parallelMake (some "-j".toList) = none ∧ parallelMake (some "-j -k".toList) = none ∧ parallelMake (some "--jobs=8".toList) = some none := by decide +kernel

example : parallelMake (some "-l 4 -j 10 -k".toList) = some (some 10) ∧ argument (some "-k -j12".toList) "-n ".toList [] (some 8) = some "-n 8".toList := by decide +kernel

/-! ### Features -/

/-- **C298**: all features stay, in their order and first; of those to fill in exactly those are added that are not there and about which the distribution has not decided. -/
theorem backfilled (features backfills considered : Option Str) :
    words ((backfill features backfills considered).getD []) = words (features.getD []) ++ (words (backfills.getD [])).filter (fun f => !(words (features.getD [])).contains f && !(words (considered.getD [])).contains f) := by
  have hfil : (words (backfills.getD [])).filter (fun f => decide (f ∉ words (features.getD [])) && decide (f ∉ words (considered.getD []))) =
      (words (backfills.getD [])).filter (fun f => !(words (features.getD [])).contains f && !(words (considered.getD [])).contains f) := by
    apply List.filter_congr
    intro f _
    rw [List.contains_eq_mem, List.contains_eq_mem, decide_not, decide_not]
  unfold backfill
  dsimp only
  rw [hfil]
  generalize hadd : (words (backfills.getD [])).filter (fun f => !(words (features.getD [])).contains f && !(words (considered.getD [])).contains f) = add
  have hw : ∀ w ∈ add, IsWord w := fun w h => by
    rw [← hadd] at h
    exact words_isWord (List.mem_filter.mp h).1
  by_cases h : add ≠ []
  · rw [if_pos h, Option.getD_some, List.append_assoc]
    have := words_append_ws (features.getD []) (join [' '] add) ' ' (by decide)
    rw [show features.getD [] ++ ([' '] ++ join [' '] add) = features.getD [] ++ ' ' :: join [' '] add from rfl, this, words_join_sp add hw]
  · rw [if_neg h]
    rw [Decidable.not_not.mp h, List.append_nil]

example : backfill (some "a b".toList) (some "b c d".toList) (some "d".toList) = some "a b c".toList := by decide +kernel

/-! ### Versions -/

/-- **C299**: the parts of a trimmed version are the first parts of the version, all if there are no more; less than one part is an error. -/
theorem trimmed (v : Str) (n : Int) : (n < 1 → trim v n = none) ∧ (1 ≤ n → ∃ t, trim v n = some t ∧ splitOn '.' t = (splitOn '.' v).take n.toNat ∧ ((splitOn '.' v).length ≤ n.toNat → t = v)) := by
  unfold trim
  refine ⟨fun h => if_pos h, fun h => ?_⟩
  rw [if_neg (by omega)]
  refine ⟨_, rfl, ?_, fun hl => ?_⟩
  · apply splitOn_join
    · intro he
      have hne : splitOn '.' v ≠ [] := splitOnGo_ne_nil '.' v []
      rcases List.take_eq_nil_iff.mp he with h' | h'
      · omega
      · exact hne h'
    · exact fun w hw => splitOn_pieces (List.mem_of_mem_take hw)
  · rw [List.take_of_length_le hl, join_splitOn]

example : trim "1.2.3".toList 2 = some "1.2".toList ∧ trim "1".toList 2 = some "1".toList := by decide +kernel

end Isar.Meta.OeUtils
