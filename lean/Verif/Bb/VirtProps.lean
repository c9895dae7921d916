import Verif.Bb.VirtModel
import Verif.Bb.ConfLemmas
/-!
# The names of variants mean one thing
-/

namespace Bb.Virt
open Py

theorem hasMc_iff {s : Str} : hasMc s = true ↔ ∃ m r, s = "mc:".toList ++ m ++ ':' :: r ∧ ':' ∉ m := by
  unfold hasMc
  rw [Bool.and_eq_true, decide_eq_true_eq, startsWith_iff]
  constructor
  · rintro ⟨⟨t, rfl⟩, h⟩
    have h1 : 1 ≤ t.count ':' := by
      rw [List.count_append] at h
      have : List.count ':' "mc:".toList = 1 := by decide
      omega
    have hm : ':' ∈ t := List.count_pos_iff.1 h1
    obtain ⟨a, b, e, hn⟩ := List.eq_append_cons_of_mem hm
    exact ⟨a, b, by rw [e, List.append_assoc], hn⟩
  · rintro ⟨m, r, rfl, hm⟩
    refine ⟨⟨m ++ ':' :: r, List.append_assoc ..⟩, ?_⟩
    rw [List.count_append, List.count_append, List.count_cons_self]
    have : List.count ':' "mc:".toList = 1 := by decide
    omega

theorem takeWhile_cut {m r : Str} (h : ':' ∉ m) : (m ++ ':' :: r).takeWhile (· != ':') = m ∧ (m ++ ':' :: r).dropWhile (· != ':') = ':' :: r := by
  induction m with
  | nil => exact ⟨rfl, rfl⟩
  | cons c m ih =>
    have hc : (c != ':') = true := bne_iff_ne.2 fun e => h (e ▸ List.mem_cons_self)
    have ih := ih fun hm => h (List.mem_cons_of_mem _ hm)
    rw [List.cons_append, List.takeWhile_cons, List.dropWhile_cons, if_pos hc, if_pos hc, ih.1]
    exact ⟨rfl, ih.2⟩

theorem toReal_mc {m r : Str} (h : ':' ∉ m) : toReal ("mc:".toList ++ m ++ ':' :: r) = ((unvirtual r).1, (unvirtual r).2, m) := by
  unfold toReal
  rw [if_pos (hasMc_iff.2 ⟨m, r, rfl, h⟩)]
  have e : ("mc:".toList ++ m ++ ':' :: r).drop 3 = m ++ ':' :: r := by
    rw [List.append_assoc]; rfl
  dsimp only
  rw [e, (takeWhile_cut h).1, (takeWhile_cut h).2]
  rfl

theorem toReal_plain {s : Str} (h : hasMc s = false) : toReal s = ((unvirtual s).1, (unvirtual s).2, []) := by
  unfold toReal
  rw [if_neg (by rw [h]; exact nofun)]

theorem unvirtual_plain {f : Str} (h : ¬ ∃ t, f = "virtual:".toList ++ t) : unvirtual f = (f, []) := by
  unfold unvirtual
  rw [if_neg fun hs => h (startsWith_iff.1 hs)]

theorem unvirtual_class {c f : Str} (h : ':' ∉ f) : unvirtual ("virtual:".toList ++ c ++ [':'] ++ f) = (f, c) := by
  unfold unvirtual
  rw [if_pos (startsWith_iff.2 ⟨c ++ [':'] ++ f, by rw [List.append_assoc, List.append_assoc, List.append_assoc]⟩)]
  have e : splitOn ':' ("virtual:".toList ++ c ++ [':'] ++ f) = ["virtual".toList] ++ (splitOn ':' c ++ [f]) := by
    have h1 : "virtual:".toList ++ c ++ [':'] ++ f = "virtual".toList ++ ':' :: (c ++ ':' :: f) := by
      rw [List.append_assoc, List.append_assoc]; rfl
    rw [h1, splitOn_append, splitOn_append, splitOn_clean ':' f h, splitOn_clean ':' "virtual".toList (by decide)]
  dsimp only
  rw [e]
  have h2 : (["virtual".toList] ++ (splitOn ':' c ++ [f])).drop 1 = splitOn ':' c ++ [f] := rfl
  rw [h2, List.dropLast_concat, join_splitOn, ← List.append_assoc, List.getLastD_concat]

/-- C145: the name of a variant gives the file, the class and the configuration back, for every class, also one with
parameters.  The name of the file must have no colon. -/
theorem roundtrip {f c m : Str} (hf : ':' ∉ f) (hm : ':' ∉ m) : toReal (toVirtual f c m) = (f, c, m) := by
  have hu : unvirtual (if c = [] then f else "virtual:".toList ++ c ++ [':'] ++ f) = (f, c) := by
    split
    · rename_i hc
      rw [hc]
      refine unvirtual_plain ?_
      rintro ⟨t, rfl⟩
      exact hf (List.mem_append_left _ (by decide))
    · exact unvirtual_class hf
  unfold toVirtual
  dsimp only
  by_cases hm0 : m = []
  · rw [if_pos hm0, toReal_plain, hu, hm0]
    rw [Bool.eq_false_iff]
    intro hx
    obtain ⟨a, r, e, -⟩ := hasMc_iff.1 hx
    split at e
    · rw [e] at hf
      exact hf (List.mem_append_right _ List.mem_cons_self)
    · have : (some 'v') = some 'm' := congrArg List.head? e
      exact absurd this (by decide)
  · rw [if_neg hm0, List.append_assoc ("mc:".toList ++ m)]
    rw [List.singleton_append, toReal_mc hm, hu]

/-- C145: the same for a recipe itself, whose file may have colons in its name, if this is an absolute path. -/
theorem roundtrip_path {f m : Str} (hf : ∃ t, f = '/' :: t) (hm : ':' ∉ m) : toReal (toVirtual f [] m) = (f, [], m) := by
  obtain ⟨t, rfl⟩ := hf
  have hu : unvirtual ('/' :: t) = ('/' :: t, []) := by
    refine unvirtual_plain ?_
    rintro ⟨x, e⟩
    exact absurd (show some '/' = some 'v' from congrArg List.head? e) (by decide)
  unfold toVirtual
  rw [if_pos rfl]
  dsimp only
  by_cases hm0 : m = []
  · rw [if_pos hm0, toReal_plain, hu, hm0]
    rw [Bool.eq_false_iff]
    intro hx
    obtain ⟨a, r, e, -⟩ := hasMc_iff.1 hx
    exact absurd (show some '/' = some 'm' from congrArg List.head? e) (by decide)
  · rw [if_neg hm0, List.append_assoc ("mc:".toList ++ m), List.singleton_append, toReal_mc hm, hu]

/-- C145: different variants have different names. -/
theorem names_differ {f c m f' c' m' : Str} (hf : ':' ∉ f) (hm : ':' ∉ m) (hf' : ':' ∉ f') (hm' : ':' ∉ m')
    (h : toVirtual f c m = toVirtual f' c' m') : f = f' ∧ c = c' ∧ m = m' := by
  have h1 := roundtrip (c := c) hf hm
  rw [h, roundtrip hf' hm'] at h1
  injection h1 with h1 h2
  injection h2 with h2 h3
  exact ⟨h1.symm, h2.symm, h3.symm⟩

theorem splitOn_cons_colon (m r : Str) (hm : ':' ∉ m) : splitOn ':' ("mc:".toList ++ m ++ ':' :: r) = ["mc".toList, m] ++ splitOn ':' r := by
  have h1 : "mc:".toList ++ m ++ ':' :: r = "mc".toList ++ ':' :: (m ++ ':' :: r) := by
    rw [List.append_assoc]; rfl
  rw [h1, splitOn_append, splitOn_append, splitOn_clean ':' m hm, splitOn_clean ':' "mc".toList (by decide)]
  rfl

theorem splitOn_head {r : Str} (h : (splitOn ':' r).getD 0 [] = []) : r = [] ∨ ∃ t, r = ':' :: t := by
  cases r with
  | nil => exact Or.inl rfl
  | cons c t =>
    by_cases hc : c = ':'
    · exact Or.inr ⟨t, by rw [hc]⟩
    · exfalso
      by_cases hm : ':' ∈ c :: t
      · obtain ⟨a, b, e, hn⟩ := List.eq_append_cons_of_mem hm
        rw [e, splitOn_append, splitOn_clean ':' a hn] at h
        have h : a = [] := h
        rw [h] at e
        injection e with e1 e2
        exact hc e1
      · rw [splitOn_clean ':' _ hm] at h
        exact absurd h (by simp)

/-- C145: a variant is named by its class and its configuration. -/
theorem variant_name {f v : Str} : (hasMc v = false → ofVariant f v = toVirtual f v []) ∧
    (∀ m c, ':' ∉ m → m ≠ [] → (∀ t, c ≠ ':' :: t) → v = "mc:".toList ++ m ++ ':' :: c → ofVariant f v = toVirtual f c m) := by
  constructor
  · intro h
    unfold ofVariant toVirtual
    rw [if_pos rfl]
    by_cases hv : v = []
    · rw [if_pos hv, if_pos hv]
    · rw [if_neg hv, if_neg (by rw [h]; exact nofun), if_neg hv]
  · rintro m c hm hm0 hc rfl
    unfold ofVariant
    rw [if_neg (by simp), if_pos (hasMc_iff.2 ⟨m, c, rfl, hm⟩)]
    dsimp only
    rw [splitOn_cons_colon m c hm]
    have e1 : (["mc".toList, m] ++ splitOn ':' c).getD 1 [] = m := rfl
    have e2 : (["mc".toList, m] ++ splitOn ':' c).getD 2 [] = (splitOn ':' c).getD 0 [] := rfl
    have e3 : (["mc".toList, m] ++ splitOn ':' c).drop 2 = splitOn ':' c := rfl
    rw [e1, e2, e3, join_splitOn]
    unfold toVirtual
    dsimp only
    rw [if_neg hm0]
    by_cases hc0 : c = []
    · subst hc0
      rw [if_neg (by decide), if_pos rfl]
    · rw [if_pos, if_neg hc0]
      · have e4 : ":virtual:".toList = [':'] ++ "virtual:".toList := rfl
        rw [e4]
        simp only [List.append_assoc]
      · intro h
        rcases splitOn_head h with h | ⟨t, h⟩
        · exact hc0 h
        · exact hc t h

example : toReal "mc:qemuamd64:virtual:compat:/w/hello_1.0.bb".toList = ("/w/hello_1.0.bb".toList, "compat".toList, "qemuamd64".toList) := by decide
example : toVirtual "/w/hello_1.0.bb".toList "compat".toList "qemuamd64".toList = "mc:qemuamd64:virtual:compat:/w/hello_1.0.bb".toList := by decide
example : toReal "virtual:multilib:lib32:/w/hello_1.0.bb".toList = ("/w/hello_1.0.bb".toList, "multilib:lib32".toList, []) := by decide

/-- Against C145: with a colon in the path, the file of a variant is lost. -/
theorem colon_lost : toReal (toVirtual "/w:1/hello_1.0.bb".toList "compat".toList []) = ("1/hello_1.0.bb".toList, "compat:/w".toList, []) := by
  decide

end Bb.Virt
