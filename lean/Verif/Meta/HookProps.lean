import Verif.Meta.HookModel

/-!
C262: the hook and the scripts of a recipe are in its package.
C263: packages with hooks can be installed together.
-/

namespace Isar.Meta.Hook

open Py

namespace Spec

/-- The directories that initramfs-tools has for scripts (initramfs-tools(7)). -/
def directories : List Str :=
  ["init-top".toList, "init-premount".toList, "local-top".toList, "nfs-top".toList, "local-block".toList, "local-premount".toList,
   "nfs-premount".toList, "local-bottom".toList, "nfs-bottom".toList, "init-bottom".toList, "panic".toList]

/-- The file `f` of the recipe is code for the initial RAM disk: the hook, a script or a complete script. -/
def isCode (f : Str) : Prop := f = "hook".toList ∨ f ∈ directories ∨ ∃ s ∈ directories, f = complete s

/-- The recipe has something for a hook. -/
def hasHook (r : Recipe) : Prop := r.work "hook".toList ≠ none ∨ r.copyExecs ≠ [] ∨ r.addModules ≠ []

end Spec

theorem hook_mem (r : Recipe) (x : Place × Str) : x ∈ hookFile r ↔
    Spec.hasHook r ∧ x = ((none, hookName r.bpn), r.hookHeader ++ (r.work "hook".toList).getD "exit 0\n".toList) := by
  unfold hookFile Spec.hasHook
  rcases h : r.work "hook".toList with _ | t
  · simp only [Option.isSome_none, Bool.false_eq_true, false_or, ne_eq, not_true, Option.getD_none]
    split
    · next h => simp [h]
    · next h => simp [h]
  · simp

theorem script_mem (r : Recipe) (s : Str) (x : Place × Str) : x ∈ scriptFile r s ↔
    (∃ t, r.work s = some t ∧ x = ((some s, hookName r.bpn), r.scriptHeader ++ t)) ∨
    (r.work s = none ∧ ∃ t, r.work (complete s) = some t ∧ x = ((some s, hookName r.bpn), t)) := by
  unfold scriptFile
  rcases h : r.work s with _ | t
  · rcases h' : r.work (complete s) with _ | t <;> simp
  · simp

/-- What is in the package: the hook with its header; for each point the script with its header, or the complete script if there is no other. -/
theorem installed_iff (r : Recipe) (x : Place × Str) : x ∈ install r ↔
    (Spec.hasHook r ∧ x = ((none, hookName r.bpn), r.hookHeader ++ (r.work "hook".toList).getD "exit 0\n".toList)) ∨
    ∃ s ∈ points, (∃ t, r.work s = some t ∧ x = ((some s, hookName r.bpn), r.scriptHeader ++ t)) ∨
      (r.work s = none ∧ ∃ t, r.work (complete s) = some t ∧ x = ((some s, hookName r.bpn), t)) := by
  unfold install
  rw [List.mem_append, hook_mem, List.mem_flatMap]
  simp only [script_mem]

/-- No file of the package is written for two of the recipe. -/
theorem installed_unique (r : Recipe) (p : Place) (a b : Str) (ha : (p, a) ∈ install r) (hb : (p, b) ∈ install r) : a = b := by
  rw [installed_iff] at ha hb
  rcases ha with ⟨-, ha⟩ | ⟨s, -, ha⟩ <;> rcases hb with ⟨-, hb⟩ | ⟨s', -, hb⟩
  · simp only [Prod.mk.injEq] at ha hb
    rw [ha.2, hb.2]
  · exfalso
    rcases hb with ⟨t, -, hb⟩ | ⟨-, t, -, hb⟩ <;> simp_all
  · exfalso
    rcases ha with ⟨t, -, ha⟩ | ⟨-, t, -, ha⟩ <;> simp_all
  · have es : s = s' := by
      rcases ha with ⟨t, -, ha⟩ | ⟨-, t, -, ha⟩ <;> rcases hb with ⟨t', -, hb⟩ | ⟨-, t', -, hb⟩ <;>
        simp only [Prod.mk.injEq] at ha hb <;> exact Option.some.inj (congrArg Prod.fst (ha.1.symm.trans hb.1))
    subst es
    rcases ha with ⟨t, h1, ha⟩ | ⟨h1, t, h2, ha⟩ <;> rcases hb with ⟨t', h3, hb⟩ | ⟨h3, t', h4, hb⟩ <;> simp_all

/-! ## C262 -/

/-- All code of a recipe is at the end of a file of the package, if there is no script for `panic` and for no point both kinds of script. -/
theorem code_installed_partial (r : Recipe) (h1 : r.work "panic".toList = none ∧ r.work (complete "panic".toList) = none)
    (h2 : ∀ s ∈ points, r.work s = none ∨ r.work (complete s) = none) (f t : Str) (hf : Spec.isCode f) (ht : r.work f = some t) :
    ∃ p h, (p, h ++ t) ∈ install r := by
  have hdir : ∀ s ∈ Spec.directories, s ∈ points ++ ["panic".toList] := by decide +kernel
  unfold Spec.isCode at hf
  rcases hf with rfl | hf | ⟨s, hs, rfl⟩
  · refine ⟨(none, hookName r.bpn), r.hookHeader, ?_⟩
    rw [installed_iff]
    left
    refine ⟨Or.inl (by rw [ht]; simp), by rw [ht]; rfl⟩
  · rcases List.mem_append.mp (hdir _ hf) with hf | hf
    · refine ⟨(some f, hookName r.bpn), r.scriptHeader, ?_⟩
      rw [installed_iff]
      exact Or.inr ⟨f, hf, Or.inl ⟨t, ht, rfl⟩⟩
    · rw [List.mem_singleton.mp hf, h1.1] at ht
      cases ht
  · rcases List.mem_append.mp (hdir _ hs) with hs | hs
    · refine ⟨(some s, hookName r.bpn), [], ?_⟩
      rw [installed_iff]
      rcases h2 s hs with h | h
      · exact Or.inr ⟨s, hs, Or.inr ⟨h, t, ht, rfl⟩⟩
      · rw [h] at ht; cases ht
    · rw [List.mem_singleton.mp hs, h1.2] at ht
      cases ht

/-- a recipe with the files of the list -/
def recipe (bpn : Str) (fs : List (Str × Str)) : Recipe := ⟨bpn, fun n => fs.lookup n, [], [], "H".toList, "S".toList⟩

/-- A script for `panic` is left out without an error. -/
theorem panic_lost : install (recipe "x".toList [("panic".toList, "p".toList)]) = [] ∧ Spec.isCode "panic".toList := by
  refine ⟨by decide +kernel, Or.inr (Or.inl (by decide +kernel))⟩

/-- If there is a script and a complete script for one point, the second is left out without an error. -/
theorem complete_lost : install (recipe "x".toList [("init-top".toList, "a".toList), ("init-top-complete".toList, "b".toList)]) =
      [((some "init-top".toList, "x".toList), "Sa".toList)] ∧ Spec.isCode "init-top-complete".toList := by
  refine ⟨by decide +kernel, Or.inr (Or.inr ⟨"init-top".toList, by decide +kernel, by decide +kernel⟩)⟩

/-! ## C263 -/

theorem place_name (r : Recipe) (p : Place) (t : Str) (h : (p, t) ∈ install r) : p.2 = hookName r.bpn := by
  rw [installed_iff] at h
  rcases h with ⟨-, h⟩ | ⟨s, -, ⟨u, -, h⟩ | ⟨-, u, -, h⟩⟩ <;> simp only [Prod.mk.injEq] at h <;> rw [h.1]

/-- The name of a hook is the name of the recipe without the two words around it. -/
theorem hookName_full (n : Str) : hookName ("initramfs-".toList ++ (n ++ "-hook".toList)) = n := by
  have h1 : startsWith ("initramfs-".toList ++ (n ++ "-hook".toList)) "initramfs-".toList = true := startsWith_iff.mpr ⟨_, rfl⟩
  have hl : "initramfs-".toList.length = 10 := by decide +kernel
  have hl' : "-hook".toList.length = 5 := by decide +kernel
  have h2 : ("initramfs-".toList ++ (n ++ "-hook".toList)).drop 10 = n ++ "-hook".toList := by
    rw [← hl]; exact List.drop_left
  have h3 : endsWith (n ++ "-hook".toList) "-hook".toList = true := endsWith_iff.mpr ⟨_, rfl⟩
  unfold hookName
  dsimp only
  rw [if_pos h1, h2, if_pos h3, List.length_append, hl', Nat.add_sub_cancel]
  exact List.take_left

theorem hookName_plain (n : Str) (h1 : startsWith n "initramfs-".toList = false) (h2 : endsWith n "-hook".toList = false) : hookName n = n := by
  unfold hookName
  dsimp only
  simp only [h1, h2, Bool.false_eq_true, if_false]

/-- Different recipes with names of the usual form have no file in common. -/
theorem no_clash_partial (r q : Recipe) (a b : Str) (hr : r.bpn = "initramfs-".toList ++ (a ++ "-hook".toList))
    (hq : q.bpn = "initramfs-".toList ++ (b ++ "-hook".toList)) (hne : r.bpn ≠ q.bpn) (p : Place) (t u : Str) (h1 : (p, t) ∈ install r)
    (h2 : (p, u) ∈ install q) : False := by
  have e1 := place_name r p t h1
  have e2 := place_name q p u h2
  rw [hr, hookName_full] at e1
  rw [hq, hookName_full] at e2
  exact hne (by rw [hr, hq, ← e1, ← e2])

/-- Recipes whose names differ only by these words install the same file, so that the second package cannot be installed. -/
theorem clash : hookName "initramfs-x-hook".toList = hookName "x".toList ∧ hookName "initramfs-x".toList = hookName "x-hook".toList ∧
    ∃ p t u, (p, t) ∈ install (recipe "initramfs-x-hook".toList [("hook".toList, "a".toList)]) ∧
      (p, u) ∈ install (recipe "x-hook".toList [("hook".toList, "b".toList)]) := by
  refine ⟨by decide +kernel, by decide +kernel, (none, "x".toList), "Ha".toList, "Hb".toList, by decide +kernel, by decide +kernel⟩

/-! ## Examples -/

example : install (recipe "initramfs-x-hook".toList [("hook".toList, "a".toList), ("nfs-top-complete".toList, "c".toList), ("init-top".toList, "b".toList)]) =
    [((none, "x".toList), "Ha".toList), ((some "init-top".toList, "x".toList), "Sb".toList), ((some "nfs-top".toList, "x".toList), "c".toList)] := by
  decide +kernel

example : hookName "initramfs-hook".toList = "hook".toList := by decide +kernel

/-- the hypotheses of `code_installed_partial` -/
example : ∀ s ∈ points, (recipe "x".toList [("init-top".toList, "b".toList), ("nfs-top-complete".toList, "c".toList)]).work s = none ∨
    (recipe "x".toList [("init-top".toList, "b".toList), ("nfs-top-complete".toList, "c".toList)]).work (complete s) = none := by decide +kernel

end Isar.Meta.Hook
