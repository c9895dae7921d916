import Verif.Meta.AutoloadModel

/-!
C265: modules are listed for loading exactly while their package is installed.
C266: the configuration of a package with modules fails if they cannot be registered.
C267: packages for another generator of initial RAM disks are reported.
-/

namespace Isar.Meta.Autoload

open Py

namespace Spec

/-- How often a line is in a text, the lines of which end with line feeds. -/
def times (l text : Str) : Nat := (splitOn '\n' text).count l

/-- All lines of the text are complete. -/
def complete (text : Str) : Prop := text = [] ∨ ∃ t, text = t ++ ['\n']

def isConfigure : Event → Bool
  | .configure _ => true
  | .remove => false

/-- The package is for the other generator, by its name (comment in the class). -/
def foreign (gen p : Str) : Prop :=
  (gen = "initramfs-tools".toList ∧ (startsWith p "dracut".toList = true ∨ endsWith p "dracut".toList = true)) ∨
  (gen = "dracut".toList ∧ (startsWith p "initramfs".toList = true ∨ endsWith p "initramfs".toList = true))

end Spec

theorem run_append (ok : Bool) (ms : List Str) : ∀ (s : Str × Bool),
    run ok s (ms.map .append) = (s.1 ++ ms.flatMap (fun m => m ++ ['\n']), if ms = [] then s.2 else true) := by
  induction ms with
  | nil => intro s; simp [run]
  | cons m ms ih =>
    intro s
    rw [List.map_cons]
    unfold run
    rw [ih]
    simp only [exec, List.flatMap_cons, List.append_assoc, reduceCtorEq, if_false]
    split <;> rfl

theorem step_configure (autoload modules : Str) (ok : Bool) : step autoload modules (.configure ok) =
    (modules ++ (words autoload).flatMap (fun m => m ++ ['\n']), if words autoload = [] then ok else true) := by
  unfold step postinst
  dsimp only
  unfold run
  rw [run_append]
  rfl

theorem split_line {a m : Str} (ha : Spec.complete a) (hm : '\n' ∉ m) (l : Str) (hl : l ≠ []) :
    Spec.times l (a ++ (m ++ ['\n'])) = Spec.times l a + (if m = l then 1 else 0) := by
  unfold Spec.times
  have hone : splitOn '\n' (m ++ ['\n']) = [m, []] := by
    rw [splitOn_append]
    rw [splitOn_clean _ _ hm]
    rfl
  rcases ha with rfl | ⟨t, rfl⟩
  · rw [List.nil_append, hone]
    have : splitOn '\n' ([] : Str) = [[]] := rfl
    rw [this]
    simp only [List.count_cons, List.count_nil, beq_iff_eq, Ne.symm hl, if_false, Nat.add_zero, Nat.zero_add]
  · have e1 : splitOn '\n' (t ++ ['\n'] ++ (m ++ ['\n'])) = splitOn '\n' t ++ [m, []] := by
      rw [List.append_assoc]
      show splitOn '\n' (t ++ '\n' :: (m ++ ['\n'])) = _
      rw [splitOn_append, hone]
    have e2 : splitOn '\n' (t ++ ['\n']) = splitOn '\n' t ++ [[]] := by
      rw [splitOn_append]
      rfl
    rw [e1, e2, List.count_append, List.count_append]
    simp only [List.count_cons, List.count_nil, beq_iff_eq, Ne.symm hl, if_false, Nat.add_zero, Nat.zero_add]

theorem times_lines (l : Str) (hl : l ≠ []) : ∀ (ms : List Str) (a : Str), Spec.complete a → (∀ m ∈ ms, '\n' ∉ m) →
    Spec.complete (a ++ ms.flatMap fun m => m ++ ['\n']) ∧
    Spec.times l (a ++ ms.flatMap fun m => m ++ ['\n']) = Spec.times l a + ms.count l
  | [], a, ha, _ => by simp [ha]
  | m :: ms, a, ha, hm => by
    have hc : Spec.complete (a ++ (m ++ ['\n'])) := Or.inr ⟨a ++ m, by rw [List.append_assoc]⟩
    obtain ⟨h1, h2⟩ := times_lines l hl ms (a ++ (m ++ ['\n'])) hc fun x hx => hm x (by simp [hx])
    rw [List.flatMap_cons, ← List.append_assoc]
    refine ⟨h1, ?_⟩
    rw [h2, split_line ha (hm m (by simp)) l hl, List.count_cons]
    simp only [beq_iff_eq]
    omega

/-! ## C265 -/

/-- How often a module is listed after any history: as often as before, and once more for each time that the package was configured and each time that it is in
AUTOLOAD.  Nothing that was in the file changes.  The hypothesis: the last line of the file is complete. -/
theorem listed (autoload modules : Str) (l : Str) (hl : l ≠ []) : ∀ (es : List Event), Spec.complete modules →
    Spec.times l (history autoload modules es) = Spec.times l modules + (es.filter Spec.isConfigure).length * (words autoload).count l ∧
    ∃ t, history autoload modules es = modules ++ t := by
  intro es hm
  induction es generalizing modules with
  | nil => exact ⟨by simp [history], [], by simp [history]⟩
  | cons e es ih =>
    rcases e with ok | _
    · have hw : ∀ m ∈ words autoload, '\n' ∉ m := by
        intro m hm' hx
        have := (words_isWord hm').2 _ hx
        revert this
        decide
      obtain ⟨h1, h2⟩ := times_lines l hl (words autoload) modules hm hw
      have hs : history autoload modules (.configure ok :: es) = history autoload (modules ++ (words autoload).flatMap fun m => m ++ ['\n']) es := by
        unfold history
        rw [List.foldl_cons, step_configure]
      obtain ⟨i1, t, i2⟩ := ih _ h1
      rw [hs]
      refine ⟨?_, ?_⟩
      · rw [i1, h2]
        have : (List.filter Spec.isConfigure (Event.configure ok :: es)).length = (es.filter Spec.isConfigure).length + 1 := by
          rw [List.filter_cons]; simp [Spec.isConfigure]
        rw [this, Nat.add_mul]
        omega
      · exact ⟨_, by rw [i2, List.append_assoc]⟩
    · have hs : history autoload modules (.remove :: es) = history autoload modules es := rfl
      obtain ⟨i1, i2⟩ := ih modules hm
      rw [hs, i1]
      refine ⟨?_, i2⟩
      rw [List.filter_cons]
      simp [Spec.isConfigure]

/-- A module of AUTOLOAD is listed once the package was configured. -/
theorem autoload_listed_partial (autoload modules l : Str) (es : List Event) (hm : Spec.complete modules) (hl : l ∈ words autoload)
    (he : ∃ e ∈ es, Spec.isConfigure e = true) : 0 < Spec.times l (history autoload modules es) := by
  rw [(listed autoload modules l (words_isWord hl).1 es hm).1]
  obtain ⟨e, h1, h2⟩ := he
  have a : 0 < (es.filter Spec.isConfigure).length := List.length_pos_of_mem (List.mem_filter.mpr ⟨h1, h2⟩)
  have b : 0 < (words autoload).count l := List.count_pos_iff.mpr hl
  have := Nat.mul_pos a b
  omega

/-- A module is listed once more after each upgrade, and still when the package is removed. -/
theorem listed_twice : Spec.times "m".toList (history "m".toList [] [.configure true, .configure true, .remove]) = 2 := by decide +kernel

/-- If the last line of the file is not complete, the module is not listed and what was in this line is not either. -/
theorem line_joined : history "m".toList "loop".toList [.configure true] = "loopm\n".toList ∧
    Spec.times "m".toList (history "m".toList "loop".toList [.configure true]) = 0 ∧
    Spec.times "loop".toList (history "m".toList "loop".toList [.configure true]) = 0 := by decide +kernel

/-! ## C266 -/

/-- Without AUTOLOAD, configuration fails if and only if `depmod` fails. -/
theorem configure_status_partial (autoload modules : Str) (ok : Bool) (h : words autoload = []) : (step autoload modules (.configure ok)).2 = ok := by
  rw [step_configure, if_pos h]

/-- With any module in AUTOLOAD, a failure of `depmod` is never seen. -/
theorem failure_hidden (autoload modules : Str) (h : words autoload ≠ []) : (step autoload modules (.configure false)).2 = true := by
  rw [step_configure, if_neg h]

/-! ## C267 -/

/-- All packages in the list that are for the other generator are reported. -/
theorem foreign_reported (gen packages p : Str) (r : List Str) (h : validate gen packages = some r) (hp : p ∈ words packages)
    (hf : Spec.foreign gen p) : p ∈ r := by
  have hs : ∀ w : Str, (startsWith p w = true ∨ endsWith p w = true) → isSub w p = true := by
    intro w hw
    rw [isSub_iff]
    rcases hw with hw | hw
    · obtain ⟨t, ht⟩ := startsWith_iff.mp hw
      exact ⟨[], t, by rw [ht]; rfl⟩
    · obtain ⟨t, ht⟩ := endsWith_iff.mp hw
      exact ⟨t, [], by rw [ht, List.append_nil]⟩
  unfold validate incompatible at h
  rcases hf with ⟨rfl, hf⟩ | ⟨rfl, hf⟩
  · rw [if_pos rfl] at h
    simp only [List.flatMap_cons, List.flatMap_nil, List.append_nil, Option.some.injEq] at h
    rw [← h]
    exact List.mem_filter.mpr ⟨hp, hs _ hf⟩
  · have hne : ¬ "dracut".toList = "initramfs-tools".toList := by decide +kernel
    rw [if_neg hne, if_pos rfl] at h
    simp only [List.flatMap_cons, List.flatMap_nil, List.append_nil, Option.some.injEq] at h
    rw [← h]
    exact List.mem_filter.mpr ⟨hp, hs _ hf⟩

/-- Only packages with the name of the other generator in theirs are reported. -/
theorem reported_sound_partial (gen packages p : Str) (r : List Str) (h : validate gen packages = some r) (hp : p ∈ r) :
    p ∈ words packages ∧ (isSub "dracut".toList p = true ∨ isSub "initramfs".toList p = true) := by
  unfold validate incompatible at h
  split at h
  · cases h
  · next ids hi =>
    simp only [Option.some.injEq] at h
    rw [← h, List.mem_flatMap] at hp
    obtain ⟨i, h1, h2⟩ := hp
    rw [List.mem_filter] at h2
    refine ⟨h2.1, ?_⟩
    split at hi
    · simp only [Option.some.injEq] at hi
      rw [← hi, List.mem_singleton] at h1
      rw [h1] at h2
      exact Or.inl h2.2
    · split at hi
      · simp only [Option.some.injEq] at hi
        rw [← hi, List.mem_singleton] at h1
        rw [h1] at h2
        exact Or.inr h2.2
      · cases hi

/-- For a generator other than these two there is an exception, whatever the packages are; a package with the word inside its name is reported too. -/
theorem other_generator (packages : Str) : validate "tiny-initramfs".toList packages = none ∧
    validate "dracut".toList "my-initramfs-free-tool".toList = some ["my-initramfs-free-tool".toList] ∧
    ¬ Spec.foreign "dracut".toList "my-initramfs-free-tool".toList := by
  refine ⟨?_, by decide +kernel, ?_⟩
  · have : incompatible "tiny-initramfs".toList = none := by decide +kernel
    unfold validate
    rw [this]
  · unfold Spec.foreign
    decide +kernel

/-! ## Examples -/

example : history "a b".toList "loop\n".toList [.configure true] = "loop\na\nb\n".toList ∧ Spec.complete "loop\n".toList :=
  ⟨by decide +kernel, Or.inr ⟨"loop".toList, by decide +kernel⟩⟩

example : validate "dracut".toList "dracut cryptsetup-initramfs systemd".toList = some ["cryptsetup-initramfs".toList] ∧
    Spec.foreign "dracut".toList "cryptsetup-initramfs".toList := by
  refine ⟨by decide +kernel, Or.inr ⟨rfl, Or.inr (by decide +kernel)⟩⟩

end Isar.Meta.Autoload
