import Verif.Meta.CrossModel
/-!
# Properties of where a package is built
-/

namespace Meta.Cross

open Py

namespace Spec

/-- The chroots that can be made. -/
def chroots (c : Conf) : List Chroot := [hostChroot c, targetChroot c]

/-- The chroot in which the package is built: it is at the directory that is used, and the task that is waited for makes it. -/
def BuiltIn (c : Conf) (pkg : Str) (ch : Chroot) : Prop :=
  ch ∈ chroots c ∧ (vars c pkg).dir = ch.dir ∧ (vars c pkg).dep = ch.recipe ++ ":do_build".toList

/-- There is a compiler for an architecture in the chroot. -/
def Compiles (ch : Chroot) (arch : Str) : Prop :=
  (arch = ch.arch ∧ "build-essential".toList ∈ ch.packages) ∨ "crossbuild-essential-".toList ++ arch ∈ ch.packages

/-- The architectures of packages: that of the target, of the host, the compatible one if it is enabled, `all`, and what is built on. -/
def Arch (c : Conf) (pkg : Str) : Prop :=
  pkg = c.distro ∨ pkg = c.host ∨ (c.compat = some pkg ∧ c.compatOn = true) ∨ pkg = "all".toList ∨ pkg = "${BUILD_ARCH}".toList

end Spec

theorem vars_host {c : Conf} {pkg : Str} (h : onHost c pkg = true) : vars c pkg =
    ⟨c.host, (hostChroot c).dir, (hostChroot c).recipe ++ ":do_build".toList,
      ("crossbuild-essential-".toList ++ c.distro) :: compatToolchain c⟩ := if_pos h

theorem vars_target {c : Conf} {pkg : Str} (h : ¬ onHost c pkg = true) : vars c pkg =
    ⟨c.distro, (targetChroot c).dir, (targetChroot c).recipe ++ ":do_build".toList, "build-essential".toList :: compatToolchain c⟩ :=
  if_neg h

theorem host_mem (c : Conf) : hostChroot c ∈ Spec.chroots c := List.mem_cons_self ..

theorem target_mem (c : Conf) : targetChroot c ∈ Spec.chroots c := List.mem_cons_of_mem _ (List.mem_cons_self ..)

theorem builtIn_host {c : Conf} {pkg : Str} (h : onHost c pkg = true) : Spec.BuiltIn c pkg (hostChroot c) :=
  ⟨host_mem c, by rw [vars_host h], by rw [vars_host h]⟩

theorem builtIn_target {c : Conf} {pkg : Str} (h : ¬ onHost c pkg = true) : Spec.BuiltIn c pkg (targetChroot c) :=
  ⟨target_mem c, by rw [vars_target h], by rw [vars_target h]⟩

theorem arch_host {c : Conf} {pkg : Str} (h : onHost c pkg = true) : (vars c pkg).arch = c.host := by rw [vars_host h]

theorem arch_target {c : Conf} {pkg : Str} (h : ¬ onHost c pkg = true) : (vars c pkg).arch = c.distro := by rw [vars_target h]

/-- C233. Each package is built in one of the chroots, the task it waits for makes that one, and it is of the architecture that the build
is told. -/
theorem chroot_right (c : Conf) (pkg : Str) : ∃ ch, Spec.BuiltIn c pkg ch ∧ (vars c pkg).arch = ch.arch := by
  by_cases h : onHost c pkg = true
  · exact ⟨hostChroot c, builtIn_host h, arch_host h⟩
  · exact ⟨targetChroot c, builtIn_target h, arch_target h⟩

/-- C233. Only one chroot comes into question: the names of their recipes differ. -/
theorem chroot_unique (c : Conf) (pkg : Str) (a b : Chroot) (ha : Spec.BuiltIn c pkg a) (hb : Spec.BuiltIn c pkg b) : a = b := by
  have hne : ∀ x y : Str, "sbuild-chroot-host".toList ++ x ≠ "sbuild-chroot-target".toList ++ y := by
    intro x y h
    have : ("sbuild-chroot-host".toList ++ x).take 18 = ("sbuild-chroot-target".toList ++ y).take 18 := by rw [h]
    rw [List.take_append_of_le_length (by decide), List.take_append_of_le_length (by decide)] at this
    exact absurd this (by decide)
  have key : ∀ ch, Spec.BuiltIn c pkg ch → ch.recipe ++ ":do_build".toList = (vars c pkg).dep := fun ch h => h.2.2.symm
  have hr : a.recipe = b.recipe := List.append_cancel_right ((key a ha).trans (key b hb).symm)
  have ha' := ha.1
  have hb' := hb.1
  simp only [Spec.chroots, List.mem_cons, List.not_mem_nil, or_false] at ha' hb'
  rcases ha' with rfl | rfl <;> rcases hb' with rfl | rfl
  · rfl
  · exact absurd hr (hne _ _)
  · exact absurd hr.symm (hne _ _)
  · rfl

/-- C234. The chroot in which a package is built has a compiler for the package, unless it is for all architectures. -/
theorem compiler_there (c : Conf) (pkg : Str) (ha : Spec.Arch c pkg) (ch : Chroot) (h : Spec.BuiltIn c pkg ch) :
    Spec.Compiles ch (packageArch c pkg) ∨ packageArch c pkg = "all".toList := by
  obtain ⟨ch', h1, h2⟩ := chroot_right c pkg
  have : ch = ch' := chroot_unique c pkg ch ch' h h1
  subst this
  have hb : ∀ ch ∈ Spec.chroots c, "build-essential".toList ∈ ch.packages := by
    intro ch hc
    simp only [Spec.chroots, List.mem_cons, List.not_mem_nil, or_false] at hc
    rcases hc with rfl | rfl
    · exact List.mem_append_left _ (List.mem_append_right _ (List.mem_cons_self ..))
    · exact List.mem_append_right _ (List.mem_cons_self ..)
  have hc : ∀ ch ∈ Spec.chroots c, ∀ a, c.compat = some a → c.compatOn = true → "crossbuild-essential-".toList ++ a ∈ ch.packages := by
    intro ch hc a h3 h4
    simp only [Spec.chroots, List.mem_cons, List.not_mem_nil, or_false] at hc
    have hm : "crossbuild-essential-".toList ++ a ∈ common c := by
      unfold common
      rw [if_pos h4, h3]
      exact List.mem_append_left _ (List.mem_cons_self ..)
    rcases hc with rfl | rfl
    · exact List.mem_append_left _ hm
    · exact hm
  unfold packageArch
  by_cases hp : pkg = buildArchRef
  · rw [if_pos hp]
    exact Or.inl (Or.inl ⟨h2, hb _ h.1⟩)
  · rw [if_neg hp]
    rcases ha with ha | ha | ha | ha | ha
    · left
      by_cases ho : onHost c pkg = true
      · right
        have : ch = hostChroot c := chroot_unique c pkg _ _ h (builtIn_host ho)
        rw [this, ha]
        exact List.mem_append_right _ (List.mem_singleton.mpr rfl)
      · left
        refine ⟨?_, hb _ h.1⟩
        rw [← h2, arch_target ho, ha]
    · left
      left
      refine ⟨?_, hb _ h.1⟩
      rw [← h2, ha]
      by_cases ho : onHost c c.host = true
      · rw [arch_host ho]
      · rw [arch_target ho]
        by_cases hd : c.distro = c.host
        · exact hd.symm
        · exact absurd (by simp [onHost, hd]) ho
    · exact Or.inl (Or.inr (hc _ h.1 pkg ha.1 ha.2))
    · exact Or.inr ha
    · exact absurd ha hp

/-- C234. With cross compilation, packages for the target, or for what is compatible with it, are built on the architecture of the host. -/
theorem cross_on_host (c : Conf) (pkg : Str) (h : c.cross = true) (hp : pkg = c.distro ∨ c.compat = some pkg) :
    (vars c pkg).arch = c.host := by
  by_cases ho : onHost c pkg = true
  · exact arch_host ho
  · rw [arch_target ho]
    by_cases hd : c.distro = c.host
    · exact hd
    · refine absurd ?_ ho
      rcases hp with hp | hp <;> simp [onHost, hd, h, hp]

/-- C234. Without cross compilation, they are built on the architecture of the target, if they are not for the host. -/
theorem native_on_target (c : Conf) (pkg : Str) (h : c.cross = false) (hp : pkg ≠ c.host) : (vars c pkg).arch = c.distro := by
  exact arch_target (by simp [onHost, h, hp])

/-- C234. The profile for cross building is given exactly if the architecture of the package is not that of the chroot. -/
theorem profile_iff (c : Conf) (pkg : Str) (ch : Chroot) (h : Spec.BuiltIn c pkg ch) :
    crossProfile c pkg = true ↔ packageArch c pkg ≠ ch.arch := by
  obtain ⟨ch', h1, h2⟩ := chroot_right c pkg
  have : ch = ch' := chroot_unique c pkg ch ch' h h1
  subst this
  unfold crossProfile
  rw [h2, decide_eq_true_iff]
  exact ⟨fun h e => h e.symm, fun h e => h e.symm⟩

/-- An example: arm64 on amd64, with armhf as the compatible architecture. -/
def ex : Conf :=
  ⟨"arm64".toList, "amd64".toList, some "armhf".toList, true, true, "clang".toList, "/d/schroot-host/x".toList, "/d/schroot-target/y".toList⟩

example : Spec.Arch ex "armhf".toList ∧ (vars ex "armhf".toList).dep = "sbuild-chroot-host-clang:do_build".toList ∧
    crossProfile ex "armhf".toList = true := ⟨Or.inr (Or.inr (Or.inl ⟨rfl, rfl⟩)), by decide, by decide⟩

/-- The compatible architecture must be enabled: without that there is no compiler for it, although its packages are built in the same
chroot. -/
theorem compat_disabled : ∃ c ch, Spec.BuiltIn c "armhf".toList ch ∧ c.compat = some "armhf".toList ∧
    ¬ Spec.Compiles ch (packageArch c "armhf".toList) := by
  refine ⟨{ ex with compatOn := false }, hostChroot { ex with compatOn := false }, ⟨host_mem _, by decide, by decide⟩, rfl, ?_⟩
  unfold Spec.Compiles
  decide

end Meta.Cross
