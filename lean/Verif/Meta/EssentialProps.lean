import Verif.Meta.EssentialModel
/-!
# Properties of the packages that must be rebuilt before all others
-/

namespace Meta.Essential
open Py

namespace Spec

/-- What the comment in the class says: the packages of the list but for those that cannot or need not be built, with the variants that can. -/
def meant (c : Conf) (pkgs : List Str) (q : Str) : Prop :=
  ∃ p ∈ pkgs, (q = p ∧ (endsWith p sCompat = true → c.compat = true) ∧ (endsWith p sNative = true → c.native = true)) ∨
    (endsWith p sCompat = false ∧ endsWith p sNative = false ∧ ((c.compat = true ∧ q = p ++ sCompat) ∨ (c.native = true ∧ q = p ++ sNative)))

/-- The tasks of a package and of an image. -/
def package (pn : Str) (dep : Task → List Str) : Recipe := ⟨pn, [.localIsarapt, .other 0], dep⟩
def image (pn : Str) (dep : Task → List Str) : Recipe := ⟨pn, [.rootfsInstall, .other 0], dep⟩

end Spec

open Spec

theorem foldl_depends (ps : List Str) : ∀ (r : Recipe) (t : Task), (ps.foldl addOne r).tasks = r.tasks ∧ (ps.foldl addOne r).pn = r.pn ∧
    (ps.foldl addOne r).depends t = if (t = .localIsarapt ∨ t = .installRootfs) ∧ t ∈ r.tasks then r.depends t ++ ps else r.depends t := by
  induction ps with
  | nil => intro r t; simp
  | cons p ps ih =>
    intro r t
    obtain ⟨h1, h2, h3⟩ := ih (addOne r p) t
    refine ⟨h1, h2, ?_⟩
    rw [List.foldl_cons, h3]
    simp only [addOne]
    split
    · simp
    · rfl

/-- C250. A package that is not in the list is built after every package of the list was deployed, and no other task waits for them. -/
theorem package_waits (c : Conf) (pkgs : List Str) (pn : Str) (dep : Task → List Str) (hp : pn ∉ essentials c pkgs) (t : Task) :
    (apply c pkgs (package pn dep)).depends t = if t = .localIsarapt then dep t ++ essentials c pkgs else dep t := by
  unfold apply
  rw [if_neg (show (package pn dep).pn ∉ essentials c pkgs from hp), (foldl_depends _ _ t).2.2]
  by_cases ht : t = .localIsarapt
  · simp [ht, package]
  · rw [if_neg ht, if_neg]
    · rfl
    · rintro ⟨h1, h2⟩
      rcases h1 with h1 | h1
      · exact ht h1
      · rw [h1] at h2; simp [package] at h2

/-- C250. Those of the list do not wait for each other because of it. -/
theorem listed_free (c : Conf) (pkgs : List Str) (r : Recipe) (h : r.pn ∈ essentials c pkgs) : apply c pkgs r = r := by
  unfold apply
  rw [if_pos h]

/-- C250. Every package that the user listed is among them. -/
theorem listed (c : Conf) (pkgs : List Str) (p : Str) (h : p ∈ pkgs) : p ∈ essentials c pkgs := by
  unfold essentials
  rw [List.mem_flatMap]
  refine ⟨p, h, ?_⟩
  unfold variants
  split
  · simp
  · split <;> simp

/-- C250. If no name in the list ends with one of the two words, or both variants can be built, the packages are those that are meant. -/
theorem meant_partial (c : Conf) (pkgs : List Str)
    (h : (∀ p ∈ pkgs, endsWith p sCompat = false ∧ endsWith p sNative = false) ∨ (c.compat = true ∧ c.native = true)) (q : Str) :
    q ∈ essentials c pkgs ↔ meant c pkgs q := by
  unfold essentials meant
  rw [List.mem_flatMap]
  constructor
  · rintro ⟨p, hp, hq⟩
    refine ⟨p, hp, ?_⟩
    rcases h with h | ⟨h1, h2⟩
    · obtain ⟨h1, h2⟩ := h p hp
      simp only [variants, h1, h2, Bool.false_and, Bool.false_eq_true, if_false, List.mem_append, List.mem_singleton] at hq
      rcases hq with (hq | hq) | hq
      · exact .inl ⟨hq, fun h => (by rw [h1] at h; cases h), fun h => (by rw [h2] at h; cases h)⟩
      · cases hc : c.compat
        · rw [hc] at hq; simp at hq
        · rw [hc] at hq; exact .inr ⟨h1, h2, .inl ⟨rfl, by simpa using hq⟩⟩
      · cases hc : c.native
        · rw [hc] at hq; simp at hq
        · rw [hc] at hq; exact .inr ⟨h1, h2, .inr ⟨rfl, by simpa using hq⟩⟩
    · cases hc : endsWith p sCompat
      · cases hn : endsWith p sNative
        · simp only [variants, hc, hn, h1, h2, Bool.false_and, Bool.false_eq_true, if_false, if_true, List.mem_append, List.mem_singleton] at hq
          rcases hq with (hq | hq) | hq
          · exact .inl ⟨hq, fun _ => h1, fun _ => h2⟩
          · exact .inr ⟨rfl, rfl, .inl ⟨h1, hq⟩⟩
          · exact .inr ⟨rfl, rfl, .inr ⟨h2, hq⟩⟩
        · simp only [variants, hc, hn, h1, h2, Bool.false_and, Bool.and_self, Bool.false_eq_true, if_false, if_true, List.mem_singleton] at hq
          exact .inl ⟨hq, fun _ => h1, fun _ => h2⟩
      · simp only [variants, hc, h1, Bool.and_self, if_true, List.mem_singleton] at hq
        exact .inl ⟨hq, fun _ => h1, fun _ => h2⟩
  · rintro ⟨p, hp, hq⟩
    refine ⟨p, hp, ?_⟩
    rcases hq with ⟨rfl, -, -⟩ | ⟨h1, h2, h3⟩
    · unfold variants
      split
      · simp
      · split <;> simp
    · simp only [variants, h1, h2, Bool.false_and, Bool.false_eq_true, if_false, List.mem_append, List.mem_singleton]
      rcases h3 with ⟨h3, rfl⟩ | ⟨h3, rfl⟩
      · exact .inl (.inr (by rw [h3]; simp))
      · exact .inr (by rw [h3]; simp)

/-- An example with three variants. -/
example : essentials ⟨true, true⟩ ["dpkg".toList] = ["dpkg".toList, "dpkg-compat".toList, "dpkg-native".toList] ∧
    (∀ p ∈ ["dpkg".toList], endsWith p sCompat = false ∧ endsWith p sNative = false) := by decide

example : ((apply ⟨false, true⟩ ["dpkg".toList] (package "hello".toList fun _ => ["libx".toList])).depends .localIsarapt) =
    ["libx".toList, "dpkg".toList, "dpkg-native".toList] := by decide

/-! What is missing from C250. -/

/-- A variant that cannot be built is not left out, although the comment says so; with it goes a variant of the variant. -/
theorem compat_kept (n : Bool) (p : Str) : p ++ sCompat ∈ essentials ⟨false, n⟩ [p ++ sCompat] ∧ ¬ meant ⟨false, n⟩ [p ++ sCompat] (p ++ sCompat) := by
  refine ⟨listed _ _ _ (by simp), ?_⟩
  rintro ⟨q, hq, h⟩
  rw [List.mem_singleton.mp hq] at h
  have he : endsWith (p ++ sCompat) sCompat = true := endsWith_iff.mpr ⟨p, rfl⟩
  rcases h with ⟨-, h, -⟩ | ⟨h, -⟩
  · cases h he
  · rw [he] at h; cases h

theorem variant_of_variant : essentials ⟨false, true⟩ ["dpkg-compat".toList] = ["dpkg-compat".toList, "dpkg-compat-native".toList] ∧
    essentials ⟨true, false⟩ ["dpkg-native".toList] = ["dpkg-native".toList, "dpkg-native-compat".toList] := by decide

/-- An image does not wait for them: the class asks for a task that does not exist. -/
theorem image_does_not_wait (c : Conf) (pkgs : List Str) (pn : Str) (dep : Task → List Str) (t : Task) :
    (apply c pkgs (image pn dep)).depends t = dep t := by
  unfold apply
  split
  · rfl
  · rw [(foldl_depends _ _ t).2.2]
    by_cases h : t = .localIsarapt ∨ t = .installRootfs
    · rcases h with rfl | rfl
      · rw [if_neg]; rfl
        intro h
        exact absurd h.2 (by simp [image])
      · rw [if_neg]; rfl
        intro h
        exact absurd h.2 (by simp [image])
    · rw [if_neg (fun h' => h h'.1)]; rfl

/-! ### Circles -/

/-- The build of `x` waits for the package `q`: `deps` are the dependencies of the recipes (`deptask`), the other ones come from the class. -/
def Waits (c : Conf) (pkgs : List Str) (deps : Str → List Str) (x q : Str) : Prop :=
  q ∈ (apply c pkgs (package x fun _ => deps x)).depends .localIsarapt

theorem waits_iff (c : Conf) (pkgs : List Str) (deps : Str → List Str) (x q : Str) :
    Waits c pkgs deps x q ↔ q ∈ deps x ∨ (x ∉ essentials c pkgs ∧ q ∈ essentials c pkgs) := by
  unfold Waits
  by_cases h : x ∈ essentials c pkgs
  · rw [listed_free c pkgs (package x fun _ => deps x) h]
    simp [package, h]
  · rw [package_waits c pkgs x _ h, if_pos rfl, List.mem_append]
    simp [h]

theorem exists_bound (rank : Str → Nat) (l : List Str) : ∃ b, ∀ x ∈ l, rank x ≤ b := by
  induction l with
  | nil => exact ⟨0, by simp⟩
  | cons a l ih =>
    obtain ⟨b, hb⟩ := ih
    refine ⟨max (rank a) b, ?_⟩
    intro x hx
    rcases List.mem_cons.mp hx with rfl | hx
    · exact Nat.le_max_left _ _
    · exact Nat.le_trans (hb x hx) (Nat.le_max_right _ _)

/-- C251. If the recipes alone have no circle and all that the packages of the list depend on is in the list, there is no circle with the class. -/
theorem no_circle_partial (c : Conf) (pkgs : List Str) (deps : Str → List Str) (rank : Str → Nat) (hr : ∀ x, ∀ q ∈ deps x, rank q < rank x)
    (hclosed : ∀ x ∈ essentials c pkgs, ∀ q ∈ deps x, q ∈ essentials c pkgs) :
    ∃ rank' : Str → Nat, ∀ x q, Waits c pkgs deps x q → rank' q < rank' x := by
  obtain ⟨b, hb⟩ := exists_bound rank (essentials c pkgs)
  refine ⟨fun x => if x ∈ essentials c pkgs then rank x else rank x + b + 1, ?_⟩
  intro x q h
  rw [waits_iff] at h
  dsimp only
  by_cases hq : q ∈ essentials c pkgs
  · rw [if_pos hq]
    by_cases hx : x ∈ essentials c pkgs
    · rw [if_pos hx]
      rcases h with h | h
      · exact hr x q h
      · exact absurd hx h.1
    · rw [if_neg hx]
      have := hb q hq
      omega
  · rw [if_neg hq]
    rcases h with h | h
    · have hx : x ∉ essentials c pkgs := fun hx => hq (hclosed x hx q h)
      rw [if_neg hx]
      have := hr x q h
      omega
    · exact absurd h.2 hq

/-- What is missing from C251: a package on which one of the list depends, and which is not in the list, waits for it. -/
theorem circle (c : Conf) (pkgs : List Str) (deps : Str → List Str) (p x : Str) (hp : p ∈ pkgs) (hx : x ∈ deps p) (hn : x ∉ essentials c pkgs) :
    Waits c pkgs deps p x ∧ Waits c pkgs deps x p :=
  ⟨(waits_iff ..).mpr (.inl hx), (waits_iff ..).mpr (.inr ⟨hn, listed c pkgs p hp⟩)⟩

/-- A list of two of which the first depends on the second, and another package that depends on a fourth. -/
def demoDeps (x : Str) : List Str := if x = "a".toList then ["b".toList] else if x = "c".toList then ["d".toList] else []

example : (∀ x ∈ essentials ⟨false, false⟩ ["a".toList, "b".toList], ∀ q ∈ demoDeps x, q ∈ essentials ⟨false, false⟩ ["a".toList, "b".toList]) ∧
    "b".toList ∈ demoDeps "a".toList ∧ "b".toList ∉ essentials ⟨false, false⟩ ["a".toList] := by decide

end Meta.Essential
