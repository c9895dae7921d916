import Verif.Bb.ResolveEnd
/-!
# Properties of resolving dependencies

`st.seen` are the recipe files whose tasks are taken into the build, less `st.failedFns`; `provs st.build d` are the
files that are used for the name `d`, the preferred one first.
-/

namespace Bb.Resolve
open Py

section
variable {D : Data} {n k : Nat} {ops : List Op} {st : TD}

/-! ## C131: what is to be built has all it needs -/

/-- With `-k`, for every set of recipes and every history that ends by resolving: each recipe that is kept has, for
everything in its DEPENDS, recipes that may be used for it and that are kept themselves.  The same holds for what its
packages need at run time. -/
theorem needs_met (h : history D false n k (ops ++ [.unresolved]) start = .ok st) {fn : Str} (hs : fn ∈ st.seen)
    (hk : fn ∉ st.failedFns) :
    (∀ d, d ∈ D.deps fn → D.ignored d = true ∨ (provs st.build d ≠ [] ∧
      ∀ p, p ∈ provs st.build d → p ∈ D.choose d ∧ p ∈ st.seen ∧ p ∉ st.failedFns)) ∧
    (∀ d, d ∈ D.rdeps fn → D.ignored d = true ∨ (provs st.run d ≠ [] ∧
      ∀ p, p ∈ provs st.run d → (∃ l, D.rchoose d = some l ∧ p ∈ l) ∧ p ∈ st.seen ∧ p ∉ st.failedFns)) := by
  obtain ⟨ho, hd, _⟩ := history_done h
  refine ⟨fun d hdd => ?_, fun d hdd => ?_⟩
  · rcases hd.build d ((ho.full.keys fn hs hk).resolve_left id d hdd) with h1 | h1 | h1
    · exact Or.inl h1
    · exact Or.inr ⟨h1, fun p hp => ⟨(ho.full.prov d p hp).1.1, (ho.full.prov d p hp).2.resolve_right id,
        fun hf => ho.base.bprov d p hp hf⟩⟩
    · exact absurd hdd (ho.base.dep fn hs hk d (Or.inl hdd) h1)
  · rcases hd.run d ((ho.full.rkeys fn hs hk).resolve_left id d hdd) with h1 | h1 | h1
    · exact Or.inl h1
    · exact Or.inr ⟨h1, fun p hp => ⟨(ho.full.rprov d p hp).1.1, (ho.full.rprov d p hp).2.resolve_right id,
        fun hf => ho.base.rprov d p hp hf⟩⟩
    · exact absurd hdd (ho.base.rdep fn hs hk d (Or.inl hdd) h1)

/-- With `-k`, what was asked for is provided by recipes that are kept, or it is known to have failed. -/
theorem requested_met (h : history D false n k (ops ++ [.unresolved]) start = .ok st) {t : Str} (ht : .target t ∈ ops) :
    D.ignored t = true ∨ t ∈ st.failedDeps ∨ (provs st.build t ≠ [] ∧
      ∀ p, p ∈ provs st.build t → p ∈ D.choose t ∧ p ∈ st.seen ∧ p ∉ st.failedFns) := by
  obtain ⟨ho, hd, hx⟩ := history_done h
  have prov : provs st.build t ≠ [] → provs st.build t ≠ [] ∧
      ∀ p, p ∈ provs st.build t → p ∈ D.choose t ∧ p ∈ st.seen ∧ p ∉ st.failedFns := fun h1 =>
    ⟨h1, fun p hp => ⟨(ho.full.prov t p hp).1.1, (ho.full.prov t p hp).2.resolve_right id, fun hf => ho.base.bprov t p hp hf⟩⟩
  rcases ho.full.ext t (hx t ht) with h1 | h1 | h1
  · exact Or.inl h1
  · exact Or.inr (Or.inl h1)
  · rcases hd.build t h1 with h2 | h2 | h2
    · exact Or.inl h2
    · exact Or.inr (Or.inr (prov h2))
    · exact Or.inr (Or.inl h2)

/-- Without `-k` and with at most one recipe for each name: if there is no error then nothing was dropped, all that was
asked for is provided, and so is all that recipes need, also what only single tasks need. -/
theorem all_met (hs : Single D) (h : history D true n k (ops ++ [.unresolved]) start = .ok st) :
    st.failedFns = [] ∧ (∀ t, .target t ∈ ops → D.ignored t = true ∨ provs st.build t ≠ []) ∧
      (∀ t p, p ∈ provs st.build t → p ∈ D.choose t ∧ p ∈ st.seen) ∧
      (∀ t p, p ∈ provs st.run t → (∃ l, D.rchoose t = some l ∧ p ∈ l) ∧ p ∈ st.seen) ∧
      ∀ fn, fn ∈ st.seen → (∀ d, d ∈ D.deps fn ∨ d ∈ D.ideps fn → D.ignored d = true ∨ provs st.build d ≠ []) ∧
        ∀ d, d ∈ D.rdeps fn ∨ d ∈ D.irdeps fn → D.ignored d = true ∨ provs st.run d ≠ [] := by
  obtain ⟨hc, _, hx⟩ := history_clean hs tidy_start h
  rw [history_append] at h
  obtain ⟨s, h1, h2⟩ := bind_ok h
  obtain ⟨s', h3, h4⟩ := bind_ok h2
  injection h4 with h4
  subst h4
  have hd := (addUnresolved_clean hs (history_clean hs tidy_start h1).1 h3).2.2
  have nf : ∀ x, x ∉ s'.failedFns := fun x => by rw [hc.fns]; exact List.not_mem_nil
  have sb : ∀ t, (s'.build.lookup t).isSome = true → D.ignored t = true ∨ provs s'.build t ≠ [] := fun t ht => by
    rcases hd.build t ht with h | h | h
    · exact Or.inl h
    · exact Or.inr h
    · rw [hc.deps] at h; cases h
  have sr : ∀ t, (s'.run.lookup t).isSome = true → D.ignored t = true ∨ provs s'.run t ≠ [] := fun t ht => by
    rcases hd.run t ht with h | h | h
    · exact Or.inl h
    · exact Or.inr h
    · rw [hc.rdeps] at h; cases h
  refine ⟨hc.fns, fun t ht => ?_, fun t p hp => ⟨(hc.ok.full.prov t p hp).1.1, (hc.ok.full.prov t p hp).2.resolve_right id⟩,
    fun t p hp => ⟨(hc.ok.full.rprov t p hp).1.1, (hc.ok.full.rprov t p hp).2.resolve_right id⟩, fun fn hfn => ⟨fun d hdd => ?_, fun d hdd => ?_⟩⟩
  · rcases hc.ok.full.ext t (hx t (List.mem_append_left _ ht)) with h | h | h
    · exact Or.inl h
    · rw [hc.deps] at h; cases h
    · exact sb t h
  · exact sb d (hdd.elim ((hc.ok.full.keys fn hfn (nf fn)).resolve_left id d) (hc.ok.full.ikeys fn hfn d))
  · exact sr d (hdd.elim ((hc.ok.full.rkeys fn hfn (nf fn)).resolve_left id d) (hc.ok.full.irkeys fn hfn d))

/-! ## C132: recipes are dropped for a cause, and hopeless ones always -/

/-- In both modes, at every moment and also when an error ends the build: a recipe that was dropped has a cause, a chain
of needs that ends at a name without a recipe. -/
theorem dropped_has_cause {halt : Bool} (h : history D halt n k ops start = .ok st ∨
    ∃ b, history D halt n k ops start = .raised b st) {fn : Str} (hf : fn ∈ st.failedFns) : Broken D .file fn :=
  (history_cause caused_start st h).fns fn hf

/-- With `-k`: what is hopeless is not used.  A hopeless recipe is dropped, and hopeless names have no providers. -/
theorem hopeless_dropped (h : history D false n k (ops ++ [.unresolved]) start = .ok st) {fn : Str} (hh : Hopeless D .file fn)
    (hs : fn ∈ st.seen) : fn ∈ st.failedFns := by
  have key : ∀ kd x, Hopeless D kd x → match kd with
      | .file => x ∈ st.seen → x ∈ st.failedFns
      | .name => provs st.build x = []
      | .pkg => provs st.run x = [] := by
    obtain ⟨ho, _, _⟩ := history_done h
    intro kd x hx
    induction hx with
    | @name t _ _ ih =>
      show provs st.build t = []
      cases hp : provs st.build t with
      | nil => rfl
      | cons p ps =>
        have hm : p ∈ provs st.build t := by rw [hp]; exact List.mem_cons_self
        exact absurd (ih p (ho.full.prov t p hm).1.1 ((ho.full.prov t p hm).2.resolve_right id)) fun hf => ho.base.bprov t p hm hf
    | @pkg t _ _ ih =>
      show provs st.run t = []
      cases hp : provs st.run t with
      | nil => rfl
      | cons p ps =>
        have hm : p ∈ provs st.run t := by rw [hp]; exact List.mem_cons_self
        obtain ⟨l, h1, h2⟩ := (ho.full.rprov t p hm).1.1
        exact absurd (ih l p h1 h2 ((ho.full.rprov t p hm).2.resolve_right id)) fun hf => ho.base.rprov t p hm hf
    | @dep g d hd hn ih =>
      intro hg
      by_cases hf : g ∈ st.failedFns
      · exact hf
      · rcases (needs_met h hg hf).1 d hd with h1 | h1
        · cases hn with
          | name hi _ => rw [hi] at h1; cases h1
        · exact absurd ih h1.1
    | @rdep g d hd hn ih =>
      intro hg
      by_cases hf : g ∈ st.failedFns
      · exact hf
      · rcases (needs_met h hg hf).2 d hd with h1 | h1
        · cases hn with
          | pkg hi _ => rw [hi] at h1; cases h1
        · exact absurd ih h1.1
  exact key .file fn hh hs

/-- With at most one recipe for each name and no dependencies of single tasks, a recipe is dropped exactly if it is
hopeless. -/
theorem dropped_iff (hs : Single D) (hi : ∀ fn, D.ideps fn = []) (hr : ∀ fn, D.irdeps fn = [])
    (h : history D false n k (ops ++ [.unresolved]) start = .ok st) {fn : Str} (hf : fn ∈ st.seen) :
    fn ∈ st.failedFns ↔ Hopeless D .file fn := by
  refine ⟨fun hd => ?_, fun hh => hopeless_dropped h hh hf⟩
  have key : ∀ kd x, Broken D kd x → Hopeless D kd x := by
    intro kd x hb
    induction hb with
    | none h1 h2 => exact .name h1 fun x hx => by rw [h2] at hx; cases hx
    | @one t x h1 h2 _ ih =>
      refine .name h1 fun y hy => ?_
      have := hs.1 t
      cases hc : D.choose t with
      | nil => rw [hc] at h2; cases h2
      | cons a l =>
        rw [hc] at this h2 hy
        have hl : l = [] := List.eq_nil_of_length_eq_zero (by simp at this; simpa using this)
        subst hl
        rw [List.mem_singleton.1 hy, ← List.mem_singleton.1 h2]
        exact ih
    | rnone h1 h2 => exact .pkg h1 fun l x hl hx => by rw [h2 l hl] at hx; cases hx
    | @rone t x l h1 h2 h3 _ ih =>
      refine .pkg h1 fun l' y hl' hy => ?_
      rw [h2] at hl'
      injection hl' with hl'
      subst hl'
      have := hs.2 t l h2
      cases l with
      | nil => cases h3
      | cons a l =>
        have hl : l = [] := List.eq_nil_of_length_eq_zero (by simp at this; simpa using this)
        subst hl
        rw [List.mem_singleton.1 hy, ← List.mem_singleton.1 h3]
        exact ih
    | @dep g d h1 _ ih =>
      rw [hi] at h1
      exact .dep (h1.resolve_right List.not_mem_nil) ih
    | @rdep g d h1 _ ih =>
      rw [hr] at h1
      exact .rdep (h1.resolve_right List.not_mem_nil) ih
  exact key _ _ (dropped_has_cause (Or.inl h) hd)

/-! ## C133: resolving ends -/

/-- With `-k`, for all recipes, also with circles between them, and all targets: resolving comes to an end and raises
nothing.  The recursion is never deeper than there are recipe files, and the loop never longer than there are names. -/
theorem resolving_ends {files names pkgs : List Str} (hu : Universe D files names pkgs) (hn : files.length < n)
    (hk : names.length + pkgs.length < k) (ht : ∀ t, .target t ∈ ops → t ∈ names) :
    ∃ st, history D false n k ops start = .ok st :=
  history_ends hu hn hk ht ok_start ⟨nofun, nofun, nofun⟩

end

/-! ## Examples and counterexamples -/

/-- `u` is built by `U`, which needs `x`; `x` is provided by `A`, which needs the missing `m`, and by `B`, which needs `w`. -/
def exD (w : List Str) (deps ideps : Str → List Str) : Data where
  choose t := if t = ['u'] then [['U']] else if t = ['x'] then [['A'], ['B']] else if t = ['w'] then w else []
  rchoose _ := none
  deps fn := if fn = ['U'] then [['x']] else if fn = ['A'] then [['m']] else if fn = ['B'] then [['w']] else deps fn
  rdeps _ := []
  ideps := ideps
  irdeps _ := []
  ignored t := t = ['g']

def targetU : List Op := [.target ['u']]

/-- Here `W` needs nothing but an ignored name: `A` is dropped, `B` is used for `x`. -/
example : ∃ st, history (exD [['W']] (fun fn => if fn = ['W'] then [['g']] else []) fun _ => []) false 9 9 (targetU ++ [.unresolved])
      start = .ok st ∧ ['U'] ∈ st.seen ∧ ['U'] ∉ st.failedFns ∧ ['A'] ∈ st.failedFns ∧ provs st.build ['x'] = [['B']] :=
  ⟨_, rfl, by decide +kernel⟩

/-- Everything that is needed is provided by one recipe. -/
def oneD : Data where
  choose t := if t = ['u'] then [['U']] else if t = ['x'] then [['B']] else []
  rchoose t := if t = ['r'] then some [['W']] else none
  deps fn := if fn = ['U'] then [['x']] else []
  rdeps fn := if fn = ['B'] then [['r']] else []
  ideps fn := if fn = ['W'] then [['u']] else []
  irdeps _ := []
  ignored _ := false

theorem oneD_single : Single oneD := by
  refine ⟨fun t => ?_, fun t l h => ?_⟩
  · show (if t = ['u'] then [['U']] else if t = ['x'] then [['B']] else ([] : List Str)).length ≤ 1
    split
    · exact Nat.le_refl _
    · split
      · exact Nat.le_refl _
      · exact Nat.zero_le _
  · have h : (if t = ['r'] then some [['W']] else none) = some l := h
    split at h
    · injection h with h
      subst h
      exact Nat.le_refl _
    · cases h

example : ∃ st, history oneD true 9 9 (targetU ++ [.unresolved]) start = .ok st ∧ st.seen = [['U'], ['B'], ['W']] :=
  ⟨_, rfl, by decide +kernel⟩

example : Universe oneD [['U'], ['B'], ['W']] [['u'], ['x']] [['r']] where
  choose t _ x hx := by
    have hx : x ∈ (if t = ['u'] then [['U']] else if t = ['x'] then [['B']] else []) := hx
    split at hx
    · rw [List.mem_singleton.1 hx]; decide
    · split at hx
      · rw [List.mem_singleton.1 hx]; decide
      · cases hx
  rchoose t _ l h x hx := by
    have h : (if t = ['r'] then some [['W']] else none) = some l := h
    split at h
    · injection h with h
      subst h
      rw [List.mem_singleton.1 hx]; decide
    · cases h
  deps fn hf d hd := by
    have : fn = ['U'] ∨ fn = ['B'] ∨ fn = ['W'] := by simpa using hf
    rcases this with rfl | rfl | rfl
    · rcases hd with hd | hd
      · rw [List.mem_singleton.1 (show d ∈ [['x']] from hd)]; decide
      · cases (show d ∈ ([] : List Str) from hd)
    · rcases hd with hd | hd
      · cases (show d ∈ ([] : List Str) from hd)
      · cases (show d ∈ ([] : List Str) from hd)
    · rcases hd with hd | hd
      · cases (show d ∈ ([] : List Str) from hd)
      · rw [List.mem_singleton.1 (show d ∈ [['u']] from hd)]; decide
  rdeps fn hf d hd := by
    have : fn = ['U'] ∨ fn = ['B'] ∨ fn = ['W'] := by simpa using hf
    rcases this with rfl | rfl | rfl
    · rcases hd with hd | hd <;> cases (show d ∈ ([] : List Str) from hd)
    · rcases hd with hd | hd
      · rw [List.mem_singleton.1 (show d ∈ [['r']] from hd)]; decide
      · cases (show d ∈ ([] : List Str) from hd)
    · rcases hd with hd | hd <;> cases (show d ∈ ([] : List Str) from hd)

/-- The dependency of a single task on a name that has failed before is forgotten: `do_x[depends]` of `W` needs `m`, for
which there is no recipe, and still `W` is built, and nobody complains. -/
theorem task_dependency_lost : ∃ st, history (exD [['W']] (fun _ => []) fun fn => if fn = ['W'] then [['m']] else []) true 9 9
    (targetU ++ [.unresolved]) start = .ok st ∧ ['W'] ∈ st.seen ∧ ['W'] ∉ st.failedFns ∧ provs st.build ['m'] = [] ∧
      provs st.build ['u'] = [['U']] :=
  ⟨_, rfl, by decide +kernel⟩

/-- Without `-k` the error for what was asked for may be lost: `W` fails as soon as it is taken, with it `B`, `x`, `U` and
`u`; the exception is taken for one about `w`, and resolving ends as if all was well. -/
theorem error_swallowed : ∃ st, history (exD [['W']] (fun fn => if fn = ['W'] then [['m']] else []) fun _ => []) true 9 9
    (targetU ++ [.unresolved]) start = .ok st ∧ ['u'] ∈ st.external ∧ provs st.build ['u'] = [] ∧ ['U'] ∈ st.failedFns :=
  ⟨_, rfl, by decide +kernel⟩

/-- The second recipe for a name is not used if the first fails at once: `V` could be used for `w`, but all that needs `w`
is dropped. -/
theorem alternative_lost :
    let D := exD [['W'], ['V']] (fun fn => if fn = ['W'] then [['m']] else []) fun _ => []
    (∃ st, history D false 9 9 (targetU ++ [.unresolved]) start = .ok st ∧ ['U'] ∈ st.failedFns ∧
      provs st.build ['w'] = [['V']]) ∧ ¬ Hopeless D .file ['U'] := by
  refine ⟨⟨_, rfl, by decide +kernel⟩, fun h => ?_⟩
  have key : ∀ kd x, Hopeless (exD [['W'], ['V']] (fun fn => if fn = ['W'] then [['m']] else []) fun _ => []) kd x →
      match kd with
      | .file => x ≠ ['U'] ∧ x ≠ ['B'] ∧ x ≠ ['V']
      | .name => x ≠ ['x'] ∧ x ≠ ['w']
      | .pkg => True := by
    intro kd x hx
    induction hx with
    | @name t _ _ ih =>
      refine ⟨fun e => ?_, fun e => ?_⟩
      · subst e
        exact (ih ['B'] (by decide)).2.1 rfl
      · subst e
        exact (ih ['V'] (by decide)).2.2 rfl
    | pkg => trivial
    | @dep g d hd _ ih =>
      refine ⟨fun e => ?_, fun e => ?_, fun e => ?_⟩
      · subst e
        exact ih.1 (List.mem_singleton.1 (show d ∈ [['x']] from hd))
      · subst e
        exact ih.2 (List.mem_singleton.1 (show d ∈ [['w']] from hd))
      · subst e
        cases (show d ∈ ([] : List Str) from hd)
    | @rdep g d hd _ _ => cases (show d ∈ ([] : List Str) from hd)
  exact (key .file ['U'] h).1 rfl

end Bb.Resolve
