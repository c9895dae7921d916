import Verif.Bb.SigLemmas2
/-!
# Properties of base hashes
-/

namespace Bb.Sig
open Py

/-! ## An example -/

/-- A store with a task `t` that refers to `A` and `B`, and `A` to `C`. -/
def exStore (a b c : Str) : Store where
  entry k :=
    if k = "t".toList then .shell "run".toList [] { refs := ["A".toList, "B".toList] } []
    else if k = "A".toList then .plain (some a) { refs := ["C".toList] } []
    else if k = "B".toList then .plain (some b) {} []
    else if k = "C".toList then .plain (some c) {} []
    else .plain none {} []
  flags _ := {}
  value k := if k = "A".toList then some a else if k = "B".toList then some b else
    if k = "C".toList then some c else none
  keys := ["t".toList, "A".toList, "B".toList, "C".toList]
  shelldeps := []
  varflagsexcl := some "doc deps".toList
  ignored := ["PATH".toList]
  tasks := ["t".toList]

theorem exDeps (a b c : Str) (k : Str) : (buildDeps (exStore a b c) k).1 =
    if k = "t".toList then ["A".toList, "B".toList] else if k = "A".toList then ["C".toList] else [] := by
  by_cases h1 : k = "t".toList
  · subst h1; rfl
  · rw [if_neg h1]
    by_cases h2 : k = "A".toList
    · subst h2; rfl
    · rw [if_neg h2]
      by_cases h3 : k = "B".toList
      · subst h3; rfl
      · by_cases h4 : k = "C".toList
        · subst h4; rfl
        · have : (exStore a b c).entry k = .plain none {} [] := by
            unfold exStore
            dsimp only
            rw [if_neg h1, if_neg h2, if_neg h3, if_neg h4]
          unfold buildDeps
          rw [this]
          rfl

theorem exWithin (a b c : Str) : Within (exStore a b c) ["A".toList, "B".toList, "C".toList] := by
  intro t ht k hk
  have : t = "t".toList := by simpa [exStore] using ht
  subst this
  induction hk with
  | direct h =>
    rw [exDeps, if_pos rfl] at h
    rcases List.mem_cons.1 h with rfl | h
    · decide
    · cases List.mem_singleton.1 h; decide
  | @step k' j _ hj ih =>
    rw [exDeps] at hj
    by_cases h1 : k' = "t".toList
    · subst h1; exact absurd ih (by decide)
    · rw [if_neg h1] at hj
      by_cases h2 : k' = "A".toList
      · rw [if_pos h2] at hj
        cases List.mem_singleton.1 hj
        decide
      · rw [if_neg h2] at hj; exact nomatch hj

/-! ## What the base hash covers -/

/-- **C97.**  The base hash of a task is the hash of its text and of the names and values of all
variables and functions that it needs, directly or not, in the order of their names.  No name that is
needed is missing when the hash is made. -/
theorem basehash_exact (hash : Str → Str) (s : Store) (U : List Str) (hU : Within s U) (fuel : Nat)
    (hf : U.length < fuel) (t : Str) (ht : t ∈ s.tasks) :
    ∃ L : List Str, L.Pairwise StrLt ∧ (∀ k, k ∈ L ↔ Needs s t k) ∧
      baseHash hash s fuel t =
        some (hash (valueText s t ++ (L.map fun k => k ++ valueText s k).flatten)) := by
  obtain ⟨L, h1, h2, h3⟩ := taskData_exact hU hf t ht
  exact ⟨L, h1, h2, by unfold baseHash; rw [h3]; rfl⟩

/-- **C97.**  Nothing else has an influence: if the task and all it needs have the same dependencies
and values in two stores, the base hash is the same. -/
theorem basehash_frame (hash : Str → Str) (s s' : Store) (U U' : List Str) (hU : Within s U)
    (hU' : Within s' U') (fuel fuel' : Nat) (hf : U.length < fuel) (hf' : U'.length < fuel') (t : Str)
    (ht : t ∈ s.tasks) (ht' : t ∈ s'.tasks)
    (h : ∀ k, k = t ∨ Needs s t k → buildDeps s k = buildDeps s' k) :
    baseHash hash s fuel t = baseHash hash s' fuel' t := by
  obtain ⟨L, h1, h2, h3⟩ := basehash_exact hash s U hU fuel hf t ht
  obtain ⟨L', h1', h2', h3'⟩ := basehash_exact hash s' U' hU' fuel' hf' t ht'
  have e : L = L' := sorted_unique h1 h1' fun k => by
    rw [h2, h2', needs_congr fun j hj => congrArg Prod.fst (h j hj)]
  have hv : ∀ k, k = t ∨ Needs s t k → valueText s k = valueText s' k := fun k hk => by
    unfold valueText; rw [h k hk]
  rw [h3, h3', ← e, hv t (Or.inl rfl)]
  congr 4
  exact List.map_congr_left fun k hk => by rw [hv k (Or.inr ((h2 k).1 hk))]

/-- **C97.**  Changing a variable that the task does not need does not change the base hash, as long as
the tests with `bb.utils.contains` on that variable have the same results. -/
theorem unrelated_change (hash : Str → Str) (s s' : Store) (U U' : List Str) (hU : Within s U)
    (hU' : Within s' U') (fuel fuel' : Nat) (hf : U.length < fuel) (hf' : U'.length < fuel') (t x : Str)
    (ht : t ∈ s.tasks) (ht' : t ∈ s'.tasks) (hxt : x ≠ t) (hx : ¬ Needs s t x)
    (he : ∀ k, k ≠ x → s'.entry k = s.entry k ∧ s'.flags k = s.flags k ∧ s'.value k = s.value k)
    (hk : s'.keys = s.keys) (hs : s'.shelldeps = s.shelldeps) (hv : s'.varflagsexcl = s.varflagsexcl)
    (hi : s'.ignored = s.ignored)
    (htest : ∀ k, k = t ∨ Needs s t k → ∀ c, c ∈ (s.entry k).testing → ∀ i, Tests c x i → x ∉ s.ignored →
      (Holds (s.value x) i ↔ Holds (s'.value x) i)) :
    baseHash hash s fuel t = baseHash hash s' fuel' t := by
  refine basehash_frame hash s s' U U' hU hU' fuel fuel' hf hf' t ht ht' fun k hkn => ?_
  have hkx : k ≠ x := by
    rintro rfl
    rcases hkn with h | h
    · exact hxt h
    · exact hx h
  refine buildDeps_congr k (he k hkx).1.symm (he k hkx).2.1.symm hk.symm hs.symm hv.symm hi.symm ?_
  intro c hc y i hy hyi
  by_cases e : y = x
  · subst e; exact htest k hkn c hc i hy hyi
  · rw [(he y e).2.2]

/-- **C97.**  If values of what a task needs change and none gets shorter, what is hashed changes.
Missing: changes that make one value longer and another shorter (`moved_text`). -/
theorem basehash_sensitive_partial (hash : Str → Str) (s s' : Store) (U U' : List Str) (hU : Within s U)
    (hU' : Within s' U') (fuel fuel' : Nat) (hf : U.length < fuel) (hf' : U'.length < fuel') (t : Str)
    (ht : t ∈ s.tasks) (ht' : t ∈ s'.tasks)
    (h : ∀ k, k = t ∨ Needs s t k → (buildDeps s k).1 = (buildDeps s' k).1 ∧
      (valueText s k).length ≤ (valueText s' k).length)
    (x : Str) (hx : x = t ∨ Needs s t x) (hne : valueText s x ≠ valueText s' x) :
    ∃ d d', baseHash hash s fuel t = some (hash d) ∧ baseHash hash s' fuel' t = some (hash d') ∧ d ≠ d' := by
  obtain ⟨L, h1, h2, h3⟩ := basehash_exact hash s U hU fuel hf t ht
  obtain ⟨L', h1', h2', h3'⟩ := basehash_exact hash s' U' hU' fuel' hf' t ht'
  have e : L = L' := sorted_unique h1 h1' fun k => by
    rw [h2, h2', needs_congr fun j hj => (h j hj).1]
  subst e
  refine ⟨_, _, h3, h3', fun e => hne ?_⟩
  obtain ⟨e1, e2⟩ := dataText_inj (valueText s) (valueText s') t L (h t (Or.inl rfl)).2
    (fun k hk => (h k (Or.inr ((h2 k).1 hk))).2) e
  rcases hx with rfl | hx
  · exact e1
  · exact e2 x ((h2 x).2 hx)

/-- **C97.**  If the value of one variable that a task needs changes, and nothing else, what is hashed
changes. -/
theorem one_change_seen (hash : Str → Str) (s s' : Store) (U U' : List Str) (hU : Within s U)
    (hU' : Within s' U') (fuel fuel' : Nat) (hf : U.length < fuel) (hf' : U'.length < fuel') (t : Str)
    (ht : t ∈ s.tasks) (ht' : t ∈ s'.tasks) (x : Str) (hx : x = t ∨ Needs s t x)
    (h : ∀ k, k = t ∨ Needs s t k → (buildDeps s k).1 = (buildDeps s' k).1 ∧
      (k ≠ x → valueText s k = valueText s' k))
    (hne : valueText s x ≠ valueText s' x) :
    ∃ d d', baseHash hash s fuel t = some (hash d) ∧ baseHash hash s' fuel' t = some (hash d') ∧ d ≠ d' := by
  rcases Nat.le_total (valueText s x).length (valueText s' x).length with hl | hl
  · refine basehash_sensitive_partial hash s s' U U' hU hU' fuel fuel' hf hf' t ht ht' (fun k hk => ?_) x hx hne
    refine ⟨(h k hk).1, ?_⟩
    by_cases e : k = x
    · rw [e]; exact hl
    · rw [(h k hk).2 e]; exact Nat.le_refl _
  · have hn : ∀ k, Needs s t k ↔ Needs s' t k := needs_congr fun k hk => (h k hk).1
    have hb : ∀ k, k = t ∨ Needs s' t k → k = t ∨ Needs s t k := fun k hk => by rw [hn]; exact hk
    obtain ⟨d, d', h1, h2, h3⟩ := basehash_sensitive_partial hash s' s U' U hU' hU fuel' fuel hf' hf t ht' ht
      (fun k hk => ⟨(h k (hb k hk)).1.symm, by
        by_cases e : k = x
        · rw [e]; exact hl
        · rw [(h k (hb k hk)).2 e]; exact Nat.le_refl _⟩) x (by rw [← hn]; exact hx) (fun e => hne e.symm)
    exact ⟨d', d, h2, h1, fun e => h3 e.symm⟩

example : (baseHash id (exStore "1".toList "2".toList "3".toList) 4 "t".toList) =
    some "runA1B2C3".toList := by decide +kernel

example : Needs (exStore [] [] []) "t".toList "C".toList :=
  .step (k := "A".toList) (.direct (by decide +kernel)) (by decide +kernel)

/-- **C97** is not true as it stands: names and values are put together without separators, so that
moving text from one variable to another need not change the base hash. -/
theorem moved_text (hash : Str → Str) :
    valueText (exStore "B".toList [] []) "A".toList ≠ valueText (exStore [] "B".toList []) "A".toList ∧
      valueText (exStore "B".toList [] []) "B".toList ≠ valueText (exStore [] "B".toList []) "B".toList ∧
      baseHash hash (exStore "B".toList [] []) 4 "t".toList =
        baseHash hash (exStore [] "B".toList []) 4 "t".toList := by
  refine ⟨by decide +kernel, by decide +kernel, ?_⟩
  have e : taskData (generateDependencies (exStore "B".toList [] []) 4) 4 "t".toList =
      taskData (generateDependencies (exStore [] "B".toList []) 4) 4 "t".toList := by decide +kernel
  unfold baseHash
  rw [e]

/-! ## Signature files -/

/-- **C98.**  The base hash that is made again from the record in a signature file is the one that was
recorded. -/
theorem recorded_basehash_right (hash : Str → Str) (s : Store) (U : List Str) (hU : Within s U)
    (fuel : Nat) (hf : U.length < fuel) (t : Str) (ht : t ∈ s.tasks) :
    ∃ d, dumpSig hash s fuel t = some d ∧ baseHash hash s fuel t = some d.basehash ∧
      calcBasehash hash d = some d.basehash := by
  have ok := generate_ok s fuel
  have hh := generate_has hU hf t ht
  obtain ⟨L, h1, h2, h3⟩ := taskData_exact hU hf t ht
  obtain ⟨vals, v1, v2, v3, v4⟩ := recordVals_some ok s.ignored L
    (fun k hk => ⟨hh.2 k ((h2 k).1 hk), needs_not_ignored ((h2 k).1 hk)⟩) [(t, (buildDeps s t).2)] (by
      intro k v hv
      rw [List.lookup_cons] at hv
      by_cases e : k = t
      · subst e
        have : (k == k) = true := by simp
        rw [this] at hv
        exact (Option.some.inj hv).symm
      · have : (k == t) = false := by simpa using e
        rw [this] at hv
        cases hv)
  have hget : ∀ k, k = t ∨ k ∈ L → vals.lookup k = some (buildDeps s k).2 := by
    intro k hk
    have : (vals.lookup k).isSome = true := by
      rcases hk with rfl | hk
      · refine v4 k ?_
        rw [List.lookup_cons]
        have : (k == k) = true := by simp
        rw [this]
        rfl
      · exact v3 k hk
    obtain ⟨v, hv⟩ := Option.isSome_iff_exists.1 this
    rw [hv, v2 k v hv]
  refine ⟨⟨t, L, hash (valueText s t ++ (L.map fun k => k ++ valueText s k).flatten), vals⟩, ?_, ?_, ?_⟩
  · unfold dumpSig
    dsimp only
    rw [h3, (ok.get hh.1).2]
    dsimp only
    rw [v1]
  · unfold baseHash
    rw [h3]
    rfl
  · unfold calcBasehash
    dsimp only
    rw [hget t (Or.inl rfl), depData_some (s := s) vals _ fun k hk => hget k (Or.inr (mem_sortSet.1 hk))]
    dsimp only
    rw [sorted_unique (sortSet_sorted L) h1 fun k => mem_sortSet]
    rfl

example : (dumpSig id (exStore "1".toList "2".toList "3".toList) 4 "t".toList).map (·.basehash) =
    some "runA1B2C3".toList := by decide +kernel

/-! ## What is a dependency -/

/-- A variable or a function, without a fixed value. -/
def Ordinary (s : Store) (k : Str) : Prop :=
  (s.flags k).vardepvalue = none ∧ (∀ p, s.entry k ≠ .module p) ∧ ∀ n v p, s.entry k ≠ .flag n v p

/-- At most one `:remove`, and it calls nothing. -/
def Entry.oneRemove : Entry → Prop
  | .shell _ _ _ r => r.length ≤ 1 ∧ ∀ x, x ∈ r → x.parsed.execs = []
  | .plain _ _ r => r.length ≤ 1 ∧ ∀ x, x ∈ r → x.parsed.execs = []
  | _ => True

theorem removeRefs_one (r : List Removal) (h : r.length ≤ 1) (x : Str)
    (hx : x ∈ (r.map (·.parsed.refs)).flatten) : x ∈ removeRefs (sortRemoves r) := by
  cases r with
  | nil => exact nomatch hx
  | cons a r =>
    cases r with
    | nil =>
      have : sortRemoves [a] = [a] := rfl
      rw [this]
      show x ∈ a.parsed.refs
      simpa using hx
    | cons b r => exact absurd h (by simp)

theorem no_execs (r : List Removal) (h : ∀ x, x ∈ r → x.parsed.execs = []) (y : Str)
    (hy : y ∈ (r.map (·.parsed.execs)).flatten) : False := by
  rw [List.mem_flatten] at hy
  obtain ⟨l, hl, h2⟩ := hy
  obtain ⟨x, hx, rfl⟩ := List.mem_map.1 hl
  rw [h x hx] at h2
  exact nomatch h2

/-- **C99.**  A variable or function depends on every variable that its text and its `:remove` refer
to, on every known function that it calls, and on what its `vardeps` flag names, unless that is
ignored or excluded.  Missing: more than one `:remove` (`second_remove_unseen`), and functions called
in a `:remove`. -/
theorem references_are_deps_partial (s : Store) (k x : Str) (ho : Ordinary s k)
    (hr : (s.entry k).oneRemove)
    (hx : x ∈ (s.entry k).refersTo ∨ (x ∈ (s.entry k).calls ∧ x ∈ s.keys) ∨
      x ∈ words ((s.flags k).vardeps.getD []))
    (hex : x ∉ words (s.flags k).vardepsexclude) (hi : x ∉ s.ignored) : x ∈ (buildDeps s k).1 := by
  obtain ⟨ho1, ho2, ho3⟩ := ho
  have hkn : ∀ l, x ∈ l → x ∈ s.keys → x ∈ known s l := fun l h1 h2 => by
    unfold known; rw [List.mem_filter, decide_eq_true_iff]; exact ⟨h1, h2⟩
  unfold buildDeps
  cases he : s.entry k with
  | module p => exact absurd he (ho2 p)
  | flag n v p => exact absurd he (ho3 n v p)
  | python v p =>
    dsimp only
    refine mem_minus.2 ⟨mem_minus.2 ⟨?_, hex⟩, hi⟩
    unfold bodyDeps
    rw [ho1]
    rw [he] at hx
    dsimp only
    rcases hx with h | ⟨h, h'⟩ | h
    · simp only [Entry.refersTo] at h
      simp only [List.mem_append]
      exact Or.inl (Or.inl (Or.inl (Or.inl (Or.inl (Or.inl h)))))
    · simp only [List.mem_append]
      exact Or.inl (Or.inl (Or.inl (Or.inl (Or.inl (Or.inr (hkn _ h h'))))))
    · exact List.mem_append_right _ h
  | shell v c p r =>
    dsimp only
    refine mem_minus.2 ⟨mem_minus.2 ⟨?_, hex⟩, hi⟩
    unfold bodyDeps
    rw [ho1]
    rw [he] at hx hr
    dsimp only
    rcases hx with h | ⟨h, h'⟩ | h
    · rcases List.mem_append.1 h with h | h
      · simp [h]
      · have := removeRefs_one r hr.1 x h
        simp [this]
    · rcases List.mem_append.1 h with h | h
      · rcases List.mem_append.1 h with h | h
        · simp [hkn _ h h']
        · simp [hkn _ h h']
      · exact absurd (no_execs r hr.2 x h) id
    · exact List.mem_append_right _ h
  | plain v p r =>
    dsimp only
    refine mem_minus.2 ⟨mem_minus.2 ⟨?_, hex⟩, hi⟩
    unfold bodyDeps
    rw [ho1]
    rw [he] at hx hr
    dsimp only
    rcases hx with h | ⟨h, h'⟩ | h
    · rcases List.mem_append.1 h with h | h
      · simp [h]
      · have := removeRefs_one r hr.1 x h
        simp [this]
    · rcases List.mem_append.1 h with h | h
      · simp [hkn _ h h']
      · exact absurd (no_execs r hr.2 x h) id
    · exact List.mem_append_right _ h

/-- **C99.**  Ignored variables are never needed. -/
theorem ignored_never_needed (s : Store) (t k : Str) (h : Needs s t k) : k ∉ s.ignored :=
  needs_not_ignored h

/-- **C99.**  What the `vardepsexclude` flag names is not a dependency. -/
theorem excluded_no_dep (s : Store) (k x : Str) (ho : Ordinary s k)
    (hex : x ∈ words (s.flags k).vardepsexclude) : x ∉ (buildDeps s k).1 := by
  obtain ⟨_, ho2, ho3⟩ := ho
  unfold buildDeps
  cases he : s.entry k with
  | module p => exact absurd he (ho2 p)
  | flag n v p => exact absurd he (ho3 n v p)
  | python v p => exact fun h => (mem_minus.1 (mem_minus.1 h).1).2 hex
  | shell v c p r => exact fun h => (mem_minus.1 (mem_minus.1 h).1).2 hex
  | plain v p r => exact fun h => (mem_minus.1 (mem_minus.1 h).1).2 hex

/-- A variable `V` with two removals, that refer to `X` and `Y`. -/
def removeStore (x y : Str) : Store where
  entry k :=
    if k = "t".toList then .shell "run".toList [] { refs := ["V".toList] } []
    else if k = "V".toList then .plain (some "a b".toList) {}
      [⟨"${X}".toList, { refs := ["X".toList] }⟩, ⟨"${Y}".toList, { refs := ["Y".toList] }⟩]
    else if k = "X".toList then .plain (some x) {} []
    else if k = "Y".toList then .plain (some y) {} []
    else .plain none {} []
  flags _ := {}
  value k := if k = "X".toList then some x else if k = "Y".toList then some y else none
  keys := ["t".toList, "V".toList, "X".toList, "Y".toList]
  shelldeps := []
  varflagsexcl := none
  ignored := []
  tasks := ["t".toList]

/-- **C99** is not true as it stands: what the second `:remove` of a variable refers to is not a
dependency, so that a change of it, which changes the value of the variable, does not change the base
hash. -/
theorem second_remove_unseen (hash : Str → Str) :
    "Y".toList ∈ ((removeStore [] []).entry "V".toList).refersTo ∧
      "Y".toList ∉ (buildDeps (removeStore [] []) "V".toList).1 ∧
      baseHash hash (removeStore "a".toList "b".toList) 4 "t".toList =
        baseHash hash (removeStore "a".toList "c".toList) 4 "t".toList := by
  refine ⟨by decide +kernel, by decide +kernel, ?_⟩
  have e : taskData (generateDependencies (removeStore "a".toList "b".toList) 4) 4 "t".toList =
      taskData (generateDependencies (removeStore "a".toList "c".toList) 4) 4 "t".toList := by
    decide +kernel
  unfold baseHash
  rw [e]

/-- **C100.**  A flag of a variable is a dependency if its name is no part of the text of
`BB_SIGNATURE_EXCLUDE_FLAGS`.  Missing: names that are a part of a word of the list
(`dirs_unseen`). -/
theorem flags_are_deps_partial (s : Store) (k n x : Str) (ho : Ordinary s k)
    (hn : n ∈ (s.flags k).names) (hx : s.varflagsexcl = some x) (hx0 : x ≠ [])
    (hsub : ¬ ∃ a b, x = a ++ n ++ b)
    (hex : k ++ "[".toList ++ n ++ "]".toList ∉ words (s.flags k).vardepsexclude)
    (hi : k ++ "[".toList ++ n ++ "]".toList ∉ s.ignored) :
    k ++ "[".toList ++ n ++ "]".toList ∈ (buildDeps s k).1 := by
  obtain ⟨_, ho2, ho3⟩ := ho
  have hfd : k ++ "[".toList ++ n ++ "]".toList ∈ flagDeps s k (s.flags k) := by
    unfold flagDeps
    rw [hx]
    dsimp only
    rw [if_neg hx0, List.mem_map]
    refine ⟨n, List.mem_filter.2 ⟨hn, ?_⟩, rfl⟩
    cases hb : isSub n x with
    | false => rfl
    | true => exact absurd (isSub_iff.1 hb) hsub
  unfold buildDeps
  cases he : s.entry k with
  | module p => exact absurd he (ho2 p)
  | flag n v p => exact absurd he (ho3 n v p)
  | python v p => exact mem_minus.2 ⟨mem_minus.2 ⟨List.mem_append_left _ (List.mem_append_right _ hfd), hex⟩, hi⟩
  | shell v c p r => exact mem_minus.2 ⟨mem_minus.2 ⟨List.mem_append_left _ (List.mem_append_right _ hfd), hex⟩, hi⟩
  | plain v p r => exact mem_minus.2 ⟨mem_minus.2 ⟨List.mem_append_left _ (List.mem_append_right _ hfd), hex⟩, hi⟩

/-- **C100.**  A flag that `BB_SIGNATURE_EXCLUDE_FLAGS` names is not a dependency. -/
theorem named_flags_excluded (s : Store) (k n x : Str) (f : Flags) (hx : s.varflagsexcl = some x)
    (hn : n ∈ words x) : k ++ "[".toList ++ n ++ "]".toList ∉ flagDeps s k f := by
  unfold flagDeps
  rw [hx]
  dsimp only
  by_cases e : x = []
  · rw [if_pos e]; exact fun h => nomatch h
  · rw [if_neg e, List.mem_map]
    rintro ⟨m, hm, e2⟩
    have : m = n := List.append_cancel_left (List.append_cancel_right e2) |> fun h => by
      simpa using h
    subst this
    rw [List.mem_filter] at hm
    have hs : isSub m x = true := by
      have key : ∀ s cur : Str, m ∈ wordsGo s cur → ∃ a b, cur ++ s = a ++ m ++ b := by
        intro s
        induction s with
        | nil =>
          intro cur h
          unfold wordsGo at h
          by_cases e : cur = []
          · simp [e] at h
          · simp [e] at h
            exact ⟨[], [], by simp [h]⟩
        | cons c s ih =>
          intro cur h
          unfold wordsGo at h
          by_cases hw : isWs c = true
          · rw [if_pos hw] at h
            by_cases e : cur = []
            · simp [e] at h
              obtain ⟨a, b, hab⟩ := ih [] h
              exact ⟨cur ++ c :: a, b, by simp at hab; simp [hab]⟩
            · simp [e] at h
              rcases h with h | h
              · exact ⟨[], c :: s, by simp [h]⟩
              · obtain ⟨a, b, hab⟩ := ih [] h
                exact ⟨cur ++ c :: a, b, by simp at hab; simp [hab]⟩
          · rw [if_neg hw] at h
            obtain ⟨a, b, hab⟩ := ih _ h
            exact ⟨a, b, by simpa using hab⟩
      obtain ⟨a, b, h⟩ := key x [] hn
      exact isSub_iff.2 ⟨a, b, by simpa using h⟩
    rw [hs] at hm
    exact absurd hm.2 (by decide)

theorem part_excluded (s : Store) (k n x : Str) (f : Flags) (hx : s.varflagsexcl = some x) (h0 : x ≠ [])
    (hn : isSub n x = true) : k ++ "[".toList ++ n ++ "]".toList ∉ flagDeps s k f := by
  unfold flagDeps
  rw [hx]
  dsimp only
  rw [if_neg h0, List.mem_map]
  rintro ⟨m, hm, e2⟩
  have : m = n := List.append_cancel_left (List.append_cancel_right e2) |> fun h => by
    simpa using h
  subst this
  rw [List.mem_filter, hn] at hm
  exact absurd hm.2 (by decide)

/-- The value of `BB_SIGNATURE_EXCLUDE_FLAGS` in `meta/conf/bitbake.conf:121-126`. -/
@[irreducible] def isarExcludeFlags : Str := "doc deps depends lockfiles vardepsexclude vardeps vardepvalue vardepvalueexclude file-checksums python task nostamp sstate-lockfile-shared prefuncs postfuncs export_func deptask rdeptask recrdeptask nodeprrecs stamp-extra-info sstate-outputdirs filename lineno progress mcdepends number_threads".toList

theorem isar_facts : isSub "dirs".toList isarExcludeFlags = true ∧
    isSub "export".toList isarExcludeFlags = true ∧ "dirs".toList ∉ words isarExcludeFlags ∧
    "export".toList ∉ words isarExcludeFlags ∧ isarExcludeFlags ≠ [] := by
  refine ⟨?_, ?_, ?_, ?_, ?_⟩ <;> decide +kernel

/-- **C100** is not true as it stands: with the list that Isar has, the flags `dirs` (the directory that
a task runs in) and `export` are no dependencies, although the list does not name them: `dirs` is a
part of `sstate-outputdirs`, and `export` of `export_func`. -/
theorem dirs_unseen (s : Store) (k : Str) (f : Flags) (hx : s.varflagsexcl = some isarExcludeFlags) :
    "dirs".toList ∉ words isarExcludeFlags ∧ "export".toList ∉ words isarExcludeFlags ∧
      k ++ "[".toList ++ "dirs".toList ++ "]".toList ∉ flagDeps s k f ∧
      k ++ "[".toList ++ "export".toList ++ "]".toList ∉ flagDeps s k f := by
  exact ⟨isar_facts.2.2.1, isar_facts.2.2.2.1, part_excluded s k _ _ f hx isar_facts.2.2.2.2 isar_facts.1,
    part_excluded s k _ _ f hx isar_facts.2.2.2.2 isar_facts.2.1⟩

/-! ## Tests with `bb.utils.contains` -/

/-- **C101.**  The text that stands for the tests of an entry in two stores is the same exactly if all
tests that are not excluded or ignored have the same results: other changes of the tested variables do
not count, and every change of a result does. -/
theorem tests_exact (s s' : Store) (v : Str) (c : List (Str × List Str)) (ex : List Str)
    (hi : s'.ignored = s.ignored) :
    handleContains s v c ex = handleContains s' v c ex ↔
      ∀ x i, Tests c x i → x ∉ ex → x ∉ s.ignored → (Holds (s.value x) i ↔ Holds (s'.value x) i) := by
  constructor
  · intro h x i h1 h2 h3
    rw [handleContains_eq, handleContains_eq, hi] at h
    exact (tests_text s.value s'.value _).1 (List.append_cancel_left h) (x, i) (mem_tested.2 ⟨h1, h2, h3⟩)
  · exact handleContains_congr v c ex hi.symm

/-- A tested variable is no dependency because of the test. -/
example : handleContains { exStore [] "systemd pam".toList [] with ignored := [] } "v".toList
    [("B".toList, ["systemd".toList, "pam x".toList])] [] =
    "v\nB{pam x} = Unset\nB{systemd} = Set".toList := by decide +kernel

end Bb.Sig
