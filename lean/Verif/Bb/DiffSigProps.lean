import Verif.Bb.DiffSigModel
import Verif.Bb.TaskHashProps
/-!
# Why two signatures differ: what is said and what is not
-/

namespace Bb.DiffSig

open Py

/-! ## Files -/

theorem take_count (x : File) : ∀ (l : List File) (c : File → Int), (take c l).count x = min (l.count x) (c x).toNat
  | [], c => by simp [take]
  | y :: l, c => by
    unfold take
    by_cases hc : c y > 0
    · rw [if_pos hc, List.count_cons, List.count_cons, take_count x l]
      by_cases hxy : y = x
      · subst hxy; simp; omega
      · have h1 : ¬ x = y := fun e => hxy e.symm
        simp [hxy, h1]
    · rw [if_neg hc, List.count_cons, take_count x l]
      by_cases hxy : y = x
      · subst hxy; simp; omega
      · simp [hxy]

theorem take_extra (a b : List File) (x : File) : (take (counter a b) a).count x = a.count x - b.count x := by
  rw [take_count]; unfold counter; omega

/-- The old and the new state of changed files. -/
def olds (d : Diff) : List File := d.changed.map fun c => (c.1, c.2.1)
def news (d : Diff) : List File := d.changed.map fun c => (c.1, c.2.2)

theorem pair_fold (x : File) : ∀ (r : List File) (d : Diff),
    ((r.foldl pair d).added ++ news (r.foldl pair d)).count x = (d.added ++ news d).count x ∧
    ((r.foldl pair d).removed ++ olds (r.foldl pair d)).count x = (d.removed ++ olds d).count x + r.count x
  | [], d => by simp
  | y :: r, d => by
    obtain ⟨h1, h2⟩ := pair_fold x r (pair d y)
    rw [List.foldl_cons, h1, h2]
    unfold pair
    cases hf : d.added.find? (fun z => z.1 == y.1) with
    | none =>
      dsimp only [olds, news]
      refine ⟨rfl, ?_⟩
      rw [List.count_cons]
      simp only [List.count_append, List.count_cons, List.count_nil]
      omega
    | some z =>
      have hz := List.mem_of_find?_eq_some hf
      have hn : z.1 = y.1 := by simpa using List.find?_some hf
      dsimp only [olds, news]
      have hzy : (y.1, z.2) = z := by rw [← hn]
      have hyy : (y.1, y.2) = y := rfl
      simp only [List.map_append, List.map_cons, List.map_nil, List.count_append, hzy]
      constructor
      · by_cases hzx : z = x
        · subst hzx
          have := List.count_pos_iff.2 hz
          rw [List.count_erase_self]
          simp; omega
        · rw [List.count_erase_of_ne (fun e => hzx e.symm)]
          simp [hzx]
      · rw [List.count_cons]
        simp only [List.count_cons, List.count_nil]
        have hb : ((y.1, y.2) == x) = (y == x) := rfl
        rw [hb]; omega

theorem pair_apart : ∀ (r : List File) (d : Diff), (∀ x ∈ d.removed, ∀ y ∈ d.added, x.1 ≠ y.1) →
    ∀ x ∈ (r.foldl pair d).removed, ∀ y ∈ (r.foldl pair d).added, x.1 ≠ y.1
  | [], d, h => h
  | z :: r, d, h => by
    rw [List.foldl_cons]
    apply pair_apart r
    unfold pair
    cases hf : d.added.find? (fun y => y.1 == z.1) with
    | none =>
      dsimp only
      intro x hx y hy
      rcases List.mem_append.1 hx with hx | hx
      · exact h x hx y hy
      · rw [List.mem_singleton.1 hx]
        have := List.find?_eq_none.1 hf y hy
        intro e; exact this (by simp [e])
    | some w =>
      dsimp only
      intro x hx y hy
      exact h x hx y (List.mem_of_mem_erase hy)

/-- **The lines about files say how one list becomes the other.**  With the added files and the new states of changed files, the first list is
the second with the removed files and the old states; no file is given both ways, and a name that is added is not one that is removed. -/
theorem files_explained (a b : List File) :
    (a ++ (filesDiff a b).added ++ news (filesDiff a b)).Perm (b ++ (filesDiff a b).removed ++ olds (filesDiff a b)) ∧
    (∀ x ∈ (filesDiff a b).added ++ news (filesDiff a b), x ∉ (filesDiff a b).removed ++ olds (filesDiff a b)) ∧
    (∀ x ∈ (filesDiff a b).removed, ∀ y ∈ (filesDiff a b).added, x.1 ≠ y.1) := by
  have key : ∀ x, ((filesDiff a b).added ++ news (filesDiff a b)).count x = b.count x - a.count x ∧
      ((filesDiff a b).removed ++ olds (filesDiff a b)).count x = a.count x - b.count x := by
    intro x
    unfold filesDiff
    obtain ⟨h1, h2⟩ := pair_fold x (take (counter a b) a) ⟨[], take (counter b a) b, []⟩
    rw [h1, h2, take_extra]
    have : (olds ⟨[], take (counter b a) b, []⟩) = [] := rfl
    have e2 : (news ⟨[], take (counter b a) b, []⟩) = [] := rfl
    rw [e2]
    simp only [List.append_nil, this, List.count_nil, Nat.zero_add, and_true]
    exact take_extra b a x
  refine ⟨?_, ?_, ?_⟩
  · apply List.perm_iff_count.2
    intro x
    have := key x
    simp only [List.append_assoc, List.count_append] at *
    omega
  · intro x hx hx'
    have h1 := List.count_pos_iff.2 hx
    have h2 := List.count_pos_iff.2 hx'
    have := key x
    omega
  · exact pair_apart _ _ (by intro x hx; cases hx)

/-- No line about files: the same files with the same checksums. -/
theorem files_silent (a b : Rec) : fileLines a b = [] ↔ a.files.Perm b.files := by
  have hp := (files_explained a.files b.files).1
  have hd := (files_explained a.files b.files).2.1
  unfold fileLines
  dsimp only
  generalize filesDiff a.files b.files = d at *
  constructor
  · intro h
    have h' : d.changed = [] ∧ d.added = [] ∧ d.removed = [] := by
      simpa [List.append_eq_nil_iff] using h
    obtain ⟨e1, e2, e3⟩ := h'
    unfold news olds at hp
    rw [e1, e2, e3] at hp
    simpa using hp
  · intro h
    have hx : ∀ x, (d.added ++ news d).count x = 0 ∧ (d.removed ++ olds d).count x = 0 := by
      intro x
      have h1 := List.perm_iff_count.1 hp x
      have h2 := List.perm_iff_count.1 h x
      simp only [List.append_assoc, List.count_append] at h1
      by_cases hc : x ∈ d.added ++ news d
      · have h3 := List.count_eq_zero_of_not_mem (hd x hc)
        have h4 := List.count_pos_iff.2 hc
        simp only [List.count_append] at *
        omega
      · have h3 := List.count_eq_zero_of_not_mem hc
        simp only [List.count_append] at *
        omega
    have e1 : d.added ++ news d = [] := by
      apply List.eq_nil_iff_forall_not_mem.2
      intro x hm; have := List.count_pos_iff.2 hm; have := (hx x).1; omega
    have e2 : d.removed ++ olds d = [] := by
      apply List.eq_nil_iff_forall_not_mem.2
      intro x hm; have := List.count_pos_iff.2 hm; have := (hx x).2; omega
    rw [List.append_eq_nil_iff] at e1 e2
    have e3 : d.changed = [] := by
      have := e1.2; unfold news at this
      exact List.map_eq_nil_iff.1 this
    rw [e1.1, e2.1, e3]; rfl

/-- A file that changed, one that came and one that went; a repeated entry counts. -/
example : filesDiff [("a".toList, "1".toList), ("b".toList, "2".toList), ("c".toList, "3".toList), ("c".toList, "3".toList)]
    [("a".toList, "1".toList), ("b".toList, "5".toList), ("d".toList, "4".toList), ("c".toList, "3".toList)] =
    ⟨[("b".toList, "2".toList, "5".toList)], [("d".toList, "4".toList)], [("c".toList, "3".toList)]⟩ := by decide

/-! ## Variables and dependencies -/

theorem mem_keys {α : Type} {d : Dict α} {k : Str} {v : α} (h : d.lookup k = some v) : k ∈ d.map Prod.fst := by
  induction d with
  | nil => cases h
  | cons e d ih =>
    rw [List.map_cons]
    rw [List.lookup_cons] at h
    by_cases hk : k = e.1
    · rw [hk]; exact List.mem_cons_self
    · have : (k == e.1) = false := by simp [hk]
      rw [this] at h
      exact List.mem_cons_of_mem _ (ih h)

theorem mem_changed {α : Type} {eq : α → α → Bool} {a b : Dict α} {ig : List Str} {k : Str} :
    k ∈ dictChanged eq a b ig ↔ ∃ x y, a.lookup k = some x ∧ b.lookup k = some y ∧ eq x y = false ∧ k ∉ ig := by
  unfold dictChanged
  rw [List.mem_filter]
  constructor
  · rintro ⟨_, h⟩
    cases ha : a.lookup k with
    | none => rw [ha] at h; cases h
    | some x =>
      cases hb : b.lookup k with
      | none => rw [ha, hb] at h; cases h
      | some y =>
        rw [ha, hb] at h
        simp only [Bool.and_eq_true, Bool.not_eq_true', decide_eq_true_eq] at h
        exact ⟨x, y, rfl, rfl, h.1, h.2⟩
  · rintro ⟨x, y, ha, hb, h1, h2⟩
    refine ⟨mem_keys ha, ?_⟩
    rw [ha, hb]
    simp [h1, h2]

/-- **Every variable with another value is named, with both values, and no other.** -/
theorem vars_named (a b : Rec) (v : Str) (x y : Option Str) :
    Line.varChanged v x y ∈ varLines a b ↔ a.varvals.lookup v = some x ∧ b.varvals.lookup v = some y ∧ x ≠ y := by
  unfold varLines sorted
  constructor
  · intro h
    obtain ⟨w, hw, e⟩ := List.mem_map.1 h
    obtain ⟨x', y', ha, hb, hne, _⟩ := mem_changed.1 (mem_sortSet.1 hw)
    cases e
    unfold val
    rw [ha, hb]
    exact ⟨rfl, rfl, by simpa using hne⟩
  · rintro ⟨ha, hb, hne⟩
    refine List.mem_map.2 ⟨v, mem_sortSet.2 (mem_changed.2 ⟨x, y, ha, hb, by simpa using hne, by simp⟩), ?_⟩
    unfold val; rw [ha, hb]; rfl

theorem hashLines_plain (a b : Rec) : ∀ (l : List Str) (out : List Line),
    hashLines false (fun _ _ _ => []) a b l out = out ++ l.map fun t => Line.hashChanged t (hashIn a t) (hashIn b t)
  | [], out => by simp [hashLines]
  | t :: l, out => by
    unfold hashLines
    rw [if_pos rfl, hashLines_plain a b l]
    simp

theorem hashLines_nil (recurse : Str → Str → Str → List Line) (a b : Rec) : ∀ (l : List Str) (out : List Line),
    hashLines false recurse a b l out = [] → out = []
  | [], out, h => h
  | t :: l, out, h => by
    unfold hashLines at h
    split at h
    · have := hashLines_nil recurse a b l _ h
      simp at this
    · simp at h

/-- A line about something that goes into the hash of the task. -/
def Reason : Line → Prop
  | .basehash a b => a ≠ b
  | .fileChanged _ a b => a ≠ b
  | .fileAdded _ => True
  | .fileRemoved _ => True
  | .depsNumber => True
  | .depsChanged l => l ≠ []
  | .taint a b => a ≠ b
  | _ => False

theorem fileLines_reason {a b : Rec} {l : Line} (h : l ∈ fileLines a b) : Reason l := by
  have hd := (files_explained a.files b.files).2.1
  unfold fileLines at h
  dsimp only at h
  generalize filesDiff a.files b.files = d at *
  simp only [List.append_assoc, List.mem_append, List.mem_map] at h
  rcases h with ⟨c, hc, e⟩ | ⟨c, hc, e⟩ | ⟨c, hc, e⟩
  · rw [← e]
    show c.2.1 ≠ c.2.2
    intro he
    apply hd (c.1, c.2.1)
    · refine List.mem_append.2 (Or.inr (List.mem_map.2 ⟨c, hc, ?_⟩))
      rw [he]
    · exact List.mem_append.2 (Or.inr (List.mem_map.2 ⟨c, hc, rfl⟩))
  · rw [← e]; trivial
  · rw [← e]; trivial

theorem depPairs_nil {a b : Rec} (hl : a.runtaskdeps.length = b.runtaskdeps.length) (h : depPairs a b = []) :
    a.runtaskdeps.map (hashIn a) = b.runtaskdeps.map (hashIn b) := by
  unfold depPairs at h
  rw [List.filter_eq_nil_iff] at h
  generalize a.runtaskdeps = l at *
  generalize b.runtaskdeps = m at *
  induction l generalizing m with
  | nil => cases m with
    | nil => rfl
    | cons y m => simp at hl
  | cons x l ih => cases m with
    | nil => simp at hl
    | cons y m =>
      rw [List.map_cons, List.map_cons]
      have h0 := h (x, y) (by simp)
      simp only [decide_eq_true_eq, Classical.not_not] at h0
      have h0' : hashIn a x = hashIn b y := by simpa using h0
      rw [h0', ih m (by simpa using hl) (fun p hp => h p (by simp [hp]))]

/-- **A task hash that differs is explained, if files keep their order.**  If the hashes of two records differ, a line of the output is about something
that goes into them.  Missing: that the same files may stand in another order, see `moved_layers`. -/
theorem difference_explained_partial (hash : Str → Str) (a b : Rec)
    (h : Bb.TaskHash.calcTaskhash hash a.forTask ≠ Bb.TaskHash.calcTaskhash hash b.forTask)
    (ho : a.files.Perm b.files → a.files = b.files) :
    ∃ l ∈ compare false (fun _ _ _ => []) a b, Reason l := by
  apply Classical.byContradiction
  intro hno
  have hno : ∀ l ∈ compare false (fun _ _ _ => []) a b, ¬ Reason l := fun l hl hr => hno ⟨l, hl, hr⟩
  unfold compare at hno
  rw [hashLines_plain] at hno
  simp only [List.mem_append] at hno
  have hbase : a.basehash = b.basehash := by
    apply Classical.byContradiction
    intro hne
    refine hno (.basehash a.basehash b.basehash) ?_ hne
    refine Or.inl (Or.inl (Or.inl (Or.inl (Or.inl (Or.inl (Or.inl (Or.inl ?_)))))))
    unfold headLines
    rw [if_neg (c := a.basehash = b.basehash ∨ false = true) (by intro h; rcases h with h | h; exact hne h; cases h)]
    simp
  have hfiles : a.files = b.files := by
    apply ho
    apply (files_silent a b).1
    apply List.eq_nil_iff_forall_not_mem.2
    intro l hl
    exact hno l (Or.inl (Or.inl (Or.inl (Or.inl (Or.inl (Or.inr hl)))))) (fileLines_reason hl)
  have hdl : ∀ l ∈ depLines false a b, ¬ Reason l := fun l hl => hno l (Or.inl (Or.inl (Or.inl (Or.inl (Or.inr hl)))))
  have hlen : a.runtaskdeps.length = b.runtaskdeps.length := by
    apply Classical.byContradiction
    intro hne
    apply hdl .depsNumber _ trivial
    unfold depLines
    rw [if_neg (by simp), if_pos hne]; simp
  have hpairs : depPairs a b = [] := by
    apply Classical.byContradiction
    intro hne
    apply hdl (.depsChanged (depPairs a b)) _ hne
    unfold depLines
    rw [if_neg (by simp), if_neg (by simpa using hlen), if_neg hne]; simp
  have htaint : a.taint = b.taint := by
    apply Classical.byContradiction
    intro hne
    refine hno (.taint a.taint b.taint) (Or.inr ?_) hne
    unfold taintLines; rw [if_neg hne]; simp
  apply h
  have hd := depPairs_nil hlen hpairs
  unfold Bb.TaskHash.calcTaskhash Rec.forTask
  dsimp only
  have e1 : (a.runtaskdeps.map fun p => (a.runtaskhashes.lookup p).getD []) = b.runtaskdeps.map fun p => (b.runtaskhashes.lookup p).getD [] := hd
  rw [hbase, hfiles, htaint, e1]

/-- With a callback for the dependencies there is still a line. -/
theorem difference_not_silent_partial (hash : Str → Str) (recurse : Str → Str → Str → List Line) (a b : Rec)
    (h : Bb.TaskHash.calcTaskhash hash a.forTask ≠ Bb.TaskHash.calcTaskhash hash b.forTask)
    (ho : a.files.Perm b.files → a.files = b.files) : compare false recurse a b ≠ [] := by
  intro he
  obtain ⟨l, hl, hr⟩ := difference_explained_partial hash a b h ho
  unfold compare at he hl
  rw [List.append_eq_nil_iff] at he
  have hout := hashLines_nil _ _ _ _ _ he.1
  rw [hashLines_plain, he.2, hout] at hl
  simp only [List.nil_append, List.append_nil] at hl
  obtain ⟨t, _, e⟩ := List.mem_map.1 hl
  rw [← e] at hr; exact hr

/-- A difference of a hash of a dependency. -/
example : ∃ l ∈ compare false (fun _ _ _ => []) ⟨"t".toList, [], [], [], "1".toList, [], [], [], ["p:x".toList], [("p:x".toList, "7".toList)], none⟩
    ⟨"t".toList, [], [], [], "1".toList, [], [], [], ["p:x".toList], [("p:x".toList, "8".toList)], none⟩, l = .depsChanged [("p:x".toList, "p:x".toList)] :=
  ⟨.depsChanged [("p:x".toList, "p:x".toList)], by decide, rfl⟩

/-! ## The base hash -/

theorem depData_eq {a b : Dict (Option Str)} {x y : Str} : ∀ {l : List Str}, Bb.Sig.depData a l = some x → Bb.Sig.depData b l = some y →
    (∀ k ∈ l, ∀ u v, a.lookup k = some u → b.lookup k = some v → u = v) → x = y := by
  intro l
  induction l generalizing x y with
  | nil => intro h1 h2 _; simp only [Bb.Sig.depData, Option.some.injEq] at h1 h2; rw [← h1, ← h2]
  | cons k l ih =>
    intro h1 h2 hk
    unfold Bb.Sig.depData at h1 h2
    cases ha : a.lookup k with
    | none => rw [ha] at h1; cases h1
    | some u =>
      cases hb : b.lookup k with
      | none => rw [hb] at h2; cases h2
      | some v =>
        rw [ha] at h1; rw [hb] at h2
        cases ra : Bb.Sig.depData a l with
        | none => rw [ra] at h1; cases h1
        | some r =>
          cases rb : Bb.Sig.depData b l with
          | none => rw [rb] at h2; cases h2
          | some r' =>
            rw [ra] at h1; rw [rb] at h2
            simp only [Option.some.injEq] at h1 h2
            have e1 := hk k List.mem_cons_self u v ha hb
            have e2 := ih ra rb (fun j hj => hk j (List.mem_cons_of_mem _ hj))
            rw [← h1, ← h2, e1, e2]

/-- **A base hash that differs is explained**: by other dependencies, or by a variable with its two values. -/
theorem base_explained (hash : Str → Str) (a b : Rec) (ht : a.task = b.task) (ha : Bb.Sig.calcBasehash hash a.forBase = some a.basehash)
    (hb : Bb.Sig.calcBasehash hash b.forBase = some b.basehash) (hne : a.basehash ≠ b.basehash) :
    Line.basehash a.basehash b.basehash ∈ compare false (fun _ _ _ => []) a b ∧
    (Line.taskdeps ∈ compare false (fun _ _ _ => []) a b ∨
      ∃ v x y, x ≠ y ∧ Line.varChanged v x y ∈ compare false (fun _ _ _ => []) a b) := by
  have hmem : ∀ l, l ∈ headLines false a b ∨ l ∈ varLines a b → l ∈ compare false (fun _ _ _ => []) a b := by
    intro l hl
    unfold compare
    rw [hashLines_plain]
    simp only [List.mem_append]
    rcases hl with hl | hl
    · exact Or.inl (Or.inl (Or.inl (Or.inl (Or.inl (Or.inl (Or.inl (Or.inl hl)))))))
    · exact Or.inl (Or.inl (Or.inl (Or.inl (Or.inl (Or.inl (Or.inr hl))))))
  refine ⟨hmem _ (Or.inl ?_), ?_⟩
  · unfold headLines
    rw [if_neg (c := a.basehash = b.basehash ∨ false = true) (by intro h; rcases h with h | h; exact hne h; cases h)]
    simp
  · by_cases hd : a.taskdeps = b.taskdeps
    · right
      apply Classical.byContradiction
      intro hno
      have hall : ∀ v x y, a.varvals.lookup v = some x → b.varvals.lookup v = some y → x = y := by
        intro v x y hx hy
        apply Classical.byContradiction
        intro hxy
        exact hno ⟨v, x, y, hxy, hmem _ (Or.inr ((vars_named a b v x y).2 ⟨hx, hy, hxy⟩))⟩
      apply hne
      unfold Bb.Sig.calcBasehash Rec.forBase at ha hb
      dsimp only at ha hb
      rw [← ht, ← hd] at hb
      cases va : a.varvals.lookup a.task with
      | none => rw [va] at ha; cases ha
      | some u =>
        cases vb : b.varvals.lookup a.task with
        | none => rw [vb] at hb; cases hb
        | some v =>
          rw [va] at ha; rw [vb] at hb
          cases ra : Bb.Sig.depData a.varvals (sortSet a.taskdeps) with
          | none => rw [ra] at ha; cases ha
          | some r =>
            cases rb : Bb.Sig.depData b.varvals (sortSet a.taskdeps) with
            | none => rw [rb] at hb; cases hb
            | some r' =>
              rw [ra] at ha; rw [rb] at hb
              simp only [Option.some.injEq] at ha hb
              rw [← ha, ← hb, hall _ _ _ va vb, depData_eq ra rb (fun k _ => hall k)]
    · left
      apply hmem; left
      unfold headLines
      rw [if_neg hd]; simp

/-! ## Records of directories keep their order -/

theorem recorded_clean {f : Str} (h : Bb.TaskHash.afterDot f ≠ none) : Bb.TaskHash.recordedName f = Bb.TaskHash.cleanPath f := by
  unfold Bb.TaskHash.recordedName Bb.TaskHash.cleanPath
  cases hf : Bb.TaskHash.afterDot f with
  | none => exact absurd hf h
  | some r => rfl

/-- The record of a task whose files are all in directories, each with a name of its own, is sorted by these names. -/
theorem recorded_sorted (b : Bb.TaskHash.Build) (h : Str → Str) (now : Option Str) (t : Str)
    (hd : ∀ f ∈ (b.task t).files, Bb.TaskHash.afterDot f.1 ≠ none)
    (hn : ((b.task t).files.map fun f => Bb.TaskHash.cleanPath f.1).Nodup) :
    (Bb.TaskHash.dumpSig b h now t).files.Pairwise fun x y => strLe x.1 y.1 = true ∧ x.1 ≠ y.1 := by
  have hs : (sortBy Bb.TaskHash.fileLe (b.task t).files).Pairwise fun x y => Bb.TaskHash.fileLe x y = true :=
    sortBy_sorted (le := Bb.TaskHash.fileLe) (fun x y z => strLe_trans (Bb.TaskHash.cleanPath x.1) (Bb.TaskHash.cleanPath y.1) (Bb.TaskHash.cleanPath z.1))
      (fun x y => strLe_total (Bb.TaskHash.cleanPath x.1) (Bb.TaskHash.cleanPath y.1)) _
  have hp := sortBy_perm Bb.TaskHash.fileLe (b.task t).files
  have hn' : ((sortBy Bb.TaskHash.fileLe (b.task t).files).map fun f => Bb.TaskHash.cleanPath f.1).Nodup :=
    (hp.map _).nodup_iff.2 hn
  show ((sortBy Bb.TaskHash.fileLe (b.task t).files).map fun f => (Bb.TaskHash.recordedName f.1, f.2)).Pairwise _
  rw [List.pairwise_map]
  have hn2 : (sortBy Bb.TaskHash.fileLe (b.task t).files).Pairwise fun x y => Bb.TaskHash.cleanPath x.1 ≠ Bb.TaskHash.cleanPath y.1 :=
    List.pairwise_map.1 hn'
  refine (List.Pairwise.and hs hn2).imp_of_mem ?_
  intro x y hx hy hxy
  dsimp only
  rw [recorded_clean (hd x (hp.mem_iff.1 hx)), recorded_clean (hd y (hp.mem_iff.1 hy))]
  exact hxy

/-- **The files of directories are always explained**: the condition of `difference_explained_partial` holds for the records of tasks whose files are in directories. -/
theorem directories_ordered (b b' : Bb.TaskHash.Build) (h h' : Str → Str) (now now' : Option Str) (t t' : Str)
    (hd : ∀ f ∈ (b.task t).files, Bb.TaskHash.afterDot f.1 ≠ none) (hn : ((b.task t).files.map fun f => Bb.TaskHash.cleanPath f.1).Nodup)
    (hd' : ∀ f ∈ (b'.task t').files, Bb.TaskHash.afterDot f.1 ≠ none) (hn' : ((b'.task t').files.map fun f => Bb.TaskHash.cleanPath f.1).Nodup)
    (hp : (Bb.TaskHash.dumpSig b h now t).files.Perm (Bb.TaskHash.dumpSig b' h' now' t').files) :
    (Bb.TaskHash.dumpSig b h now t).files = (Bb.TaskHash.dumpSig b' h' now' t').files := by
  refine List.Perm.eq_of_pairwise (le := fun x y => strLe x.1 y.1 = true ∧ x.1 ≠ y.1) ?_ (recorded_sorted b h now t hd hn)
    (recorded_sorted b' h' now' t' hd' hn') hp
  intro x y _ _ h1 h2
  exact absurd (strLe_antisymm h1.1 h2.1) h1.2

/-! ## Files at other places -/

theorem insertBy_map_of {α β : Type} {le : α → α → Bool} {le' : β → β → Bool} (f : α → β) (a : α) : ∀ (l : List α),
    (∀ x ∈ l, le' (f a) (f x) = le a x) → insertBy le' (f a) (l.map f) = (insertBy le a l).map f
  | [], _ => rfl
  | x :: l, h => by
    rw [List.map_cons]
    unfold insertBy
    rw [h x List.mem_cons_self]
    split
    · rfl
    · rw [List.map_cons, insertBy_map_of f a l (fun y hy => h y (List.mem_cons_of_mem _ hy))]

theorem sortBy_map_of {α β : Type} {le : α → α → Bool} {le' : β → β → Bool} (f : α → β) : ∀ (l : List α),
    (∀ x ∈ l, ∀ y ∈ l, le' (f x) (f y) = le x y) → sortBy le' (l.map f) = (sortBy le l).map f
  | [], _ => rfl
  | x :: l, h => by
    rw [List.map_cons]
    unfold sortBy
    rw [sortBy_map_of f l (fun a ha b hb => h a (List.mem_cons_of_mem _ ha) b (List.mem_cons_of_mem _ hb))]
    apply insertBy_map_of
    intro y hy
    exact h x List.mem_cons_self y (List.mem_cons_of_mem _ ((sortBy_perm le l).mem_iff.1 hy))

/-- **The hash of a task does not depend on where its files are, as long as their order is kept.**  Missing: other orders, see `moved_layers`. -/
theorem place_irrelevant_partial (b b' : Bb.TaskHash.Build) (t : Str) (h : Str → Str) (g : Str → Str)
    (hbase : (b'.task t).base = (b.task t).base) (hdeps : Bb.TaskHash.runtaskdeps b' t = Bb.TaskHash.runtaskdeps b t)
    (htaint : Bb.TaskHash.taint (b'.task t) = Bb.TaskHash.taint (b.task t))
    (hfiles : (b'.task t).files = (b.task t).files.map fun f => (g f.1, f.2))
    (hdir : ∀ f ∈ (b.task t).files, Bb.TaskHash.afterDot (g f.1) = Bb.TaskHash.afterDot f.1)
    (horder : ∀ x ∈ (b.task t).files, ∀ y ∈ (b.task t).files,
      strLe (Bb.TaskHash.cleanPath (g x.1)) (Bb.TaskHash.cleanPath (g y.1)) = strLe (Bb.TaskHash.cleanPath x.1) (Bb.TaskHash.cleanPath y.1)) :
    Bb.TaskHash.hashData b' t h = Bb.TaskHash.hashData b t h := by
  unfold Bb.TaskHash.hashData
  rw [hbase, hdeps, htaint, hfiles, sortBy_map_of (le := Bb.TaskHash.fileLe) (le' := Bb.TaskHash.fileLe) _ _ horder, List.map_map]
  have : (sortBy Bb.TaskHash.fileLe (b.task t).files).map (Bb.TaskHash.fileText ∘ fun f => (g f.1, f.2)) =
      (sortBy Bb.TaskHash.fileLe (b.task t).files).map Bb.TaskHash.fileText := by
    apply List.map_congr_left
    intro f hf
    have := hdir f ((sortBy_perm _ _).mem_iff.1 hf)
    show Bb.TaskHash.fileText (g f.1, f.2) = Bb.TaskHash.fileText f
    unfold Bb.TaskHash.fileText
    dsimp only
    rw [this]
  rw [this]

/-! ## What is not said -/

/-- A task with two files, in two layers. -/
def layers (f g : Str) : Bb.TaskHash.Build where
  tids := ["t".toList]
  task _ := { pn := "p".toList, name := "do_unpack".toList, base := "0".toList, files := [(f, "1".toList), (g, "2".toList)] }
  keep _ _ := true

/-- The record of the task. -/
def layersRec (f g : Str) : Rec :=
  let s := Bb.TaskHash.dumpSig (layers f g) (fun _ => []) none "t".toList
  ⟨"do_unpack".toList, [], [], [], s.basehash, [], [("do_unpack".toList, some "x".toList)], s.files, s.runtaskdeps, s.runtaskhashes, s.taint⟩

/-- **Layers at other places.**  The files of a task are sorted by their paths, but recorded and hashed without their directories.  If two layers change the order
of their paths, the hash changes although no file does, and not a line is printed about it. -/
theorem moved_layers :
    Bb.TaskHash.calcTaskhash id (layersRec "/src/isar/a.patch".toList "/src/own/b.patch".toList).forTask ≠
      Bb.TaskHash.calcTaskhash id (layersRec "/work/isar/a.patch".toList "/own/b.patch".toList).forTask ∧
    compare false (fun _ _ _ => []) (layersRec "/src/isar/a.patch".toList "/src/own/b.patch".toList)
      (layersRec "/work/isar/a.patch".toList "/own/b.patch".toList) = [] := by decide +kernel

/-- Layers that are moved together keep their order. -/
example : Bb.TaskHash.hashData (layers "/home/src/isar/a.patch".toList "/home/src/own/b.patch".toList) "t".toList id =
    Bb.TaskHash.hashData (layers "/src/isar/a.patch".toList "/src/own/b.patch".toList) "t".toList id :=
  place_irrelevant_partial _ _ _ _ (fun f => "/home".toList ++ f) rfl rfl rfl rfl (by decide +kernel) (by decide +kernel)

/-- Two directories with the same files. -/
example : (Bb.TaskHash.dumpSig (layers "/src/d/./b".toList "/src/d/./a".toList) id none "t".toList).files = [("./a".toList, "2".toList), ("./b".toList, "1".toList)] := by
  decide +kernel

theorem changed_self {α : Type} {eq : α → α → Bool} (he : ∀ x, eq x x = true) (d : Dict α) (ig : List Str) : dictChanged eq d d ig = [] := by
  apply List.eq_nil_iff_forall_not_mem.2
  intro k hk
  obtain ⟨x, y, h1, h2, h3, _⟩ := mem_changed.1 hk
  rw [h1] at h2; cases h2
  rw [he] at h3; cases h3

theorem lookup_of_key {α : Type} : ∀ {d : Dict α} {k : Str}, k ∈ d.map Prod.fst → (d.lookup k).isNone = false
  | [], _, h => by cases h
  | e :: d, k, h => by
    rw [List.lookup_cons]
    by_cases hk : k = e.1
    · have : (k == e.1) = true := by simp [hk]
      rw [this]; rfl
    · have : (k == e.1) = false := by simp [hk]
      rw [this]
      rw [List.map_cons] at h
      rcases List.mem_cons.1 h with h | h
      · exact absurd h hk
      · exact lookup_of_key h

theorem added_self {α : Type} (d : Dict α) : dictAdded d d = [] := by
  apply List.filter_eq_nil_iff.2
  intro k hk
  rw [lookup_of_key hk]; simp

/-- **Nothing is said of a record and itself.** -/
theorem same_says_nothing (collapsed : Bool) (recurse : Str → Str → Str → List Line) (a : Rec) : compare collapsed recurse a a = [] := by
  have hs : ∀ l, sameSet l l = true := by intro l; unfold sameSet; simp
  have h0 : sorted [] = [] := rfl
  have hdp : depPairs a a = [] := by
    unfold depPairs
    apply List.filter_eq_nil_iff.2
    intro p hp
    have : p.1 = p.2 := by
      have hz : ∀ (l : List Str) (p : Str × Str), p ∈ l.zip l → p.1 = p.2 := by
        intro l
        induction l with
        | nil => intro p hp; cases hp
        | cons x l ih =>
          intro p hp
          rw [List.zip_cons_cons] at hp
          rcases List.mem_cons.1 hp with e | hp
          · rw [e]
          · exact ih p hp
      exact hz _ _ hp
    rw [this]; simp
  unfold compare
  rw [changed_self (by simp) a.runtaskhashes, h0]
  unfold hashLines
  unfold headLines gendepLines varLines depLines taskAddedLines taskRemovedLines taintLines
  rw [hs, hs, changed_self hs, changed_self (by simp) a.varvals, added_self, added_self, (files_silent a a).2 (List.Perm.refl _), hdp, h0]
  simp

/-- **With the callback, the task's own changes are not printed**: the first dependency that the callback explains takes the place of all lines before. -/
theorem own_change_hidden :
    compare false (fun _ _ _ => [.varChanged "x".toList none none])
      ⟨"t".toList, [], [], [], "1".toList, [], [("t".toList, some "old".toList)], [], ["p:x".toList], [("p:x".toList, "7".toList)], none⟩
      ⟨"t".toList, [], [], [], "2".toList, [], [("t".toList, some "new".toList)], [], ["p:x".toList], [("p:x".toList, "8".toList)], none⟩ =
    [.hashChanged "p:x".toList "7".toList "8".toList, .varChanged "x".toList none none] := by decide +kernel

end Bb.DiffSig
