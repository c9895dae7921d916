import Verif.Bb.ResolveKeep
/-!
# Lemmas about causes, about builds that end at an error, and about the end of the loops
-/

namespace Bb.Resolve
open Py

/-! ## Causes, for every outcome -/

/-- The data a call leaves, whether it returns or raises. -/
def Leaves (P : TD → Prop) (o : Out) : Prop := ∀ st, (o = .ok st ∨ ∃ b, o = .raised b st) → P st

theorem leaves_ok {P : TD → Prop} {st : TD} (h : P st) : Leaves P (.ok st) := by
  rintro s (e | ⟨b, e⟩)
  · injection e with e; exact e ▸ h
  · cases e

theorem leaves_raised {P : TD → Prop} {st : TD} {b : Bool} (h : P st) : Leaves P (.raised b st) := by
  rintro s (e | ⟨b, e⟩)
  · cases e
  · injection e with _ e; exact e ▸ h

theorem leaves_stop {P : TD → Prop} : Leaves P .stop := by
  rintro s (e | ⟨b, e⟩) <;> cases e

theorem leaves_bind {P : TD → Prop} {o : Out} {f : TD → Out} (h : Leaves P o) (hf : ∀ s, P s → Leaves P (f s)) :
    Leaves P (o.bind f) := by
  cases o with
  | ok s => exact hf s (h s (Or.inl rfl))
  | raised b s => exact leaves_raised (h s (Or.inr ⟨b, rfl⟩))
  | stop => exact leaves_stop

theorem leaves_each {P : TD → Prop} {f : TD → Str → Out} : ∀ {l : List Str} {st : TD},
    (∀ s a, a ∈ l → P s → Leaves P (f s a)) → P st → Leaves P (each f l st)
  | [], _, _, h => leaves_ok h
  | a :: l, _, hf, h => leaves_bind (hf _ a List.mem_cons_self h) fun _ hs =>
      leaves_each (fun s b hb => hf s b (List.mem_cons_of_mem _ hb)) hs

structure Caused (D : Data) (st : TD) : Prop where
  fns : ∀ x, x ∈ st.failedFns → Broken D .file x
  deps : ∀ x, x ∈ st.failedDeps → Broken D .name x
  rdeps : ∀ x, x ∈ st.failedRdeps → Broken D .pkg x
  prov : ∀ t x, x ∈ provs st.build t → x ∈ D.choose t ∧ D.ignored t = false
  rprov : ∀ t x, x ∈ provs st.run t → (∃ l, D.rchoose t = some l ∧ x ∈ l) ∧ D.ignored t = false

def FailCause (D : Data) (fail : TD → Str → Out) : Prop :=
  ∀ st fn, Caused D st → Broken D .file fn → Leaves (Caused D) (fail st fn)

section
variable {D : Data} {halt : Bool}

theorem removeBuild_cause {fail : TD → Str → Out} (hf : FailCause D fail) {st : TD} {t : Str} (h : Caused D st)
    (hb : Broken D .name t) : Leaves (Caused D) (removeBuild D halt fail st t) := by
  refine leaves_bind (leaves_each (fun s a ha hs => ?_) ?_) fun s1 hs1 => leaves_bind (leaves_each (fun s a ha hs => ?_) hs1) ?_
  · refine hf s a hs (.dep (Or.inl ?_) hb)
    simpa using (List.mem_filter.1 ha).2
  · exact { h with
      deps := fun x hx => by
        rcases List.mem_append.1 hx with hx | hx
        · exact h.deps x hx
        · rw [List.mem_singleton.1 hx]
          exact hb }
  · refine hf s a hs (.dep (Or.inr ?_) hb)
    simpa using (List.mem_filter.1 ha).2
  · intro s2 hs2
    split
    · exact leaves_raised hs2
    · exact leaves_ok hs2

theorem removeRun_cause {fail : TD → Str → Out} (hf : FailCause D fail) {st : TD} {t : Str} (h : Caused D st)
    (hb : Broken D .pkg t) : Leaves (Caused D) (removeRun D fail st t) := by
  refine leaves_bind (leaves_each (fun s a ha hs => ?_) ?_) fun s1 hs1 => leaves_each (fun s a ha hs => ?_) hs1
  · refine hf s a hs (.rdep (Or.inl ?_) hb)
    simpa using (List.mem_filter.1 ha).2
  · exact { h with
      rdeps := fun x hx => by
        rcases List.mem_append.1 hx with hx | hx
        · exact h.rdeps x hx
        · rw [List.mem_singleton.1 hx]
          exact hb }
  · refine hf s a hs (.rdep (Or.inr ?_) hb)
    simpa using (List.mem_filter.1 ha).2

theorem caused_build {st : TD} {t : Str} {v : List Str} (h : Caused D st)
    (hv : ∀ x, x ∈ v → x ∈ D.choose t ∧ D.ignored t = false) : Caused D { st with build := st.build.set t v } :=
  { h with
    prov := fun s x hx => by
      have hx : x ∈ provs (st.build.set t v) s := hx
      rw [provs_set] at hx
      by_cases e : t = s
      · rw [if_pos e] at hx
        exact e ▸ hv x hx
      · rw [if_neg e] at hx
        exact h.prov s x hx }

theorem caused_run {st : TD} {t : Str} {v : List Str} (h : Caused D st)
    (hv : ∀ x, x ∈ v → (∃ l, D.rchoose t = some l ∧ x ∈ l) ∧ D.ignored t = false) : Caused D { st with run := st.run.set t v } :=
  { h with
    rprov := fun s x hx => by
      have hx : x ∈ provs (st.run.set t v) s := hx
      rw [provs_set] at hx
      by_cases e : t = s
      · rw [if_pos e] at hx
        exact e ▸ hv x hx
      · rw [if_neg e] at hx
        exact h.rprov s x hx }

theorem fail_cause (D : Data) (halt : Bool) : ∀ n, FailCause D (failFn D halt n)
  | 0 => fun _ _ _ _ => leaves_stop
  | n + 1 => fun st fn h hb => by
    unfold failFn
    by_cases hm : fn ∈ st.failedFns
    · rw [if_pos hm]; exact leaves_ok h
    · rw [if_neg hm]
      have ih := fail_cause D halt n
      refine leaves_bind (leaves_each (fun s t _ hs => ?_) ?_) fun s1 hs1 => leaves_each (fun s t _ hs => ?_) hs1
      · unfold cleanBuild
        by_cases h1 : fn ∈ provs s.build t
        · rw [if_pos h1]
          obtain ⟨p1, p2⟩ := hs.prov t fn h1
          by_cases h2 : (provs s.build t).erase fn = []
          · rw [if_pos h2]
            exact removeBuild_cause ih (caused_build hs nofun) (.one p2 p1 hb)
          · rw [if_neg h2]
            exact leaves_ok (caused_build hs fun x hx => hs.prov t x (List.mem_of_mem_erase hx))
        · rw [if_neg h1]; exact leaves_ok hs
      · exact { h with
          fns := fun x hx => by
            rcases List.mem_append.1 hx with hx | hx
            · exact h.fns x hx
            · rw [List.mem_singleton.1 hx]
              exact hb }
      · unfold cleanRun
        by_cases h1 : fn ∈ provs s.run t
        · rw [if_pos h1]
          obtain ⟨⟨l, p1, p3⟩, p2⟩ := hs.rprov t fn h1
          by_cases h2 : (provs s.run t).erase fn = []
          · rw [if_pos h2]
            exact removeRun_cause ih (caused_run hs nofun) (.rone p2 p1 p3 hb)
          · rw [if_neg h2]
            exact leaves_ok (caused_run hs fun x hx => hs.rprov t x (List.mem_of_mem_erase hx))
        · rw [if_neg h1]; exact leaves_ok hs

theorem Caused.touch {K R : Str → Prop} {a b : TD} (h : Caused D a) (x : Touch K R a b) : Caused D b where
  fns y hy := h.fns y (x.fns ▸ hy)
  deps y hy := h.deps y (x.deps ▸ hy)
  rdeps y hy := h.rdeps y (x.rdeps ▸ hy)
  prov t y hy := h.prov t y (x.bprovs t ▸ hy)
  rprov t y hy := h.rprov t y (x.rprovs t ▸ hy)

theorem addTasks_cause {fail : TD → Str → Out} (hf : FailCause D fail) {st : TD} {fn : Str} (h : Caused D st) :
    Leaves (Caused D) (addTasks D fail st fn) := by
  by_cases h1 : fn ∈ st.failedFns
  · unfold addTasks; rw [if_pos h1]; exact leaves_stop
  by_cases h2 : fn ∈ st.seen
  · unfold addTasks; rw [if_neg h1, if_pos h2]; exact leaves_ok h
  have ht := (entered_touch D st fn).1
  have h0 : Caused D { st with seen := st.seen ++ [fn] } := { h with }
  rcases addTasks_cases (D := D) (fail := fail) h1 h2 with ⟨s, t1, c, e⟩ | ⟨s, t1, _, _, e⟩
  · rw [e]
    refine hf _ _ ((h0.touch ht).touch t1) ?_
    rcases c with ⟨d, c1, c2⟩ | ⟨d, c1, c2⟩
    · exact .dep (Or.inl c1) (h.deps d c2)
    · exact .rdep (Or.inl c1) (h.rdeps d c2)
  · rw [e]
    exact leaves_ok ((h0.touch ht).touch t1)

theorem addBuildTarget_caused {st : TD} {t fn : Str} (h : Caused D st) (hc : fn ∈ D.choose t) (hi : D.ignored t = false) :
    Caused D (addBuildTarget st fn t) := by
  unfold addBuildTarget
  by_cases hp : fn ∈ provs st.build t
  · rw [if_pos hp]; exact h
  · rw [if_neg hp]
    refine caused_build h fun x hx => ?_
    rcases List.mem_append.1 hx with hx | hx
    · exact h.prov t x hx
    · rw [List.mem_singleton.1 hx]; exact ⟨hc, hi⟩

theorem addRunTarget_caused {st : TD} {t fn : Str} (h : Caused D st) (hc : ∃ l, D.rchoose t = some l ∧ fn ∈ l)
    (hi : D.ignored t = false) : Caused D (addRunTarget st fn t) := by
  unfold addRunTarget
  by_cases hp : fn ∈ provs st.run t
  · rw [if_pos hp]; exact h
  · rw [if_neg hp]
    refine caused_run h fun x hx => ?_
    rcases List.mem_append.1 hx with hx | hx
    · exact h.rprov t x hx
    · rw [List.mem_singleton.1 hx]; exact ⟨hc, hi⟩

theorem useBuild_cause {fail : TD → Str → Out} (hf : FailCause D fail) {st : TD} {t fn : Str} (h : Caused D st)
    (hc : fn ∈ D.choose t) (hi : D.ignored t = false) : Leaves (Caused D) (useBuild D fail t st fn) := by
  unfold useBuild
  by_cases hm : fn ∈ st.failedFns
  · rw [if_pos hm]; exact leaves_ok h
  · rw [if_neg hm]
    exact addTasks_cause hf (addBuildTarget_caused h hc hi)

theorem useRun_cause {fail : TD → Str → Out} (hf : FailCause D fail) {st : TD} {t fn : Str} (h : Caused D st)
    (hc : ∃ l, D.rchoose t = some l ∧ fn ∈ l) (hi : D.ignored t = false) : Leaves (Caused D) (useRun D fail t st fn) := by
  unfold useRun
  by_cases hm : fn ∈ st.failedFns
  · rw [if_pos hm]; exact leaves_ok h
  · rw [if_neg hm]
    exact addTasks_cause hf (addRunTarget_caused h hc hi)

theorem addProvider_cause {fail : TD → Str → Out} (hf : FailCause D fail) {st : TD} {t : Str} (h : Caused D st) :
    Leaves (Caused D) (addProvider D fail st t) := by
  unfold addProvider
  by_cases hi : D.ignored t = true
  · rw [if_pos hi]; exact leaves_ok h
  rw [if_neg hi]
  by_cases hp : provs st.build t ≠ []
  · rw [if_pos hp]; exact leaves_ok h
  rw [if_neg hp]
  by_cases he : (D.choose t).filter (fun fn => fn ∉ st.failedFns) = []
  · rw [if_pos he]; exact leaves_raised h
  · rw [if_neg he]
    exact leaves_each (fun s a ha hs => useBuild_cause hf hs (List.mem_filter.1 ha).1 (by simpa using hi)) h

theorem addRprovider_cause {fail : TD → Str → Out} (hf : FailCause D fail) {st : TD} {t : Str} (h : Caused D st) :
    Leaves (Caused D) (addRprovider D fail st t) := by
  unfold addRprovider
  by_cases hi : D.ignored t = true
  · rw [if_pos hi]; exact leaves_ok h
  rw [if_neg hi]
  by_cases hp : provs st.run t ≠ []
  · rw [if_pos hp]; exact leaves_ok h
  rw [if_neg hp]
  cases hr : D.rchoose t with
  | none => exact leaves_raised h
  | some m =>
    dsimp only
    by_cases he : m.filter (fun fn => fn ∉ st.failedFns) = []
    · rw [if_pos he]; exact leaves_raised h
    · rw [if_neg he]
      exact leaves_each (fun s a ha hs => useRun_cause hf hs ⟨m, hr, (List.mem_filter.1 ha).1⟩ (by simpa using hi)) h

end

theorem each_raised {P : TD → Prop} {f : TD → Str → Out} {b : Bool} {st' : TD} : ∀ {l : List Str} {st : TD},
    (∀ s a, a ∈ l → P s → Leaves P (f s a)) → P st → each f l st = .raised b st' → ∃ s a, a ∈ l ∧ P s ∧ f s a = .raised b st'
  | [], _, _, _, e => by cases e
  | a :: l, st, hf, h, e => by
    unfold each at e
    cases hs : f st a with
    | ok s =>
      rw [hs] at e
      obtain ⟨s', a', h1, h2, h3⟩ := each_raised (fun s b hb => hf s b (List.mem_cons_of_mem _ hb))
        (hf st a List.mem_cons_self h s (Or.inl hs)) e
      exact ⟨s', a', List.mem_cons_of_mem _ h1, h2, h3⟩
    | raised b' s =>
      rw [hs] at e
      injection e with e1 e2
      subst e1 e2
      exact ⟨st, a, List.mem_cons_self, h, hs⟩
    | stop => rw [hs] at e; cases e

/-- A recipe that is being added and with which an exception comes has a cause. -/
theorem addTasks_raised {D : Data} {fail : TD → Str → Out} {st st' : TD} {fn : Str} {b : Bool} (h : Caused D st)
    (e : addTasks D fail st fn = .raised b st') : Broken D .file fn := by
  by_cases h1 : fn ∈ st.failedFns
  · exact h.fns fn h1
  by_cases h2 : fn ∈ st.seen
  · unfold addTasks at e; rw [if_neg h1, if_pos h2] at e; cases e
  rcases addTasks_cases (D := D) (fail := fail) h1 h2 with ⟨s, _, c, _⟩ | ⟨s, _, _, _, c⟩
  · rcases c with ⟨d, c1, c2⟩ | ⟨d, c1, c2⟩
    · exact .dep (Or.inl c1) (h.deps d c2)
    · exact .rdep (Or.inl c1) (h.rdeps d c2)
  · rw [c] at e; cases e

/-- A name for which an exception comes has a cause. -/
theorem raised_broken {D : Data} {fail : TD → Str → Out} (hf : FailCause D fail) {st st' : TD} {t : Str} {b : Bool}
    (h : Caused D st) (e : addProvider D fail st t = .raised b st') : Broken D .name t := by
  unfold addProvider at e
  by_cases hi : D.ignored t = true
  · rw [if_pos hi] at e; cases e
  rw [if_neg hi] at e
  have hi' : D.ignored t = false := by simpa using hi
  by_cases hp : provs st.build t ≠ []
  · rw [if_pos hp] at e; cases e
  rw [if_neg hp] at e
  by_cases he : (D.choose t).filter (fun fn => fn ∉ st.failedFns) = []
  · cases hc : D.choose t with
    | nil => exact .none hi' hc
    | cons a l =>
      have ham : a ∈ D.choose t := by rw [hc]; exact List.mem_cons_self
      refine .one hi' ham (h.fns a ?_)
      by_cases hm : a ∈ st.failedFns
      · exact hm
      · have : a ∈ (D.choose t).filter (fun fn => fn ∉ st.failedFns) := List.mem_filter.2 ⟨ham, by simpa using hm⟩
        rw [he] at this
        cases this
  · rw [if_neg he] at e
    obtain ⟨s, a, h1, h2, h3⟩ := each_raised (P := Caused D)
      (fun s a ha hs => useBuild_cause hf hs (List.mem_filter.1 ha).1 hi') h e
    have ha := (List.mem_filter.1 h1).1
    refine .one hi' ha ?_
    unfold useBuild at h3
    by_cases hm : a ∈ s.failedFns
    · exact h2.fns a hm
    · rw [if_neg hm] at h3
      refine addTasks_raised ?_ h3
      exact addBuildTarget_caused h2 ha hi'

theorem rraised_broken {D : Data} {fail : TD → Str → Out} (hf : FailCause D fail) {st st' : TD} {t : Str} {b : Bool}
    (h : Caused D st) (e : addRprovider D fail st t = .raised b st') : Broken D .pkg t := by
  unfold addRprovider at e
  by_cases hi : D.ignored t = true
  · rw [if_pos hi] at e; cases e
  rw [if_neg hi] at e
  have hi' : D.ignored t = false := by simpa using hi
  by_cases hp : provs st.run t ≠ []
  · rw [if_pos hp] at e; cases e
  rw [if_neg hp] at e
  cases hr : D.rchoose t with
  | none => exact .rnone hi' fun l hl => by rw [hr] at hl; cases hl
  | some m =>
    rw [hr] at e
    dsimp only at e
    by_cases he : m.filter (fun fn => fn ∉ st.failedFns) = []
    · cases m with
      | nil => exact .rnone hi' fun l hl => by rw [hr] at hl; injection hl with hl; exact hl.symm
      | cons a l =>
        refine .rone hi' hr List.mem_cons_self (h.fns a ?_)
        by_cases hm : a ∈ st.failedFns
        · exact hm
        · have : a ∈ (a :: l).filter (fun fn => fn ∉ st.failedFns) := List.mem_filter.2 ⟨List.mem_cons_self, by simpa using hm⟩
          rw [he] at this
          cases this
    · rw [if_neg he] at e
      obtain ⟨s, a, h1, h2, h3⟩ := each_raised (P := Caused D)
        (fun s a ha hs => useRun_cause hf hs ⟨m, hr, (List.mem_filter.1 ha).1⟩ hi') h e
      have ha := (List.mem_filter.1 h1).1
      refine .rone hi' hr ha ?_
      unfold useRun at h3
      by_cases hm : a ∈ s.failedFns
      · exact h2.fns a hm
      · rw [if_neg hm] at h3
        refine addTasks_raised ?_ h3
        exact addRunTarget_caused h2 ⟨m, hr, ha⟩ hi'

theorem history_cause {D : Data} {halt : Bool} {n k : Nat} : ∀ {ops : List Op} {st : TD}, Caused D st →
    Leaves (Caused D) (history D halt n k ops st)
  | [], _, h => leaves_ok h
  | o :: ops, st, h => by
    refine leaves_bind ?_ fun _ hs => history_cause hs
    have rb : ∀ s t, Caused D s → Leaves (Caused D) (resolveBuild D halt n s t) := fun s t hs => by
      unfold resolveBuild
      have hl := addProvider_cause (fail_cause D halt n) (t := t) hs
      cases hp : addProvider D (failFn D halt n) s t with
      | ok s1 =>
        have := hl s1 (Or.inl hp)
        exact leaves_ok { this with }
      | raised b s1 =>
        dsimp only
        by_cases hx : halt = true ∧ t ∈ s1.external
        · rw [if_pos hx]; exact leaves_raised (hl s1 (Or.inr ⟨b, hp⟩))
        rw [if_neg hx]
        exact removeBuild_cause (fail_cause D halt n) (hl s1 (Or.inr ⟨b, hp⟩)) (raised_broken (fail_cause D halt n) hs hp)
      | stop => exact leaves_stop
    have rr : ∀ s t, Caused D s → Leaves (Caused D) (resolveRun D halt n s t) := fun s t hs => by
      unfold resolveRun
      have hl := addRprovider_cause (fail_cause D halt n) (t := t) hs
      cases hp : addRprovider D (failFn D halt n) s t with
      | ok s1 =>
        have := hl s1 (Or.inl hp)
        exact leaves_ok { this with }
      | raised b s1 =>
        cases b with
        | false => exact leaves_raised (hl s1 (Or.inr ⟨_, hp⟩))
        | true => exact removeRun_cause (fail_cause D halt n) (hl s1 (Or.inr ⟨_, hp⟩)) (rraised_broken (fail_cause D halt n) hs hp)
      | stop => exact leaves_stop
    have un : ∀ k s, Caused D s → Leaves (Caused D) (addUnresolved D halt n k s) := by
      intro k
      induction k with
      | zero => exact fun _ _ => leaves_stop
      | succ k ih =>
        intro s hs
        refine leaves_bind (leaves_bind (leaves_each (fun s t _ hs => rb s t hs) { hs with }) fun s1 hs1 =>
          leaves_each (fun s t _ hs => rr s t hs) hs1) fun s1 hs1 => ?_
        by_cases h0 : s1.added = 0
        · rw [if_pos h0]; exact leaves_ok hs1
        · rw [if_neg h0]; exact ih s1 hs1
    cases o with
    | target t =>
      refine leaves_bind ?_ fun s hs => leaves_ok ?_
      · unfold addRequested
        have hl := addProvider_cause (fail_cause D halt n) (t := t) h
        cases hp : addProvider D (failFn D halt n) st t with
        | ok s1 => exact leaves_ok (hl s1 (Or.inl hp))
        | raised b s1 =>
          dsimp only
          by_cases hx : halt = true
          · rw [if_pos hx]; exact leaves_raised (hl s1 (Or.inr ⟨b, hp⟩))
          rw [if_neg hx]
          exact removeBuild_cause (fail_cause D halt n) (hl s1 (Or.inr ⟨b, hp⟩)) (raised_broken (fail_cause D halt n) h hp)
        | stop => exact leaves_stop
      · unfold markExternal
        by_cases hm : t ∈ s.external
        · rw [if_pos hm]; exact hs
        · rw [if_neg hm]; exact { hs with }
    | unresolved => exact un k st h

theorem caused_start {D : Data} : Caused D start := ⟨nofun, nofun, nofun, nofun, nofun⟩

/-! ## Builds that end at the first error, with at most one recipe for each name -/

/-- What is needed, over some chain, for something that was asked for. -/
inductive Asked (D : Data) (E : Str → Prop) (st : TD) : Kind → Str → Prop
  | ext {t : Str} : E t → Asked D E st .name t
  | prov {t x : Str} : x ∈ provs st.build t → Asked D E st .name t → Asked D E st .file x
  | rprov {t x : Str} : x ∈ provs st.run t → Asked D E st .pkg t → Asked D E st .file x
  | dep {fn d : Str} : fn ∈ st.seen → Asked D E st .file fn → d ∈ D.deps fn ∨ d ∈ D.ideps fn → Asked D E st .name d
  | rdep {fn d : Str} : fn ∈ st.seen → Asked D E st .file fn → d ∈ D.rdeps fn ∨ d ∈ D.irdeps fn → Asked D E st .pkg d

theorem Asked.mono {D : Data} {E E' : Str → Prop} {a b : TD} (he : ∀ t, E t → E' t)
    (hb : ∀ t x, x ∈ provs a.build t → x ∈ provs b.build t) (hr : ∀ t x, x ∈ provs a.run t → x ∈ provs b.run t)
    (hs : ∀ x, x ∈ a.seen → x ∈ b.seen) {k : Kind} {x : Str} (h : Asked D E a k x) : Asked D E' b k x := by
  induction h with
  | ext h => exact .ext (he _ h)
  | prov h _ ih => exact .prov (hb _ _ h) ih
  | rprov h _ ih => exact .rprov (hr _ _ h) ih
  | dep h _ hd ih => exact .dep (hs _ h) ih hd
  | rdep h _ hd ih => exact .rdep (hs _ h) ih hd

/-- Nothing has failed, and all there is was asked for. -/
structure Clean (D : Data) (E : Str → Prop) (st : TD) : Prop where
  ok : Ok D st
  fns : st.failedFns = []
  deps : st.failedDeps = []
  rdeps : st.failedRdeps = []
  keys : ∀ t, (st.build.lookup t).isSome = true → Asked D E st .name t
  rkeys : ∀ t, (st.run.lookup t).isSome = true → Asked D E st .pkg t
  seen : ∀ x, x ∈ st.seen → Asked D E st .file x

def Failed (st : TD) : Kind → Str → Prop
  | .file, x => x ∈ st.failedFns
  | .name, x => x ∈ st.failedDeps
  | .pkg, x => x ∈ st.failedRdeps

theorem only_one {l c : List Str} {x : Str} (hn : l.Nodup) (hx : x ∈ l) (hs : ∀ y, y ∈ l → y ∈ c) (hc : c.length ≤ 1) : l = [x] := by
  cases c with
  | nil => exact nomatch hs x hx
  | cons a c =>
    cases c with
    | cons b c => simp at hc
    | nil =>
      have h : ∀ y, y ∈ l → y = a := fun y hy => List.mem_singleton.1 (hs y hy)
      cases l with
      | nil => cases hx
      | cons y l =>
        cases l with
        | nil => rw [List.mem_singleton.1 hx]
        | cons z l =>
          have h1 := h y List.mem_cons_self
          have h2 := h z (List.mem_cons_of_mem _ List.mem_cons_self)
          have := (List.nodup_cons.1 hn).1
          rw [h1, h2] at this
          exact absurd List.mem_cons_self this

theorem sublist_empty {l : List Str} {x : Str} (h : l.Sublist [x]) (hx : x ∉ l) : l = [] := by
  cases l with
  | nil => rfl
  | cons a l => exact absurd (List.mem_singleton.1 (h.subset (List.mem_cons_self (a := a))) ▸ List.mem_cons_self) hx

/-- With one recipe for each name, failing reaches what was asked for. -/
theorem not_failed {D : Data} (hs : Single D) {E : Str → Prop} {st a st' : TD} (hc : Clean D E st)
    (hb : a.build = st.build) (hr : a.run = st.run) (hse : a.seen = st.seen) (i : Inv D (fun _ _ => False) (fun _ _ => False) (fun _ => False) st')
    (x : Ext true a st') (he : ∀ t, E t → t ∉ st'.failedDeps) {k : Kind} {s : Str} (h : Asked D E st k s) : ¬ Failed st' k s := by
  induction h with
  | ext h => exact he _ h
  | @prov t y h _ ih =>
    intro hf
    have hl := only_one (hc.ok.base.bnodup t) h (fun y hy => (hc.ok.full.prov t y hy).1.1) (hs.1 t)
    have hsub := x.bsub t
    rw [hb, hl] at hsub
    have hemp := sublist_empty hsub fun hy => i.bprov t y hy hf
    rcases x.bempty t hemp with hh | hh
    · rw [hb, hl] at hh; cases hh
    · exact ih hh
  | @rprov t y h _ ih =>
    intro hf
    obtain ⟨⟨l, hl1, hl2⟩, _⟩ := (hc.ok.full.rprov t y h).1
    have hl := only_one (hc.ok.base.rnodup t) h (fun y hy => by
      obtain ⟨⟨l', h1, h2⟩, _⟩ := (hc.ok.full.rprov t y hy).1
      rw [hl1] at h1
      injection h1 with h1
      exact h1 ▸ h2) (hs.2 t l hl1)
    have hsub := x.rsub t
    rw [hr, hl] at hsub
    have hemp := sublist_empty hsub fun hy => i.rprov t y hy hf
    rcases x.rempty t hemp with hh | hh
    · rw [hr, hl] at hh; cases hh
    · exact ih hh
  | dep h _ hd ih => exact fun hf => i.dep _ (by rw [x.seen, hse]; exact h) ih _ hd hf
  | rdep h _ hd ih => exact fun hf => i.rdep _ (by rw [x.seen, hse]; exact h) ih _ hd hf

theorem Clean.inv {D : Data} {E : Str → Prop} {st : TD} (h : Clean D E st) :
    Inv D (fun _ _ => False) (fun _ _ => False) (fun _ => False) st :=
  { h.ok.base with
    dep := fun _ _ _ _ _ hf => by rw [h.deps] at hf; cases hf
    rdep := fun _ _ _ _ _ hf => by rw [h.rdeps] at hf; cases hf }

theorem removeBuild_clean {D : Data} (hs : Single D) {n : Nat} {st st' : TD} {t : Str} (hc : Clean D (fun t => t ∈ st.external) st)
    (hk : (st.build.lookup t).isSome = true) : removeBuild D true (failFn D true n) st t ≠ .ok st' := by
  intro h
  obtain ⟨i, x, hx⟩ := removeBuild_spec (fail_spec D true n) hc.inv h
  refine not_failed (a := { st with failedDeps := st.failedDeps ++ [t] }) hs hc rfl rfl rfl i x (fun s hse hf => ?_) (hc.keys t hk) (x.deps t (List.mem_append_right _ List.mem_cons_self))
  rcases x.asked rfl s hf with h1 | h1
  · have h1 : s ∈ st.failedDeps ++ [t] := h1
    rw [hc.deps] at h1
    rw [List.mem_singleton.1 h1] at hse
    exact hx rfl hse
  · exact h1 hse

theorem removeRun_clean {D : Data} (hs : Single D) {n : Nat} {st st' : TD} {t : Str} (hc : Clean D (fun t => t ∈ st.external) st)
    (hk : (st.run.lookup t).isSome = true) : removeRun D (failFn D true n) st t ≠ .ok st' := by
  intro h
  obtain ⟨i, x⟩ := removeRun_spec (fail_spec D true n) hc.inv h
  refine not_failed (a := { st with failedRdeps := st.failedRdeps ++ [t] }) hs hc rfl rfl rfl i x (fun s hse hf => ?_) (hc.rkeys t hk) (x.rdeps t (List.mem_append_right _ List.mem_cons_self))
  rcases x.asked rfl s hf with h1 | h1
  · have h1 : s ∈ st.failedDeps := h1
    rw [hc.deps] at h1
    cases h1
  · exact h1 hse

section
variable {D : Data} {n : Nat} {E : Str → Prop}

/-- Adding a recipe when nothing has failed. -/
theorem addTasks_clean {fail : TD → Str → Out} {st : TD} {fn : Str} (h1 : st.failedFns = []) (h2 : st.failedDeps = [])
    (h3 : st.failedRdeps = []) : ∃ s, addTasks D fail st fn = .ok s ∧ s.failedFns = [] ∧ s.failedDeps = [] ∧ s.failedRdeps = [] ∧
      s.external = st.external ∧ s.added = st.added ∧
      (∀ t, provs s.build t = provs st.build t) ∧ (∀ t, provs s.run t = provs st.run t) ∧
      (∀ x, x ∈ st.seen → x ∈ s.seen) ∧ (∀ x, x ∈ s.seen → x ∈ st.seen ∨ x = fn) ∧ fn ∈ s.seen ∧
      (∀ t, (s.build.lookup t).isSome = true → (st.build.lookup t).isSome = true ∨ t ∈ D.deps fn ∨ t ∈ D.ideps fn) ∧
      (∀ t, (s.run.lookup t).isSome = true → (st.run.lookup t).isSome = true ∨ t ∈ D.rdeps fn ∨ t ∈ D.irdeps fn) := by
  have hn : fn ∉ st.failedFns := by rw [h1]; exact List.not_mem_nil
  by_cases hs : fn ∈ st.seen
  · refine ⟨st, ?_, h1, h2, h3, rfl, rfl, fun _ => rfl, fun _ => rfl, fun _ h => h, fun _ h => Or.inl h, hs, fun _ h => Or.inl h,
      fun _ h => Or.inl h⟩
    unfold addTasks
    rw [if_neg hn, if_pos hs]
  · have ht := (entered_touch D st fn).1
    rcases addTasks_cases (D := D) (fail := fail) hn hs with ⟨s, t1, c, e⟩ | ⟨s, t1, _, _, e⟩
    · rcases c with ⟨d, _, c⟩ | ⟨d, _, c⟩
      · rw [h2] at c; cases c
      · rw [h3] at c; cases c
    · have x := ht.trans t1
      refine ⟨s, e, x.fns.trans h1, x.deps.trans h2, x.rdeps.trans h3, x.external, x.added, x.bprovs, x.rprovs, fun y hy => ?_,
        fun y hy => ?_, ?_, x.bnew, x.rnew⟩
      · rw [x.seen]; exact List.mem_append_left _ hy
      · rw [x.seen] at hy
        exact (List.mem_append.1 hy).imp id List.mem_singleton.1
      · rw [x.seen]; exact List.mem_append_right _ List.mem_cons_self

theorem useBuild_clean {st : TD} {t fn : Str} (hc : Clean D E st) (hch : fn ∈ D.choose t) (hi : D.ignored t = false)
    (ha : Asked D E st .name t) : ∃ s, useBuild D (failFn D true n) t st fn = .ok s ∧ Clean D E s ∧ s.external = st.external ∧
      (∀ u x, x ∈ provs st.build u → x ∈ provs s.build u) ∧ (∀ u x, x ∈ provs st.run u → x ∈ provs s.run u) ∧
      (∀ x, x ∈ st.seen → x ∈ s.seen) ∧ fn ∈ provs s.build t := by
  have hn : fn ∉ st.failedFns := by rw [hc.fns]; exact List.not_mem_nil
  obtain ⟨b1, b2, b3, b4, b5, b6, b7⟩ := addBuildTarget_spec hc.ok hn hch hi
  have b8 : ∀ u x, x ∈ provs st.build u → x ∈ provs (addBuildTarget st fn t).build u := fun u x hx => by
    unfold addBuildTarget
    by_cases hm : fn ∈ provs st.build t
    · rw [if_pos hm]; exact hx
    · rw [if_neg hm]
      show x ∈ provs (st.build.set t _) u
      rw [provs_set]
      by_cases e : t = u
      · rw [if_pos e]; exact List.mem_append_left _ (e ▸ hx)
      · rw [if_neg e]; exact hx
  have b9 : (addBuildTarget st fn t).failedDeps = st.failedDeps ∧ (addBuildTarget st fn t).failedRdeps = st.failedRdeps ∧
      (addBuildTarget st fn t).run = st.run ∧ (addBuildTarget st fn t).external = st.external ∧
      ∀ u, ((addBuildTarget st fn t).build.lookup u).isSome = true → (st.build.lookup u).isSome = true ∨ t = u := by
    unfold addBuildTarget
    by_cases hm : fn ∈ provs st.build t
    · rw [if_pos hm]; exact ⟨rfl, rfl, rfl, rfl, fun _ h => Or.inl h⟩
    · rw [if_neg hm]; exact ⟨rfl, rfl, rfl, rfl, fun _ h => isSome_new h⟩
  obtain ⟨c1, c2, c3, c4, c5⟩ := b9
  obtain ⟨s, d1, d2, d3, d4, d5, d6, d7, d8, d9, d10, d11, d12, d13⟩ := addTasks_clean (D := D) (fail := failFn D true n) (fn := fn)
    (b6.trans hc.fns) (c1.trans hc.deps) (c2.trans hc.rdeps)
  have hu : useBuild D (failFn D true n) t st fn = .ok s := by
    unfold useBuild
    rw [if_neg hn]
    exact d1
  have m1 : ∀ u x, x ∈ provs st.build u → x ∈ provs s.build u := fun u x hx => by rw [d7]; exact b8 u x hx
  have m2 : ∀ u x, x ∈ provs st.run u → x ∈ provs s.run u := fun u x hx => by rw [d8, c3]; exact hx
  have m3 : ∀ x, x ∈ st.seen → x ∈ s.seen := fun x hx => d9 x (b5 ▸ hx)
  have m4 : fn ∈ provs s.build t := by rw [d7]; exact b7
  have mono : ∀ k x, Asked D E st k x → Asked D E s k x := fun k x h => h.mono (fun _ h => h) m1 m2 m3
  have hfn : Asked D E s .file fn := .prov m4 (mono _ _ ha)
  refine ⟨s, hu, ⟨(useBuild_spec (fail_spec D true n) hc.ok hch hi hu).1, d2, d3, d4, fun u hk => ?_, fun u hk => ?_, fun x hx => ?_⟩,
    d5.trans c4, m1, m2, m3, m4⟩
  · rcases d12 u hk with h | h
    · rcases c5 u h with h | rfl
      · exact mono _ _ (hc.keys u h)
      · exact mono _ _ ha
    · exact .dep d11 hfn h
  · rcases d13 u hk with h | h
    · exact mono _ _ (hc.rkeys u (c3 ▸ h))
    · exact .rdep d11 hfn h
  · rcases d10 x hx with h | rfl
    · exact mono _ _ (hc.seen x (b5 ▸ h))
    · exact hfn

theorem useRun_clean {st : TD} {t fn : Str} (hc : Clean D E st) (hch : ∃ l, D.rchoose t = some l ∧ fn ∈ l) (hi : D.ignored t = false)
    (ha : Asked D E st .pkg t) : ∃ s, useRun D (failFn D true n) t st fn = .ok s ∧ Clean D E s ∧ s.external = st.external ∧
      (∀ u x, x ∈ provs st.build u → x ∈ provs s.build u) ∧ (∀ u x, x ∈ provs st.run u → x ∈ provs s.run u) ∧
      (∀ x, x ∈ st.seen → x ∈ s.seen) ∧ fn ∈ provs s.run t := by
  have hn : fn ∉ st.failedFns := by rw [hc.fns]; exact List.not_mem_nil
  obtain ⟨b1, b2, b3, b4, b5, b6, b7⟩ := addRunTarget_spec hc.ok hn hch hi
  have b8 : ∀ u x, x ∈ provs st.run u → x ∈ provs (addRunTarget st fn t).run u := fun u x hx => by
    unfold addRunTarget
    by_cases hm : fn ∈ provs st.run t
    · rw [if_pos hm]; exact hx
    · rw [if_neg hm]
      show x ∈ provs (st.run.set t _) u
      rw [provs_set]
      by_cases e : t = u
      · rw [if_pos e]; exact List.mem_append_left _ (e ▸ hx)
      · rw [if_neg e]; exact hx
  have b9 : (addRunTarget st fn t).failedDeps = st.failedDeps ∧ (addRunTarget st fn t).failedRdeps = st.failedRdeps ∧
      (addRunTarget st fn t).build = st.build ∧ (addRunTarget st fn t).external = st.external ∧
      ∀ u, ((addRunTarget st fn t).run.lookup u).isSome = true → (st.run.lookup u).isSome = true ∨ t = u := by
    unfold addRunTarget
    by_cases hm : fn ∈ provs st.run t
    · rw [if_pos hm]; exact ⟨rfl, rfl, rfl, rfl, fun _ h => Or.inl h⟩
    · rw [if_neg hm]; exact ⟨rfl, rfl, rfl, rfl, fun _ h => isSome_new h⟩
  obtain ⟨c1, c2, c3, c4, c5⟩ := b9
  obtain ⟨s, d1, d2, d3, d4, d5, d6, d7, d8, d9, d10, d11, d12, d13⟩ := addTasks_clean (D := D) (fail := failFn D true n) (fn := fn)
    (b6.trans hc.fns) (c1.trans hc.deps) (c2.trans hc.rdeps)
  have hu : useRun D (failFn D true n) t st fn = .ok s := by
    unfold useRun
    rw [if_neg hn]
    exact d1
  have m1 : ∀ u x, x ∈ provs st.build u → x ∈ provs s.build u := fun u x hx => by rw [d7, c3]; exact hx
  have m2 : ∀ u x, x ∈ provs st.run u → x ∈ provs s.run u := fun u x hx => by rw [d8]; exact b8 u x hx
  have m3 : ∀ x, x ∈ st.seen → x ∈ s.seen := fun x hx => d9 x (b5 ▸ hx)
  have m4 : fn ∈ provs s.run t := by rw [d8]; exact b7
  have mono : ∀ k x, Asked D E st k x → Asked D E s k x := fun k x h => h.mono (fun _ h => h) m1 m2 m3
  have hfn : Asked D E s .file fn := .rprov m4 (mono _ _ ha)
  refine ⟨s, hu, ⟨(useRun_spec (fail_spec D true n) hc.ok hch hi hu).1, d2, d3, d4, fun u hk => ?_, fun u hk => ?_, fun x hx => ?_⟩,
    d5.trans c4, m1, m2, m3, m4⟩
  · rcases d12 u hk with h | h
    · exact mono _ _ (hc.keys u (c3 ▸ h))
    · exact .dep d11 hfn h
  · rcases d13 u hk with h | h
    · rcases c5 u h with h | rfl
      · exact mono _ _ (hc.rkeys u h)
      · exact mono _ _ ha
    · exact .rdep d11 hfn h
  · rcases d10 x hx with h | rfl
    · exact mono _ _ (hc.seen x (b5 ▸ h))
    · exact hfn

theorem eachUseBuild_clean {t : Str} (hi : D.ignored t = false) : ∀ {l : List Str} {st : TD}, Clean D E st →
    (∀ fn, fn ∈ l → fn ∈ D.choose t) → Asked D E st .name t →
    ∃ s, each (useBuild D (failFn D true n) t) l st = .ok s ∧ Clean D E s ∧ s.external = st.external
  | [], st, hc, _, _ => ⟨st, rfl, hc, rfl⟩
  | a :: l, st, hc, hl, ha => by
    obtain ⟨s, h1, h2, h3, h4, h5, h6, _⟩ := useBuild_clean (n := n) hc (hl a List.mem_cons_self) hi ha
    obtain ⟨s', h1', h2', h3'⟩ := eachUseBuild_clean hi h2 (fun fn hf => hl fn (List.mem_cons_of_mem _ hf))
      (ha.mono (fun _ h => h) h4 h5 h6)
    refine ⟨s', ?_, h2', h3'.trans h3⟩
    unfold each
    rw [h1]
    exact h1'

theorem eachUseRun_clean {t : Str} (hi : D.ignored t = false) : ∀ {l : List Str} {st : TD}, Clean D E st →
    (∀ fn, fn ∈ l → ∃ m, D.rchoose t = some m ∧ fn ∈ m) → Asked D E st .pkg t →
    ∃ s, each (useRun D (failFn D true n) t) l st = .ok s ∧ Clean D E s ∧ s.external = st.external
  | [], st, hc, _, _ => ⟨st, rfl, hc, rfl⟩
  | a :: l, st, hc, hl, ha => by
    obtain ⟨s, h1, h2, h3, h4, h5, h6, _⟩ := useRun_clean (n := n) hc (hl a List.mem_cons_self) hi ha
    obtain ⟨s', h1', h2', h3'⟩ := eachUseRun_clean hi h2 (fun fn hf => hl fn (List.mem_cons_of_mem _ hf))
      (ha.mono (fun _ h => h) h4 h5 h6)
    refine ⟨s', ?_, h2', h3'.trans h3⟩
    unfold each
    rw [h1]
    exact h1'

/-- Adding a name when nothing has failed: it works, or nothing changes. -/
theorem addProvider_clean {st : TD} {t : Str} (hc : Clean D E st) (ha : Asked D E st .name t) :
    (∃ s, addProvider D (failFn D true n) st t = .ok s ∧ Clean D E s ∧ s.external = st.external) ∨
    addProvider D (failFn D true n) st t = .raised false st := by
  unfold addProvider
  by_cases hi : D.ignored t = true
  · rw [if_pos hi]; exact Or.inl ⟨st, rfl, hc, rfl⟩
  rw [if_neg hi]
  by_cases hp : provs st.build t ≠ []
  · rw [if_pos hp]; exact Or.inl ⟨st, rfl, hc, rfl⟩
  rw [if_neg hp]
  by_cases he : (D.choose t).filter (fun fn => fn ∉ st.failedFns) = []
  · rw [if_pos he]; exact Or.inr rfl
  · rw [if_neg he]
    exact Or.inl (eachUseBuild_clean (by simpa using hi) hc (fun fn hf => (List.mem_filter.1 hf).1) ha)

theorem addRprovider_clean {st : TD} {t : Str} (hc : Clean D E st) (ha : Asked D E st .pkg t) :
    (∃ s, addRprovider D (failFn D true n) st t = .ok s ∧ Clean D E s ∧ s.external = st.external) ∨
    addRprovider D (failFn D true n) st t = .raised true st := by
  unfold addRprovider
  by_cases hi : D.ignored t = true
  · rw [if_pos hi]; exact Or.inl ⟨st, rfl, hc, rfl⟩
  rw [if_neg hi]
  by_cases hp : provs st.run t ≠ []
  · rw [if_pos hp]; exact Or.inl ⟨st, rfl, hc, rfl⟩
  rw [if_neg hp]
  cases hr : D.rchoose t with
  | none => exact Or.inr rfl
  | some m =>
    dsimp only
    by_cases he : m.filter (fun fn => fn ∉ st.failedFns) = []
    · rw [if_pos he]; exact Or.inr rfl
    · rw [if_neg he]
      exact Or.inl (eachUseRun_clean (by simpa using hi) hc (fun fn hf => ⟨m, hr, (List.mem_filter.1 hf).1⟩) ha)

end

/-- Nothing has failed, and all there is was asked for from outside. -/
abbrev Tidy (D : Data) (st : TD) : Prop := Clean D (fun t => t ∈ st.external) st

theorem Clean.count {D : Data} {E : Str → Prop} {st : TD} (h : Clean D E st) (k : Nat) : Clean D E { st with added := k } := by
  have mono : ∀ kd x, Asked D E st kd x → Asked D E { st with added := k } kd x := fun kd x hx =>
    Asked.mono (a := st) (b := { st with added := k }) (fun _ h => h) (fun _ _ h => h) (fun _ _ h => h) (fun _ h => h) hx
  exact ⟨h.ok.count k, h.fns, h.deps, h.rdeps, fun t ht => mono _ _ (h.keys t ht), fun t ht => mono _ _ (h.rkeys t ht),
    fun t ht => mono _ _ (h.seen t ht)⟩

section
variable {D : Data} {n : Nat}

theorem resolveBuild_clean (hs : Single D) {st st' : TD} {t : Str} (hc : Tidy D st)
    (hk : (st.build.lookup t).isSome = true) (h : resolveBuild D true n st t = .ok st') :
    Tidy D st' ∧ st'.external = st.external ∧ st'.added = st.added + 1 ∧ Later st st' ∧ SettledB D t st' := by
  unfold resolveBuild at h
  rcases addProvider_clean (n := n) hc (hc.keys t hk) with ⟨s, h1, h2, h3⟩ | h1
  · rw [h1] at h
    injection h with h
    subst h
    obtain ⟨a1, a2, a3⟩ := addProvider_spec (fail_spec D true n) hc.ok h1
    have h2' : Tidy D s := by rw [Tidy, h3]; exact h2
    refine ⟨h2'.count _, h3, by show s.added + 1 = _; rw [a2.added], ⟨{ a2 with added := rfl }, by show st.added ≤ s.added + 1; rw [a2.added]; omega⟩, ?_⟩
    rcases a3 with a3 | a3
    · exact Or.inl a3
    · by_cases he : provs s.build t = []
      · exact Or.inr (Or.inr (a3 he))
      · exact Or.inr (Or.inl he)
  · rw [h1] at h
    dsimp only at h
    by_cases hx : true = true ∧ t ∈ st.external
    · rw [if_pos hx] at h; cases h
    · rw [if_neg hx] at h
      exact absurd h (removeBuild_clean hs hc hk)

theorem resolveRun_clean (hs : Single D) {st st' : TD} {t : Str} (hc : Tidy D st)
    (hk : (st.run.lookup t).isSome = true) (h : resolveRun D true n st t = .ok st') :
    Tidy D st' ∧ st'.external = st.external ∧ st'.added = st.added + 1 ∧ Later st st' ∧ SettledR D t st' := by
  unfold resolveRun at h
  rcases addRprovider_clean (n := n) hc (hc.rkeys t hk) with ⟨s, h1, h2, h3⟩ | h1
  · rw [h1] at h
    injection h with h
    subst h
    obtain ⟨a1, a2, a3⟩ := addRprovider_spec (fail_spec D true n) hc.ok h1
    have h2' : Tidy D s := by rw [Tidy, h3]; exact h2
    refine ⟨h2'.count _, h3, by show s.added + 1 = _; rw [a2.added], ⟨{ a2 with added := rfl }, by show st.added ≤ s.added + 1; rw [a2.added]; omega⟩, ?_⟩
    rcases a3 with a3 | a3
    · exact Or.inl a3
    · by_cases he : provs s.run t = []
      · exact Or.inr (Or.inr (a3 he))
      · exact Or.inr (Or.inl he)
  · rw [h1] at h
    exact absurd h (removeRun_clean hs hc hk)

theorem eachBuild_clean (hs : Single D) : ∀ {l : List Str} {st st' : TD}, Tidy D st →
    (∀ t, t ∈ l → (st.build.lookup t).isSome = true) → each (resolveBuild D true n) l st = .ok st' →
    Tidy D st' ∧ st'.external = st.external ∧ st'.added = st.added + l.length ∧ Later st st'
  | [], st, st', hc, _, h => by
    injection h with h
    subst h
    exact ⟨hc, rfl, rfl, (Grow.refl _).later⟩
  | a :: l, st, st', hc, hk, h => by
    obtain ⟨s, h1, h2⟩ := bind_ok h
    obtain ⟨a1, a2, a3, a4, _⟩ := resolveBuild_clean hs hc (hk a List.mem_cons_self) h1
    obtain ⟨b1, b2, b3, b4⟩ := eachBuild_clean hs a1 (fun t ht => a4.1.bkeys t (hk t (List.mem_cons_of_mem _ ht))) h2
    exact ⟨b1, b2.trans a2, by rw [b3, a3, List.length_cons]; omega, a4.trans b4⟩

theorem eachRun_clean (hs : Single D) : ∀ {l : List Str} {st st' : TD}, Tidy D st →
    (∀ t, t ∈ l → (st.run.lookup t).isSome = true) → each (resolveRun D true n) l st = .ok st' →
    Tidy D st' ∧ st'.external = st.external ∧ st'.added = st.added + l.length ∧ Later st st'
  | [], st, st', hc, _, h => by
    injection h with h
    subst h
    exact ⟨hc, rfl, rfl, (Grow.refl _).later⟩
  | a :: l, st, st', hc, hk, h => by
    obtain ⟨s, h1, h2⟩ := bind_ok h
    obtain ⟨a1, a2, a3, a4, _⟩ := resolveRun_clean hs hc (hk a List.mem_cons_self) h1
    obtain ⟨b1, b2, b3, b4⟩ := eachRun_clean hs a1 (fun t ht => a4.1.rkeys t (hk t (List.mem_cons_of_mem _ ht))) h2
    exact ⟨b1, b2.trans a2, by rw [b3, a3, List.length_cons]; omega, a4.trans b4⟩

theorem settled_of_none {st : TD} (h : unresolvedBuild D st = []) (t : Str) (hk : (st.build.lookup t).isSome = true) :
    SettledB D t st := by
  cases hi : D.ignored t with
  | true => exact Or.inl hi
  | false =>
    by_cases hp : provs st.build t = []
    · by_cases hf : t ∈ st.failedDeps
      · exact Or.inr (Or.inr hf)
      · have := mem_unresolvedBuild hk hp hi hf
        rw [h] at this
        cases this
    · exact Or.inr (Or.inl hp)

theorem settledR_of_none {st : TD} (h : unresolvedRun D st = []) (t : Str) (hk : (st.run.lookup t).isSome = true) :
    SettledR D t st := by
  cases hi : D.ignored t with
  | true => exact Or.inl hi
  | false =>
    by_cases hp : provs st.run t = []
    · by_cases hf : t ∈ st.failedRdeps
      · exact Or.inr (Or.inr hf)
      · have := mem_unresolvedRun hk hp hi hf
        rw [h] at this
        cases this
    · exact Or.inr (Or.inl hp)

theorem addUnresolved_clean (hs : Single D) : ∀ {k : Nat} {st st' : TD}, Tidy D st → addUnresolved D true n k st = .ok st' →
    Tidy D st' ∧ st'.external = st.external ∧ Done D st'
  | 0, _, _, _, h => by cases h
  | k + 1, st, st', hc, h => by
    obtain ⟨s, h1, h2⟩ := bind_ok h
    obtain ⟨s1, h3, h4⟩ := bind_ok h1
    obtain ⟨a1, a2, a3, a4⟩ := eachBuild_clean hs (st := { st with added := 0 }) (hc.count 0)
      (fun t ht => unresolvedBuild_key (st := st) ht) h3
    obtain ⟨b1, b2, b3, b4⟩ := eachRun_clean hs a1 (fun t ht => unresolvedRun_key ht) h4
    by_cases h0 : s.added = 0
    · rw [if_pos h0] at h2
      injection h2 with h2
      subst h2
      have e1 : s1.added = (unresolvedBuild D st).length := a3.trans (Nat.zero_add _)
      have l1 : unresolvedBuild D st = [] := List.eq_nil_of_length_eq_zero (by omega)
      have l2 : unresolvedRun D s1 = [] := List.eq_nil_of_length_eq_zero (by omega)
      rw [l1] at h3
      injection h3 with h3
      rw [l2] at h4
      injection h4 with h4
      subst h4
      refine ⟨b1, a2, fun t ht => ?_, settledR_of_none l2⟩
      rw [← h3] at ht ⊢
      exact settled_of_none (st := { st with added := 0 }) l1 t ht
    · rw [if_neg h0] at h2
      obtain ⟨c1, c2, c3⟩ := addUnresolved_clean hs b1 h2
      exact ⟨c1, c2.trans (b2.trans a2), c3⟩

theorem addExternal_clean {st st' : TD} {t : Str} (hc : Tidy D st) (h : addExternal D true n st t = .ok st') :
    Tidy D st' ∧ (∀ s, s ∈ st.external → s ∈ st'.external) ∧ t ∈ st'.external := by
  obtain ⟨s, h1, h2⟩ := bind_ok h
  injection h2 with h2
  subst h2
  have hc' : Clean D (fun u => u ∈ st.external ∨ u = t) st :=
    { hc with
      keys := fun u hu => (hc.keys u hu).mono (fun _ h => Or.inl h) (fun _ _ h => h) (fun _ _ h => h) fun _ h => h
      rkeys := fun u hu => (hc.rkeys u hu).mono (fun _ h => Or.inl h) (fun _ _ h => h) (fun _ _ h => h) fun _ h => h
      seen := fun u hu => (hc.seen u hu).mono (fun _ h => Or.inl h) (fun _ _ h => h) (fun _ _ h => h) fun _ h => h }
  unfold addRequested at h1
  rcases addProvider_clean (n := n) (t := t) hc' (.ext (Or.inr rfl)) with ⟨s1, e1, e2, e3⟩ | e1
  · rw [e1] at h1
    injection h1 with h1
    subst h1
    obtain ⟨a1, a2, a3⟩ := addProvider_spec (fail_spec D true n) hc.ok e1
    have : D.ignored t = true ∨ t ∈ s1.failedDeps ∨ (s1.build.lookup t).isSome = true := by
      rcases a3 with a3 | a3
      · exact Or.inl a3
      · by_cases he : provs s1.build t = []
        · exact Or.inr (Or.inl (a3 he))
        · exact Or.inr (Or.inr (provs_isSome he))
    obtain ⟨b1, b2, b3⟩ := markExternal_spec a1 this
    have hE : ∀ u, u ∈ st.external ∨ u = t → u ∈ (markExternal s1 t).external := fun u hu =>
      hu.elim (fun h => b2 u (e3 ▸ h)) fun h => h ▸ b3
    have same : (markExternal s1 t).build = s1.build ∧ (markExternal s1 t).run = s1.run ∧ (markExternal s1 t).seen = s1.seen ∧
        (markExternal s1 t).failedFns = s1.failedFns ∧ (markExternal s1 t).failedDeps = s1.failedDeps ∧
        (markExternal s1 t).failedRdeps = s1.failedRdeps := by
      unfold markExternal
      split <;> exact ⟨rfl, rfl, rfl, rfl, rfl, rfl⟩
    obtain ⟨q1, q2, q3, q4, q5, q6⟩ := same
    have mono : ∀ k x, Asked D (fun u => u ∈ st.external ∨ u = t) s1 k x →
        Asked D (fun u => u ∈ (markExternal s1 t).external) (markExternal s1 t) k x := fun k x hx =>
      hx.mono hE (fun _ _ h => q1 ▸ h) (fun _ _ h => q2 ▸ h) fun _ h => q3 ▸ h
    refine ⟨⟨b1, q4.trans e2.fns, q5.trans e2.deps, q6.trans e2.rdeps, fun u hu => ?_, fun u hu => ?_, fun u hu => ?_⟩,
      fun x hx => b2 x (e3 ▸ hx), b3⟩
    · exact mono _ _ (e2.keys u (q1 ▸ hu))
    · exact mono _ _ (e2.rkeys u (q2 ▸ hu))
    · exact mono _ _ (e2.seen u (q3 ▸ hu))
  · rw [e1] at h1
    cases h1

theorem history_clean (hs : Single D) {k : Nat} : ∀ {ops : List Op} {st st' : TD}, Tidy D st → history D true n k ops st = .ok st' →
    Tidy D st' ∧ (∀ s, s ∈ st.external → s ∈ st'.external) ∧ ∀ t, .target t ∈ ops → t ∈ st'.external
  | [], st, st', ho, h => by
    injection h with h
    subst h
    exact ⟨ho, fun _ h => h, nofun⟩
  | o :: ops, st, st', ho, h => by
    obtain ⟨s, h1, h2⟩ := bind_ok h
    have key : Tidy D s ∧ (∀ x, x ∈ st.external → x ∈ s.external) ∧ ∀ t, o = .target t → t ∈ s.external := by
      cases o with
      | target t =>
        obtain ⟨a1, a2, a3⟩ := addExternal_clean ho h1
        exact ⟨a1, a2, fun u hu => by injection hu with hu; exact hu ▸ a3⟩
      | unresolved =>
        obtain ⟨a1, a2, _⟩ := addUnresolved_clean hs ho h1
        exact ⟨a1, fun x hx => a2 ▸ hx, nofun⟩
    obtain ⟨b1, b2, b3⟩ := history_clean hs key.1 h2
    refine ⟨b1, fun x hx => b2 x (key.2.1 x hx), fun t ht => ?_⟩
    rcases List.mem_cons.1 ht with ht | ht
    · exact b2 t (key.2.2 t ht.symm)
    · exact b3 t ht

theorem tidy_start : Tidy D start := ⟨ok_start, rfl, rfl, rfl, nofun, nofun, nofun⟩

end

end Bb.Resolve
