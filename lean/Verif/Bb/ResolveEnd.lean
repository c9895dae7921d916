import Verif.Bb.ResolveBlame
/-!
# Lemmas: resolving ends
-/

namespace Bb.Resolve
open Py

def NoStop (o : Out) : Prop := o ≠ .stop

theorem noStop_bind {o : Out} {f : TD → Out} (h : NoStop o) (hf : ∀ s, o = .ok s → NoStop (f s)) : NoStop (o.bind f) := by
  cases o with
  | ok s => exact hf s rfl
  | raised b s => exact nofun
  | stop => exact absurd rfl h

theorem noStop_each {P : TD → Prop} {f : TD → Str → Out} : ∀ {l : List Str} {st : TD},
    (∀ s a, a ∈ l → P s → NoStop (f s a) ∧ ∀ s', f s a = .ok s' → P s') → P st →
    NoStop (each f l st) ∧ ∀ s', each f l st = .ok s' → P s'
  | [], st, _, h => ⟨nofun, fun s' e => by injection e with e; exact e ▸ h⟩
  | a :: l, st, hf, h => by
    obtain ⟨h1, h2⟩ := hf st a List.mem_cons_self h
    have ih := fun s (hs : P s) => noStop_each (l := l) (st := s) (fun s b hb => hf s b (List.mem_cons_of_mem _ hb)) hs
    refine ⟨noStop_bind h1 fun s e => (ih s (h2 s e)).1, fun s' e => ?_⟩
    obtain ⟨s, e1, e2⟩ := bind_ok e
    exact (ih s (h2 s e1)).2 s' e2

/-- The files that have not failed. -/
def left (files : List Str) (st : TD) : Nat := files.countP fun f => f ∉ st.failedFns

theorem countP_mono {p q : Str → Bool} : ∀ {l : List Str}, (∀ x, x ∈ l → p x = true → q x = true) → l.countP p ≤ l.countP q :=
  fun h => List.countP_mono_left h

theorem countP_lt {p q : Str → Bool} {a : Str} : ∀ {l : List Str}, (∀ x, x ∈ l → p x = true → q x = true) → a ∈ l → q a = true →
    p a = false → l.countP p < l.countP q
  | [], _, ha, _, _ => by cases ha
  | b :: l, h, ha, hq, hp => by
    rw [List.countP_cons, List.countP_cons]
    have hm := countP_mono (p := p) (q := q) fun x hx => h x (List.mem_cons_of_mem _ hx)
    rcases List.mem_cons.1 ha with rfl | ha
    · rw [hq, hp]
      simp only [if_true, Bool.false_eq_true, if_false]
      omega
    · have := countP_lt (fun x hx => h x (List.mem_cons_of_mem _ hx)) ha hq hp
      have : (if p b = true then 1 else 0) ≤ (if q b = true then 1 else 0) := by
        by_cases hb : p b = true
        · rw [if_pos hb, if_pos (h b List.mem_cons_self hb)]; omega
        · rw [if_neg hb]; omega
      omega

theorem left_mono {files : List Str} {a b : TD} (h : ∀ x, x ∈ a.failedFns → x ∈ b.failedFns) : left files b ≤ left files a :=
  countP_mono fun x _ hx => by
    have : x ∉ b.failedFns := by simpa using hx
    simpa using fun hh => this (h x hh)

/-- Invariants without any content but that lists have no repetitions. -/
abbrev Plain (D : Data) (st : TD) : Prop := Inv D (fun _ _ => True) (fun _ _ => True) (fun _ => True) st

theorem Ok.plain {D : Data} {st : TD} (h : Ok D st) : Plain D st :=
  { dep := fun _ _ _ _ _ _ => trivial, rdep := fun _ _ _ _ _ _ => trivial, bprov := fun _ _ _ _ => trivial,
    rprov := fun _ _ _ _ => trivial, bnodup := h.base.bnodup, rnodup := h.base.rnodup }

section
variable {D : Data} {halt : Bool} {files : List Str}

/-- The state while files are failing. -/
def Going (D : Data) (files : List Str) (n : Nat) (st : TD) : Prop :=
  Plain D st ∧ (∀ x, x ∈ st.seen → x ∈ files) ∧ left files st < n

def FailEnds (D : Data) (files : List Str) (n : Nat) (fail : TD → Str → Out) : Prop :=
  ∀ st fn, Going D files n st → fn ∈ files → NoStop (fail st fn) ∧ ∀ s, fail st fn = .ok s → Going D files n s

theorem removeBuild_ends {n : Nat} {fail : TD → Str → Out} (hf : FailEnds D files n fail) {st : TD} {t : Str}
    (h : Going D files n st) : NoStop (removeBuild D halt fail st t) ∧ ∀ s, removeBuild D halt fail st t = .ok s → Going D files n s := by
  have h0 : Going D files n { st with failedDeps := st.failedDeps ++ [t] } :=
    ⟨{ h.1 with dep := fun _ _ _ _ _ _ => trivial }, h.2.1, h.2.2⟩
  have e1 := noStop_each (l := st.seen.filter fun fn => t ∈ D.deps fn) (P := Going D files n)
    (fun s a ha hs => hf s a hs (h.2.1 a (List.mem_filter.1 ha).1)) h0
  have e2 := fun s1 (hs1 : Going D files n s1) => noStop_each (l := s1.seen.filter fun fn => t ∈ D.ideps fn) (P := Going D files n)
    (fun s a ha hs => hf s a hs (hs1.2.1 a (List.mem_filter.1 ha).1)) hs1
  refine ⟨noStop_bind e1.1 fun s hs => noStop_bind (e2 s (e1.2 s hs)).1 fun s2 hs2 => ?_, fun s e => ?_⟩
  · split <;> exact nofun
  · obtain ⟨s1, x1, e⟩ := bind_ok e
    obtain ⟨s2, x2, e⟩ := bind_ok e
    split at e
    · cases e
    · injection e with e
      exact e ▸ (e2 s1 (e1.2 s1 x1)).2 s2 x2

theorem removeRun_ends {n : Nat} {fail : TD → Str → Out} (hf : FailEnds D files n fail) {st : TD} {t : Str}
    (h : Going D files n st) : NoStop (removeRun D fail st t) ∧ ∀ s, removeRun D fail st t = .ok s → Going D files n s := by
  have h0 : Going D files n { st with failedRdeps := st.failedRdeps ++ [t] } :=
    ⟨{ h.1 with rdep := fun _ _ _ _ _ _ => trivial }, h.2.1, h.2.2⟩
  have e1 := noStop_each (l := st.seen.filter fun fn => t ∈ D.rdeps fn) (P := Going D files n)
    (fun s a ha hs => hf s a hs (h.2.1 a (List.mem_filter.1 ha).1)) h0
  have e2 := fun s1 (hs1 : Going D files n s1) => noStop_each (l := s1.seen.filter fun fn => t ∈ D.irdeps fn) (P := Going D files n)
    (fun s a ha hs => hf s a hs (hs1.2.1 a (List.mem_filter.1 ha).1)) hs1
  refine ⟨noStop_bind e1.1 fun s hs => (e2 s (e1.2 s hs)).1, fun s e => ?_⟩
  obtain ⟨s1, x1, e⟩ := bind_ok e
  exact (e2 s1 (e1.2 s1 x1)).2 s e

theorem plain_build {st : TD} {t : Str} {v : List Str} (h : Plain D st) (hv : v.Nodup) : Plain D { st with build := st.build.set t v } :=
  { h with
    bprov := fun _ _ _ _ => trivial
    bnodup := fun s => by
      show (provs (st.build.set t v) s).Nodup
      rw [provs_set]
      by_cases e : t = s
      · rw [if_pos e]; exact hv
      · rw [if_neg e]; exact h.bnodup s }

theorem plain_run {st : TD} {t : Str} {v : List Str} (h : Plain D st) (hv : v.Nodup) : Plain D { st with run := st.run.set t v } :=
  { h with
    rprov := fun _ _ _ _ => trivial
    rnodup := fun s => by
      show (provs (st.run.set t v) s).Nodup
      rw [provs_set]
      by_cases e : t = s
      · rw [if_pos e]; exact hv
      · rw [if_neg e]; exact h.rnodup s }

theorem fail_ends (D : Data) (halt : Bool) (files : List Str) : ∀ n, FailEnds D files n (failFn D halt n)
  | 0 => fun st fn h _ => absurd h.2.2 (Nat.not_lt_zero _)
  | n + 1 => fun st fn h hfn => by
    have end_ : NoStop (failFn D halt (n + 1) st fn) := by
      unfold failFn
      by_cases hm : fn ∈ st.failedFns
      · rw [if_pos hm]; exact nofun
      · rw [if_neg hm]
        have ih := fail_ends D halt files n
        have hlt : left files { st with failedFns := st.failedFns ++ [fn] } < left files st := by
          refine countP_lt (a := fn) (fun x _ hx => ?_) hfn (by simpa using hm) (by simp)
          have : x ∉ st.failedFns ++ [fn] := by simpa using hx
          simpa using fun hh => this (List.mem_append_left _ hh)
        have h0 : Going D files n { st with failedFns := st.failedFns ++ [fn] } :=
          ⟨{ h.1 with
              dep := fun _ _ _ _ _ _ => trivial, rdep := fun _ _ _ _ _ _ => trivial
              bprov := fun _ _ _ _ => trivial, rprov := fun _ _ _ _ => trivial }, h.2.1, by have := h.2.2; omega⟩
        have c1 : ∀ s t, Going D files n s → NoStop (cleanBuild (removeBuild D halt (failFn D halt n)) fn s t) ∧
            ∀ s', cleanBuild (removeBuild D halt (failFn D halt n)) fn s t = .ok s' → Going D files n s' := by
          intro s t hs
          unfold cleanBuild
          by_cases h1 : fn ∈ provs s.build t
          · rw [if_pos h1]
            by_cases h2 : (provs s.build t).erase fn = []
            · rw [if_pos h2]
              exact removeBuild_ends ih ⟨plain_build hs.1 List.nodup_nil, hs.2⟩
            · rw [if_neg h2]
              refine ⟨nofun, fun s' e => ?_⟩
              injection e with e
              exact e ▸ ⟨plain_build hs.1 ((hs.1.bnodup t).sublist List.erase_sublist), hs.2⟩
          · rw [if_neg h1]
            exact ⟨nofun, fun s' e => by injection e with e; exact e ▸ hs⟩
        have c2 : ∀ s t, Going D files n s → NoStop (cleanRun (removeRun D (failFn D halt n)) fn s t) ∧
            ∀ s', cleanRun (removeRun D (failFn D halt n)) fn s t = .ok s' → Going D files n s' := by
          intro s t hs
          unfold cleanRun
          by_cases h1 : fn ∈ provs s.run t
          · rw [if_pos h1]
            by_cases h2 : (provs s.run t).erase fn = []
            · rw [if_pos h2]
              exact removeRun_ends ih ⟨plain_run hs.1 List.nodup_nil, hs.2⟩
            · rw [if_neg h2]
              refine ⟨nofun, fun s' e => ?_⟩
              injection e with e
              exact e ▸ ⟨plain_run hs.1 ((hs.1.rnodup t).sublist List.erase_sublist), hs.2⟩
          · rw [if_neg h1]
            exact ⟨nofun, fun s' e => by injection e with e; exact e ▸ hs⟩
        have e1 := noStop_each (l := st.build.map (·.1)) (fun s t _ hs => c1 s t hs) h0
        exact noStop_bind e1.1 fun s1 hs1 => (noStop_each (l := s1.run.map (·.1)) (fun s t _ hs => c2 s t hs) (e1.2 s1 hs1)).1
    refine ⟨end_, fun s e => ?_⟩
    obtain ⟨i, _, x⟩ := fail_spec D halt (n + 1) _ _ _ _ _ _ h.1 e
    exact ⟨i, x.seen ▸ h.2.1, Nat.lt_of_le_of_lt (left_mono x.fns) h.2.2⟩

end

/-! ## Everything stays within what there is -/

structure Within (files names pkgs : List Str) (st : TD) : Prop where
  seen : ∀ x, x ∈ st.seen → x ∈ files
  keys : ∀ t, (st.build.lookup t).isSome = true → t ∈ names
  rkeys : ∀ t, (st.run.lookup t).isSome = true → t ∈ pkgs

section
variable {D : Data} {files names pkgs : List Str} {n : Nat}

theorem Within.ext {halt : Bool} {a b : TD} (h : Within files names pkgs a) (x : Ext halt a b) : Within files names pkgs b :=
  ⟨x.seen ▸ h.seen, fun t ht => h.keys t ((x.bkeys t).symm.trans ht), fun t ht => h.rkeys t ((x.rkeys t).symm.trans ht)⟩

theorem left_le (files : List Str) (st : TD) : left files st ≤ files.length := List.countP_le_length

/-- Adding a recipe of a name ends. -/
theorem addTasks_ends {halt : Bool} (hu : Universe D files names pkgs) (hn : files.length < n) {st : TD} {fn : Str} (hp : Plain D st)
    (hw : Within files names pkgs st) (hf : fn ∈ files) (hnf : fn ∉ st.failedFns) : NoStop (addTasks D (failFn D halt n) st fn) ∧
      ∀ s, addTasks D (failFn D halt n) st fn = .ok s → Within files names pkgs s := by
  by_cases hs : fn ∈ st.seen
  · unfold addTasks
    rw [if_neg hnf, if_pos hs]
    exact ⟨nofun, fun s e => by injection e with e; exact e ▸ hw⟩
  · have ht := (entered_touch D st fn).1
    have w : ∀ s, TouchFn D fn (entered D st fn) s → Within files names pkgs s ∧ Plain D s := fun s t1 => by
      have x := ht.trans t1
      refine ⟨⟨fun y hy => ?_, fun t hk => ?_, fun t hk => ?_⟩, ?_⟩
      · rw [x.seen] at hy
        rcases List.mem_append.1 hy with hy | hy
        · exact hw.seen y hy
        · rw [List.mem_singleton.1 hy]; exact hf
      · exact (x.bnew t hk).elim (hw.keys t) (hu.deps fn hf t)
      · exact (x.rnew t hk).elim (hw.rkeys t) (hu.rdeps fn hf t)
      · exact { dep := fun _ _ _ _ _ _ => trivial, rdep := fun _ _ _ _ _ _ => trivial, bprov := fun _ _ _ _ => trivial,
                rprov := fun _ _ _ _ => trivial, bnodup := fun t => by rw [x.bprovs t]; exact hp.bnodup t,
                rnodup := fun t => by rw [x.rprovs t]; exact hp.rnodup t }
    rcases addTasks_cases (D := D) (fail := failFn D halt n) hnf hs with ⟨s, t1, _, e⟩ | ⟨s, t1, _, _, e⟩
    · rw [e]
      obtain ⟨w1, w2⟩ := w s t1
      refine ⟨(fail_ends D halt files n s fn ⟨w2, w1.seen, Nat.lt_of_le_of_lt (left_le files s) hn⟩ hf).1, fun s' e' => ?_⟩
      exact w1.ext (fail_spec D halt n _ _ _ _ _ _ w2 e').2.2
    · rw [e]
      exact ⟨nofun, fun s' e' => by injection e' with e'; exact e' ▸ (w s t1).1⟩

theorem useBuild_ends (hu : Universe D files names pkgs) (hn : files.length < n) {st : TD} {t fn : Str} (ho : Ok D st)
    (hw : Within files names pkgs st) (ht : t ∈ names) (hc : fn ∈ D.choose t) (hi : D.ignored t = false) :
    NoStop (useBuild D (failFn D false n) t st fn) ∧
      ∀ s, useBuild D (failFn D false n) t st fn = .ok s → Ok D s ∧ Within files names pkgs s := by
  by_cases hm : fn ∈ st.failedFns
  · unfold useBuild
    rw [if_pos hm]
    exact ⟨nofun, fun s e => by injection e with e; exact e ▸ ⟨ho, hw⟩⟩
  · obtain ⟨b1, _, _, _, b5, b6, _⟩ := addBuildTarget_spec ho hm hc hi
    have w : Within files names pkgs (addBuildTarget st fn t) := by
      unfold addBuildTarget
      by_cases hp : fn ∈ provs st.build t
      · rw [if_pos hp]; exact hw
      · rw [if_neg hp]
        exact { hw with keys := fun u hk => (isSome_new hk).elim (hw.keys u) fun e => e ▸ ht }
    have p : Plain D (addBuildTarget st fn t) :=
      { b1 with
        dep := fun _ _ _ _ _ _ => trivial, rdep := fun _ _ _ _ _ _ => trivial
        bprov := fun _ _ _ _ => trivial, rprov := fun _ _ _ _ => trivial }
    obtain ⟨e1, e2⟩ := addTasks_ends (halt := false) hu hn p w (hu.choose t ht fn hc) (b6 ▸ hm)
    have e : useBuild D (failFn D false n) t st fn = addTasks D (failFn D false n) (addBuildTarget st fn t) fn := by
      unfold useBuild
      rw [if_neg hm]
    refine ⟨e ▸ e1, fun s hs => ⟨(useBuild_spec (fail_spec D false n) ho hc hi hs).1, e2 s (e ▸ hs)⟩⟩

theorem useRun_ends (hu : Universe D files names pkgs) (hn : files.length < n) {st : TD} {t fn : Str} (ho : Ok D st)
    (hw : Within files names pkgs st) (ht : t ∈ pkgs) (hc : ∃ l, D.rchoose t = some l ∧ fn ∈ l) (hi : D.ignored t = false) :
    NoStop (useRun D (failFn D false n) t st fn) ∧
      ∀ s, useRun D (failFn D false n) t st fn = .ok s → Ok D s ∧ Within files names pkgs s := by
  by_cases hm : fn ∈ st.failedFns
  · unfold useRun
    rw [if_pos hm]
    exact ⟨nofun, fun s e => by injection e with e; exact e ▸ ⟨ho, hw⟩⟩
  · obtain ⟨b1, _, _, _, b5, b6, _⟩ := addRunTarget_spec ho hm hc hi
    have w : Within files names pkgs (addRunTarget st fn t) := by
      unfold addRunTarget
      by_cases hp : fn ∈ provs st.run t
      · rw [if_pos hp]; exact hw
      · rw [if_neg hp]
        exact { hw with rkeys := fun u hk => (isSome_new hk).elim (hw.rkeys u) fun e => e ▸ ht }
    have p : Plain D (addRunTarget st fn t) :=
      { b1 with
        dep := fun _ _ _ _ _ _ => trivial, rdep := fun _ _ _ _ _ _ => trivial
        bprov := fun _ _ _ _ => trivial, rprov := fun _ _ _ _ => trivial }
    obtain ⟨l, hl1, hl2⟩ := hc
    obtain ⟨e1, e2⟩ := addTasks_ends (halt := false) hu hn p w (hu.rchoose t ht l hl1 fn hl2) (b6 ▸ hm)
    have e : useRun D (failFn D false n) t st fn = addTasks D (failFn D false n) (addRunTarget st fn t) fn := by
      unfold useRun
      rw [if_neg hm]
    refine ⟨e ▸ e1, fun s hs => ⟨(useRun_spec (fail_spec D false n) ho ⟨l, hl1, hl2⟩ hi hs).1, e2 s (e ▸ hs)⟩⟩

theorem addProvider_ends (hu : Universe D files names pkgs) (hn : files.length < n) {st : TD} {t : Str} (ho : Ok D st)
    (hw : Within files names pkgs st) (ht : t ∈ names) : NoStop (addProvider D (failFn D false n) st t) ∧
      ∀ s, addProvider D (failFn D false n) st t = .ok s → Within files names pkgs s := by
  unfold addProvider
  by_cases hi : D.ignored t = true
  · rw [if_pos hi]; exact ⟨nofun, fun s e => by injection e with e; exact e ▸ hw⟩
  rw [if_neg hi]
  by_cases hp : provs st.build t ≠ []
  · rw [if_pos hp]; exact ⟨nofun, fun s e => by injection e with e; exact e ▸ hw⟩
  rw [if_neg hp]
  by_cases he : (D.choose t).filter (fun fn => fn ∉ st.failedFns) = []
  · rw [if_pos he]; exact ⟨nofun, nofun⟩
  · rw [if_neg he]
    have := noStop_each (l := (D.choose t).filter (fun fn => fn ∉ st.failedFns)) (P := fun s => Ok D s ∧ Within files names pkgs s)
      (f := useBuild D (failFn D false n) t)
      (fun s a ha hs => useBuild_ends hu hn hs.1 hs.2 ht (List.mem_filter.1 ha).1 (by simpa using hi)) ⟨ho, hw⟩
    exact ⟨this.1, fun s e => (this.2 s e).2⟩

theorem addRprovider_ends (hu : Universe D files names pkgs) (hn : files.length < n) {st : TD} {t : Str} (ho : Ok D st)
    (hw : Within files names pkgs st) (ht : t ∈ pkgs) : NoStop (addRprovider D (failFn D false n) st t) ∧
      ∀ s, addRprovider D (failFn D false n) st t = .ok s → Within files names pkgs s := by
  unfold addRprovider
  by_cases hi : D.ignored t = true
  · rw [if_pos hi]; exact ⟨nofun, fun s e => by injection e with e; exact e ▸ hw⟩
  rw [if_neg hi]
  by_cases hp : provs st.run t ≠ []
  · rw [if_pos hp]; exact ⟨nofun, fun s e => by injection e with e; exact e ▸ hw⟩
  rw [if_neg hp]
  cases hr : D.rchoose t with
  | none => exact ⟨nofun, nofun⟩
  | some m =>
    dsimp only
    by_cases he : m.filter (fun fn => fn ∉ st.failedFns) = []
    · rw [if_pos he]; exact ⟨nofun, nofun⟩
    · rw [if_neg he]
      have := noStop_each (l := m.filter (fun fn => fn ∉ st.failedFns)) (P := fun s => Ok D s ∧ Within files names pkgs s)
        (f := useRun D (failFn D false n) t)
        (fun s a ha hs => useRun_ends hu hn hs.1 hs.2 ht ⟨m, hr, (List.mem_filter.1 ha).1⟩ (by simpa using hi)) ⟨ho, hw⟩
      exact ⟨this.1, fun s e => (this.2 s e).2⟩

theorem removeBuild_within (hn : files.length < n) {st : TD} {t : Str} (ho : Ok D st) (hw : Within files names pkgs st) :
    NoStop (removeBuild D false (failFn D false n) st t) ∧
      ∀ s, removeBuild D false (failFn D false n) st t = .ok s → Within files names pkgs s :=
  ⟨(removeBuild_ends (fail_ends D false files n) ⟨ho.plain, hw.seen, Nat.lt_of_le_of_lt (left_le files st) hn⟩).1,
    fun _ e => hw.ext ((removeBuild_ok ho e).2.2.2 rfl)⟩

theorem removeRun_within (hn : files.length < n) {st : TD} {t : Str} (ho : Ok D st) (hw : Within files names pkgs st) :
    NoStop (removeRun D (failFn D false n) st t) ∧
      ∀ s, removeRun D (failFn D false n) st t = .ok s → Within files names pkgs s :=
  ⟨(removeRun_ends (fail_ends D false files n) ⟨ho.plain, hw.seen, Nat.lt_of_le_of_lt (left_le files st) hn⟩).1,
    fun _ e => hw.ext (removeRun_ok ho e).2.2.2⟩

theorem resolveBuild_ends (hu : Universe D files names pkgs) (hn : files.length < n) {st : TD} {t : Str} (ho : Ok D st)
    (hw : Within files names pkgs st) (ht : t ∈ names) : NoStop (resolveBuild D false n st t) ∧
      ∀ s, resolveBuild D false n st t = .ok s → Ok D s ∧ Within files names pkgs s := by
  obtain ⟨e1, e2⟩ := addProvider_ends hu hn ho hw ht
  have key : NoStop (resolveBuild D false n st t) ∧ ∀ s, resolveBuild D false n st t = .ok s → Within files names pkgs s := by
    unfold resolveBuild
    cases hp : addProvider D (failFn D false n) st t with
    | ok s =>
      refine ⟨nofun, fun s' e => ?_⟩
      injection e with e
      have := e2 s hp
      exact e ▸ { this with }
    | raised b s =>
      obtain ⟨rfl, _, _⟩ := addProvider_raised (fail_noRaise D n) hp
      dsimp only
      rw [if_neg (fun h : false = true ∧ t ∈ s.external => nomatch h.1)]
      exact removeBuild_within hn ho hw
    | stop => exact absurd hp e1
  exact ⟨key.1, fun s e => ⟨(resolveBuild_spec ho e).1, key.2 s e⟩⟩

theorem resolveRun_ends (hu : Universe D files names pkgs) (hn : files.length < n) {st : TD} {t : Str} (ho : Ok D st)
    (hw : Within files names pkgs st) (ht : t ∈ pkgs) : NoStop (resolveRun D false n st t) ∧
      ∀ s, resolveRun D false n st t = .ok s → Ok D s ∧ Within files names pkgs s := by
  obtain ⟨e1, e2⟩ := addRprovider_ends hu hn ho hw ht
  have key : NoStop (resolveRun D false n st t) ∧ ∀ s, resolveRun D false n st t = .ok s → Within files names pkgs s := by
    unfold resolveRun
    cases hp : addRprovider D (failFn D false n) st t with
    | ok s =>
      refine ⟨nofun, fun s' e => ?_⟩
      injection e with e
      have := e2 s hp
      exact e ▸ { this with }
    | raised b s =>
      obtain ⟨rfl, _, rfl, _⟩ := addRprovider_raised (fail_noRaise D n) hp
      exact removeRun_within hn ho hw
    | stop => exact absurd hp e1
  exact ⟨key.1, fun s e => ⟨(resolveRun_spec ho e).1, key.2 s e⟩⟩

theorem pass_ends (hu : Universe D files names pkgs) (hn : files.length < n) {st : TD} (ho : Ok D st)
    (hw : Within files names pkgs st) : NoStop (pass D false n st) ∧ ∀ s, pass D false n st = .ok s → Within files names pkgs s := by
  have e1 := noStop_each (l := unresolvedBuild D st) (P := fun s => Ok D s ∧ Within files names pkgs s) (f := resolveBuild D false n)
    (st := { st with added := 0 })
    (fun s t ht hs => resolveBuild_ends hu hn hs.1 hs.2 (hw.keys t (unresolvedBuild_key ht))) ⟨ho.count 0, { hw with }⟩
  have e2 := fun s1 (hs1 : Ok D s1 ∧ Within files names pkgs s1) =>
    noStop_each (l := unresolvedRun D s1) (P := fun s => Ok D s ∧ Within files names pkgs s) (f := resolveRun D false n)
      (fun s t ht hs => resolveRun_ends hu hn hs.1 hs.2 (hs1.2.rkeys t (unresolvedRun_key ht))) hs1
  refine ⟨noStop_bind e1.1 fun s hs => (e2 s (e1.2 s hs)).1, fun s e => ?_⟩
  obtain ⟨s1, h1, h2⟩ := bind_ok e
  exact ((e2 s1 (e1.2 s1 h1)).2 s h2).2

theorem addUnresolved_noRaise : ∀ (k : Nat) (st : TD), NoRaise (addUnresolved D false n k st)
  | 0, _ => nofun
  | k + 1, st => by
    refine bind_noRaise (bind_noRaise (each_noRaise (fun s t => ?_) _ _) fun s => each_noRaise (fun s t => ?_) _ _) fun s => ?_
    · unfold resolveBuild
      cases addProvider D (failFn D false n) s t with
      | ok s => exact nofun
      | raised b s =>
        dsimp only
        rw [if_neg (fun h : false = true ∧ t ∈ s.external => nomatch h.1)]
        exact removeBuild_noRaise (fail_noRaise D n) _ _
      | stop => exact nofun
    · unfold resolveRun
      cases hp : addRprovider D (failFn D false n) s t with
      | ok s => exact nofun
      | raised b s =>
        obtain ⟨_, _, rfl, _⟩ := addRprovider_raised (fail_noRaise D n) hp
        exact removeRun_noRaise (fail_noRaise D n) _ _
      | stop => exact nofun
    · by_cases h0 : s.added = 0
      · rw [if_pos h0]; exact nofun
      · rw [if_neg h0]; exact addUnresolved_noRaise k s

/-- The names that are not settled. -/
def open_ (D : Data) (names pkgs : List Str) (st : TD) : Nat :=
  names.countP (fun t => !D.ignored t && (provs st.build t == [] && t ∉ st.failedDeps)) +
    pkgs.countP fun t => !D.ignored t && (provs st.run t == [] && t ∉ st.failedRdeps)

theorem open_le (names pkgs : List Str) (st : TD) : open_ D names pkgs st ≤ names.length + pkgs.length :=
  Nat.add_le_add List.countP_le_length List.countP_le_length

theorem openB_iff {st : TD} {t : Str} : (!D.ignored t && (provs st.build t == [] && t ∉ st.failedDeps)) = true ↔ ¬ SettledB D t st := by
  unfold SettledB
  cases D.ignored t <;> simp

theorem openR_iff {st : TD} {t : Str} : (!D.ignored t && (provs st.run t == [] && t ∉ st.failedRdeps)) = true ↔ ¬ SettledR D t st := by
  unfold SettledR
  cases D.ignored t <;> simp

theorem unresolvedBuild_open {st : TD} {t : Str} (h : t ∈ unresolvedBuild D st) : ¬ SettledB D t st := by
  have h2 := (List.mem_filter.1 h).2
  rw [← openB_iff]
  simp only [Bool.and_eq_true] at h2 ⊢
  exact ⟨h2.1.1, h2.2, h2.1.2⟩

theorem unresolvedRun_open {st : TD} {t : Str} (h : t ∈ unresolvedRun D st) : ¬ SettledR D t st := by
  have h2 := (List.mem_filter.1 h).2
  rw [← openR_iff]
  simp only [Bool.and_eq_true] at h2 ⊢
  exact ⟨h2.1.1, h2.2, h2.1.2⟩

/-- Every turn settles something, or it is the last. -/
theorem pass_less {st st' : TD} (ho : Ok D st) (hw : Within files names pkgs st) (h : pass D false n st = .ok st') :
    open_ D names pkgs st' < open_ D names pkgs st ∨ st'.added = 0 := by
  obtain ⟨_, g, _, h1, h2, h3⟩ := pass_spec ho h
  have mb : ∀ x, SettledB D x st → SettledB D x st' := fun x hx =>
    Later.settledB (a := { st with added := 0 }) (b := { st' with added := 0 }) ⟨g, Nat.le_refl _⟩ hx
  have mr : ∀ x, SettledR D x st → SettledR D x st' := fun x hx =>
    Later.settledR (a := { st with added := 0 }) (b := { st' with added := 0 }) ⟨g, Nat.le_refl _⟩ hx
  have lb : ∀ x, x ∈ names → (!D.ignored x && (provs st'.build x == [] && x ∉ st'.failedDeps)) = true →
      (!D.ignored x && (provs st.build x == [] && x ∉ st.failedDeps)) = true := fun x _ hx => by
    rw [openB_iff] at hx ⊢
    exact fun hs => hx (mb x hs)
  have lr : ∀ x, x ∈ pkgs → (!D.ignored x && (provs st'.run x == [] && x ∉ st'.failedRdeps)) = true →
      (!D.ignored x && (provs st.run x == [] && x ∉ st.failedRdeps)) = true := fun x _ hx => by
    rw [openR_iff] at hx ⊢
    exact fun hs => hx (mr x hs)
  unfold open_
  cases hb : unresolvedBuild D st with
  | cons t l =>
    have ht : t ∈ unresolvedBuild D st := by rw [hb]; exact List.mem_cons_self
    refine Or.inl (Nat.add_lt_add_of_lt_of_le (countP_lt lb (hw.keys t (unresolvedBuild_key ht))
      (openB_iff.2 (unresolvedBuild_open ht)) ?_) (countP_mono lr))
    exact Bool.eq_false_iff.2 fun h => openB_iff.1 h (h1 t ht)
  | nil =>
    cases hr : unresolvedRun D st with
    | cons t l =>
      have ht : t ∈ unresolvedRun D st := by rw [hr]; exact List.mem_cons_self
      refine Or.inl (Nat.add_lt_add_of_le_of_lt (countP_mono lb) (countP_lt lr (hw.rkeys t (unresolvedRun_key ht))
        (openR_iff.2 (unresolvedRun_open ht)) ?_))
      exact Bool.eq_false_iff.2 fun h => openR_iff.1 h (h2 t ht)
    | nil => exact Or.inr (h3 hb hr)

theorem addUnresolved_ends (hu : Universe D files names pkgs) (hn : files.length < n) : ∀ {k : Nat} {st : TD}, Ok D st →
    Within files names pkgs st → open_ D names pkgs st < k → NoStop (addUnresolved D false n k st) ∧
      ∀ s, addUnresolved D false n k st = .ok s → Within files names pkgs s
  | 0, _, _, _, h => absurd h (Nat.not_lt_zero _)
  | k + 1, st, ho, hw, h => by
    obtain ⟨e1, e2⟩ := pass_ends hu hn ho hw
    refine ⟨noStop_bind e1 fun s hs => ?_, fun s' e => ?_⟩
    · by_cases h0 : s.added = 0
      · rw [if_pos h0]; exact nofun
      · rw [if_neg h0]
        refine (addUnresolved_ends hu hn (pass_spec ho hs).1 (e2 s hs) ?_).1
        have := (pass_less ho hw hs).resolve_right h0
        omega
    · obtain ⟨s, hs, e⟩ := bind_ok e
      by_cases h0 : s.added = 0
      · rw [if_pos h0] at e
        injection e with e
        exact e ▸ e2 s hs
      · rw [if_neg h0] at e
        refine (addUnresolved_ends hu hn (pass_spec ho hs).1 (e2 s hs) ?_).2 s' e
        have := (pass_less ho hw hs).resolve_right h0
        omega

theorem history_ends (hu : Universe D files names pkgs) (hn : files.length < n) {k : Nat} (hk : names.length + pkgs.length < k) :
    ∀ {ops : List Op} {st : TD}, (∀ t, .target t ∈ ops → t ∈ names) → Ok D st → Within files names pkgs st →
    ∃ s, history D false n k ops st = .ok s
  | [], st, _, _, _ => ⟨st, rfl⟩
  | o :: ops, st, ht, ho, hw => by
    have key : ∃ s, step D false n k st o = .ok s ∧ Ok D s ∧ Within files names pkgs s := by
      cases o with
      | target t =>
        obtain ⟨e1, e2⟩ := addProvider_ends hu hn ho hw (ht t List.mem_cons_self)
        have r : ∃ s, addRequested D false n st t = .ok s ∧ Within files names pkgs s := by
          unfold addRequested
          cases hp : addProvider D (failFn D false n) st t with
          | ok s => exact ⟨s, rfl, e2 s hp⟩
          | raised b s =>
            obtain ⟨rfl, _, _⟩ := addProvider_raised (fail_noRaise D n) hp
            dsimp only
            rw [if_neg (nofun : ¬ false = true)]
            obtain ⟨x1, x2⟩ := removeBuild_within (t := t) hn ho hw
            cases hr : removeBuild D false (failFn D false n) s t with
            | ok s' => exact ⟨s', rfl, x2 s' hr⟩
            | raised b s' => exact absurd hr (removeBuild_noRaise (fail_noRaise D n) _ _ _ _)
            | stop => exact absurd hr x1
          | stop => exact absurd hp e1
        obtain ⟨s, r1, r2⟩ := r
        have e : addExternal D false n st t = .ok (markExternal s t) := by
          unfold addExternal
          rw [r1]
          rfl
        refine ⟨markExternal s t, e, (addExternal_spec ho e).1, ?_⟩
        unfold markExternal
        split
        · exact r2
        · exact { r2 with }
      | unresolved =>
        obtain ⟨x1, x2⟩ := addUnresolved_ends hu hn ho hw (Nat.lt_of_le_of_lt (open_le names pkgs st) hk)
        cases hr : addUnresolved D false n k st with
        | ok s => exact ⟨s, hr, (addUnresolved_spec ho hr).1, x2 s hr⟩
        | raised b s => exact absurd hr (addUnresolved_noRaise _ _ _ _)
        | stop => exact absurd hr x1
    obtain ⟨s, h1, h2, h3⟩ := key
    obtain ⟨s', h4⟩ := history_ends hu hn hk (fun t h => ht t (List.mem_cons_of_mem _ h)) h2 h3
    refine ⟨s', ?_⟩
    unfold history
    rw [h1]
    exact h4

end

end Bb.Resolve
