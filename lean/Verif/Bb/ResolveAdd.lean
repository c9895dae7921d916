import Verif.Bb.ResolveLemmas
/-!
# Lemmas about adding recipes and names
-/

namespace Bb.Resolve
open Py

/-! ## New names -/

/-- Only names without providers are new, and only those in `K` and `R`. -/
structure Touch (K R : Str → Prop) (a b : TD) : Prop where
  seen : b.seen = a.seen
  external : b.external = a.external
  added : b.added = a.added
  fns : b.failedFns = a.failedFns
  deps : b.failedDeps = a.failedDeps
  rdeps : b.failedRdeps = a.failedRdeps
  bprovs : ∀ t, provs b.build t = provs a.build t
  rprovs : ∀ t, provs b.run t = provs a.run t
  bkeys : ∀ t, (a.build.lookup t).isSome = true → (b.build.lookup t).isSome = true
  rkeys : ∀ t, (a.run.lookup t).isSome = true → (b.run.lookup t).isSome = true
  bnew : ∀ t, (b.build.lookup t).isSome = true → (a.build.lookup t).isSome = true ∨ K t
  rnew : ∀ t, (b.run.lookup t).isSome = true → (a.run.lookup t).isSome = true ∨ R t

theorem Touch.refl {K R : Str → Prop} (a : TD) : Touch K R a a :=
  ⟨rfl, rfl, rfl, rfl, rfl, rfl, fun _ => rfl, fun _ => rfl, fun _ h => h, fun _ h => h, fun _ h => Or.inl h, fun _ h => Or.inl h⟩

theorem Touch.trans {K R : Str → Prop} {a b c : TD} (h1 : Touch K R a b) (h2 : Touch K R b c) : Touch K R a c :=
  ⟨h2.seen.trans h1.seen, h2.external.trans h1.external, h2.added.trans h1.added, h2.fns.trans h1.fns, h2.deps.trans h1.deps,
    h2.rdeps.trans h1.rdeps, fun t => (h2.bprovs t).trans (h1.bprovs t), fun t => (h2.rprovs t).trans (h1.rprovs t),
    fun t h => h2.bkeys t (h1.bkeys t h), fun t h => h2.rkeys t (h1.rkeys t h), fun t h => (h2.bnew t h).elim (h1.bnew t) Or.inr,
    fun t h => (h2.rnew t h).elim (h1.rnew t) Or.inr⟩

theorem isSome_set' (d : Dict (List Str)) (t : Str) (v : List Str) (s : Str)
    (h : (d.lookup s).isSome = true ∨ t = s) : ((d.set t v).lookup s).isSome = true := by
  rw [Dict.lookup_set]
  by_cases e : s = t
  · rw [if_pos e]; rfl
  · rw [if_neg e]
    exact h.resolve_right fun h => e h.symm

theorem isSome_new {d : Dict (List Str)} {t : Str} {v : List Str} {s : Str} (h : ((d.set t v).lookup s).isSome = true) :
    (d.lookup s).isSome = true ∨ t = s := by
  rw [Dict.lookup_set] at h
  by_cases e : s = t
  · exact Or.inr e.symm
  · rw [if_neg e] at h
    exact Or.inl h

theorem seenBuild_touch {K R : Str → Prop} (st : TD) (t : Str) (hk : K t) :
    Touch K R st (seenBuild st t) ∧ ((seenBuild st t).build.lookup t).isSome = true := by
  unfold seenBuild
  by_cases h : (st.build.lookup t).isSome = true
  · rw [if_pos h]
    exact ⟨Touch.refl st, h⟩
  · rw [if_neg h]
    refine ⟨⟨rfl, rfl, rfl, rfl, rfl, rfl, fun s => ?_, fun _ => rfl, fun s hs => ?_, fun _ h => h,
      fun s hs => (isSome_new hs).imp id fun e : t = s => e ▸ hk, fun _ h => Or.inl h⟩, ?_⟩
    · show provs (st.build.set t []) s = provs st.build s
      rw [provs_set]
      by_cases e : t = s
      · subst e
        rw [if_pos rfl]
        unfold provs
        cases hl : st.build.lookup t with
        | none => rfl
        | some l => rw [hl] at h; exact absurd rfl h
      · rw [if_neg e]
    · exact isSome_set' _ _ _ _ (Or.inl hs)
    · exact isSome_set' _ _ _ _ (Or.inr rfl)

theorem seenRun_touch {K R : Str → Prop} (st : TD) (t : Str) (hk : R t) :
    Touch K R st (seenRun st t) ∧ ((seenRun st t).run.lookup t).isSome = true := by
  unfold seenRun
  by_cases h : (st.run.lookup t).isSome = true
  · rw [if_pos h]
    exact ⟨Touch.refl st, h⟩
  · rw [if_neg h]
    refine ⟨⟨rfl, rfl, rfl, rfl, rfl, rfl, fun _ => rfl, fun s => ?_, fun _ h => h, fun s hs => ?_,
      fun _ h => Or.inl h, fun s hs => (isSome_new hs).imp id fun e : t = s => e ▸ hk⟩, ?_⟩
    · show provs (st.run.set t []) s = provs st.run s
      rw [provs_set]
      by_cases e : t = s
      · subst e
        rw [if_pos rfl]
        unfold provs
        cases hl : st.run.lookup t with
        | none => rfl
        | some l => rw [hl] at h; exact absurd rfl h
      · rw [if_neg e]
    · exact isSome_set' _ _ _ _ (Or.inl hs)
    · exact isSome_set' _ _ _ _ (Or.inr rfl)

theorem foldl_seenBuild {K R : Str → Prop} : ∀ (l : List Str) (st : TD) (_ : ∀ d, d ∈ l → K d), Touch K R st (l.foldl seenBuild st) ∧
    ∀ d, d ∈ l → ((l.foldl seenBuild st).build.lookup d).isSome = true
  | [], st, _ => ⟨Touch.refl st, nofun⟩
  | a :: l, st, hk => by
    obtain ⟨h1, h2⟩ := seenBuild_touch (K := K) (R := R) st a (hk a List.mem_cons_self)
    obtain ⟨h3, h4⟩ := foldl_seenBuild (K := K) (R := R) l (seenBuild st a) fun d hd => hk d (List.mem_cons_of_mem _ hd)
    refine ⟨h1.trans h3, fun d hd => ?_⟩
    rcases List.mem_cons.1 hd with rfl | hd
    · exact h3.bkeys d h2
    · exact h4 d hd

theorem foldl_seenRun {K R : Str → Prop} : ∀ (l : List Str) (st : TD) (_ : ∀ d, d ∈ l → R d), Touch K R st (l.foldl seenRun st) ∧
    ∀ d, d ∈ l → ((l.foldl seenRun st).run.lookup d).isSome = true
  | [], st, _ => ⟨Touch.refl st, nofun⟩
  | a :: l, st, hk => by
    obtain ⟨h1, h2⟩ := seenRun_touch (K := K) (R := R) st a (hk a List.mem_cons_self)
    obtain ⟨h3, h4⟩ := foldl_seenRun (K := K) (R := R) l (seenRun st a) fun d hd => hk d (List.mem_cons_of_mem _ hd)
    refine ⟨h1.trans h3, fun d hd => ?_⟩
    rcases List.mem_cons.1 hd with rfl | hd
    · exact h3.rkeys d h2
    · exact h4 d hd

/-- The loops over the dependencies of a new recipe fail it, or find that none has failed. -/
theorem rdepLoop_cases {K R : Str → Prop} {fail : TD → Str → Out} {fn : Str} : ∀ {ds : List Str} {st : TD} (_ : ∀ d, d ∈ ds → R d),
    (∃ s, Touch K R st s ∧ (∃ d, d ∈ ds ∧ d ∈ st.failedRdeps) ∧ rdepLoop fail fn ds st = fail s fn) ∨
    (∃ s, Touch K R st s ∧ (∀ d, d ∈ ds → (s.run.lookup d).isSome = true ∧ d ∉ st.failedRdeps) ∧ rdepLoop fail fn ds st = .ok s)
  | [], st, _ => Or.inr ⟨st, Touch.refl st, nofun, rfl⟩
  | d :: ds, st, hk => by
    obtain ⟨h1, h2⟩ := seenRun_touch (K := K) (R := R) st d (hk d List.mem_cons_self)
    unfold rdepLoop
    by_cases hd : d ∈ st.failedRdeps
    · rw [if_pos hd]
      exact Or.inl ⟨_, h1, ⟨d, List.mem_cons_self, hd⟩, rfl⟩
    · rw [if_neg hd]
      rcases rdepLoop_cases (fail := fail) (fn := fn) (ds := ds) (st := seenRun st d)
        (fun d hd => hk d (List.mem_cons_of_mem _ hd)) with ⟨s, h3, ⟨e, he, hf⟩, h4⟩ | ⟨s, h3, h4, h5⟩
      · exact Or.inl ⟨s, h1.trans h3, ⟨e, List.mem_cons_of_mem _ he, h1.rdeps ▸ hf⟩, h4⟩
      · refine Or.inr ⟨s, h1.trans h3, fun e he => ?_, h5⟩
        rcases List.mem_cons.1 he with rfl | he
        · exact ⟨h3.rkeys e h2, hd⟩
        · exact ⟨(h4 e he).1, h1.rdeps ▸ (h4 e he).2⟩

theorem depLoop_cases {K R : Str → Prop} {fail : TD → Str → Out} {fn : Str} {next : TD → Out} : ∀ {ds : List Str} {st : TD} (_ : ∀ d, d ∈ ds → K d),
    (∃ s, Touch K R st s ∧ (∃ d, d ∈ ds ∧ d ∈ st.failedDeps) ∧ depLoop fail fn next ds st = fail s fn) ∨
    (∃ s, Touch K R st s ∧ (∀ d, d ∈ ds → (s.build.lookup d).isSome = true ∧ d ∉ st.failedDeps) ∧
      depLoop fail fn next ds st = next s)
  | [], st, _ => Or.inr ⟨st, Touch.refl st, nofun, rfl⟩
  | d :: ds, st, hk => by
    obtain ⟨h1, h2⟩ := seenBuild_touch (K := K) (R := R) st d (hk d List.mem_cons_self)
    unfold depLoop
    by_cases hd : d ∈ st.failedDeps
    · rw [if_pos hd]
      exact Or.inl ⟨_, h1, ⟨d, List.mem_cons_self, hd⟩, rfl⟩
    · rw [if_neg hd]
      rcases depLoop_cases (fail := fail) (fn := fn) (next := next) (ds := ds) (st := seenBuild st d)
        (fun d hd => hk d (List.mem_cons_of_mem _ hd)) with
        ⟨s, h3, ⟨e, he, hf⟩, h4⟩ | ⟨s, h3, h4, h5⟩
      · exact Or.inl ⟨s, h1.trans h3, ⟨e, List.mem_cons_of_mem _ he, h1.deps ▸ hf⟩, h4⟩
      · refine Or.inr ⟨s, h1.trans h3, fun e he => ?_, h5⟩
        rcases List.mem_cons.1 he with rfl | he
        · exact ⟨h3.bkeys e h2, hd⟩
        · exact ⟨(h4 e he).1, h1.deps ▸ (h4 e he).2⟩

/-- New names are those that a recipe depends on. -/
abbrev TouchFn (D : Data) (fn : Str) : TD → TD → Prop :=
  Touch (fun d => d ∈ D.deps fn ∨ d ∈ D.ideps fn) (fun d => d ∈ D.rdeps fn ∨ d ∈ D.irdeps fn)

/-- The data when the loops over the dependencies begin. -/
def entered (D : Data) (st : TD) (fn : Str) : TD :=
  (D.irdeps fn).foldl seenRun ((D.ideps fn).foldl seenBuild { st with seen := st.seen ++ [fn] })

theorem entered_touch (D : Data) (st : TD) (fn : Str) : TouchFn D fn { st with seen := st.seen ++ [fn] } (entered D st fn) ∧
    (∀ d, d ∈ D.ideps fn → ((entered D st fn).build.lookup d).isSome = true) ∧
    (∀ d, d ∈ D.irdeps fn → ((entered D st fn).run.lookup d).isSome = true) := by
  obtain ⟨h1, h2⟩ := foldl_seenBuild (K := fun d => d ∈ D.deps fn ∨ d ∈ D.ideps fn) (R := fun d => d ∈ D.rdeps fn ∨ d ∈ D.irdeps fn)
    (D.ideps fn) { st with seen := st.seen ++ [fn] } fun d hd => Or.inr hd
  obtain ⟨h3, h4⟩ := foldl_seenRun (K := fun d => d ∈ D.deps fn ∨ d ∈ D.ideps fn) (R := fun d => d ∈ D.rdeps fn ∨ d ∈ D.irdeps fn)
    (D.irdeps fn) ((D.ideps fn).foldl seenBuild { st with seen := st.seen ++ [fn] }) fun d hd => Or.inr hd
  exact ⟨h1.trans h3, fun d hd => h3.bkeys d (h2 d hd), h4⟩

/-- Adding a new recipe: it fails, or none of its dependencies has failed. -/
theorem addTasks_cases {D : Data} {fail : TD → Str → Out} {st : TD} {fn : Str} (hf : fn ∉ st.failedFns) (hs : fn ∉ st.seen) :
    (∃ s, TouchFn D fn (entered D st fn) s ∧ ((∃ d, d ∈ D.deps fn ∧ d ∈ st.failedDeps) ∨ ∃ d, d ∈ D.rdeps fn ∧ d ∈ st.failedRdeps) ∧
      addTasks D fail st fn = fail s fn) ∨
    (∃ s, TouchFn D fn (entered D st fn) s ∧ (∀ d, d ∈ D.deps fn → (s.build.lookup d).isSome = true ∧ d ∉ st.failedDeps) ∧
      (∀ d, d ∈ D.rdeps fn → (s.run.lookup d).isSome = true ∧ d ∉ st.failedRdeps) ∧ addTasks D fail st fn = .ok s) := by
  unfold addTasks
  rw [if_neg hf, if_neg hs]
  have ht := (entered_touch D st fn).1
  rcases depLoop_cases (K := fun d => d ∈ D.deps fn ∨ d ∈ D.ideps fn) (R := fun d => d ∈ D.rdeps fn ∨ d ∈ D.irdeps fn) (fail := fail) (fn := fn) (next := rdepLoop fail fn (D.rdeps fn)) (ds := D.deps fn)
    (st := entered D st fn) (fun d hd => Or.inl hd) with ⟨s, h1, ⟨d, h2, h3⟩, h4⟩ | ⟨s, h1, h2, h3⟩
  · exact Or.inl ⟨s, h1, Or.inl ⟨d, h2, by rw [ht.deps] at h3; exact h3⟩, h4⟩
  · rcases rdepLoop_cases (K := fun d => d ∈ D.deps fn ∨ d ∈ D.ideps fn) (R := fun d => d ∈ D.rdeps fn ∨ d ∈ D.irdeps fn) (fail := fail) (fn := fn) (ds := D.rdeps fn) (st := s)
      (fun d hd => Or.inl hd) with ⟨s', h1', ⟨d, h2', h3'⟩, h4'⟩ | ⟨s', h1', h2', h3'⟩
    · exact Or.inl ⟨s', h1.trans h1', Or.inr ⟨d, h2', by rw [(ht.trans h1).rdeps] at h3'; exact h3'⟩, h3.trans h4'⟩
    · refine Or.inr ⟨s', h1.trans h1', fun d hd => ⟨h1'.bkeys d (h2 d hd).1, ?_⟩, fun d hd => ⟨(h2' d hd).1, ?_⟩, h3.trans h3'⟩
      · have := (h2 d hd).2
        rw [ht.deps] at this
        exact this
      · have := (h2' d hd).2
        rw [(ht.trans h1).rdeps] at this
        exact this

/-! ## The whole invariant -/

/-- `G` is the recipe that is being added. -/
structure Full (D : Data) (G : Str → Prop) (st : TD) : Prop where
  keys : ∀ fn, fn ∈ st.seen → fn ∉ st.failedFns → G fn ∨ ∀ d, d ∈ D.deps fn → (st.build.lookup d).isSome = true
  rkeys : ∀ fn, fn ∈ st.seen → fn ∉ st.failedFns → G fn ∨ ∀ d, d ∈ D.rdeps fn → (st.run.lookup d).isSome = true
  ikeys : ∀ fn, fn ∈ st.seen → ∀ d, d ∈ D.ideps fn → (st.build.lookup d).isSome = true
  irkeys : ∀ fn, fn ∈ st.seen → ∀ d, d ∈ D.irdeps fn → (st.run.lookup d).isSome = true
  prov : ∀ t x, x ∈ provs st.build t → (x ∈ D.choose t ∧ D.ignored t = false) ∧ (x ∈ st.seen ∨ G x)
  rprov : ∀ t x, x ∈ provs st.run t → ((∃ l, D.rchoose t = some l ∧ x ∈ l) ∧ D.ignored t = false) ∧ (x ∈ st.seen ∨ G x)
  ext : ∀ t, t ∈ st.external → D.ignored t = true ∨ t ∈ st.failedDeps ∨ (st.build.lookup t).isSome = true

theorem Full.ext_of {D : Data} {G : Str → Prop} {halt : Bool} {a b : TD} (h : Full D G a) (x : Ext halt a b) : Full D G b where
  keys fn hs hn := (h.keys fn (x.seen ▸ hs) fun h => hn (x.fns fn h)).imp id fun k d hd => (x.bkeys d).trans (k d hd)
  rkeys fn hs hn := (h.rkeys fn (x.seen ▸ hs) fun h => hn (x.fns fn h)).imp id fun k d hd => (x.rkeys d).trans (k d hd)
  ikeys fn hs d hd := (x.bkeys d).trans (h.ikeys fn (x.seen ▸ hs) d hd)
  irkeys fn hs d hd := (x.rkeys d).trans (h.irkeys fn (x.seen ▸ hs) d hd)
  prov t y hy := by rw [x.seen]; exact h.prov t y ((x.bsub t).subset hy)
  rprov t y hy := by rw [x.seen]; exact h.rprov t y ((x.rsub t).subset hy)
  ext t ht := (h.ext t (x.external ▸ ht)).imp id fun h => h.imp (x.deps t) fun h => (x.bkeys t).trans h

theorem Full.touch {K R : Str → Prop} {D : Data} {G : Str → Prop} {a b : TD} (h : Full D G a) (x : Touch K R a b) : Full D G b where
  keys fn hs hn := (h.keys fn (x.seen ▸ hs) (x.fns ▸ hn)).imp id fun k d hd => x.bkeys d (k d hd)
  rkeys fn hs hn := (h.rkeys fn (x.seen ▸ hs) (x.fns ▸ hn)).imp id fun k d hd => x.rkeys d (k d hd)
  ikeys fn hs d hd := x.bkeys d (h.ikeys fn (x.seen ▸ hs) d hd)
  irkeys fn hs d hd := x.rkeys d (h.irkeys fn (x.seen ▸ hs) d hd)
  prov t y hy := by rw [x.seen]; exact h.prov t y (x.bprovs t ▸ hy)
  rprov t y hy := by rw [x.seen]; exact h.rprov t y (x.rprovs t ▸ hy)
  ext t ht := (h.ext t (x.external ▸ ht)).imp id fun h => h.imp (fun h => x.deps ▸ h) (x.bkeys t)

theorem Inv.touch {K R : Str → Prop} {D : Data} {P Q : Str → Str → Prop} {F : Str → Prop} {a b : TD} (h : Inv D P Q F a)
    (x : Touch K R a b) : Inv D P Q F b where
  dep fn hs hn d hd hf := h.dep fn (x.seen ▸ hs) (x.fns ▸ hn) d hd (x.deps ▸ hf)
  rdep fn hs hn d hd hf := h.rdep fn (x.seen ▸ hs) (x.fns ▸ hn) d hd (x.rdeps ▸ hf)
  bprov t y hy hf := h.bprov t y (x.bprovs t ▸ hy) (x.fns ▸ hf)
  rprov t y hy hf := h.rprov t y (x.rprovs t ▸ hy) (x.fns ▸ hf)
  bnodup t := by rw [x.bprovs t]; exact h.bnodup t
  rnodup t := by rw [x.rprovs t]; exact h.rnodup t

/-- Recipes that have not failed have no failed dependencies; only task dependencies may be pending. -/
abbrev Base (D : Data) (st : TD) : Prop := Inv D (fun fn d => d ∉ D.deps fn) (fun fn d => d ∉ D.rdeps fn) (fun _ => False) st

structure Ok (D : Data) (st : TD) : Prop where
  base : Base D st
  full : Full D (fun _ => False) st

/-- What never goes away. -/
structure Grow (a b : TD) : Prop where
  seen : ∀ x, x ∈ a.seen → x ∈ b.seen
  external : b.external = a.external
  added : b.added = a.added
  fns : ∀ x, x ∈ a.failedFns → x ∈ b.failedFns
  deps : ∀ x, x ∈ a.failedDeps → x ∈ b.failedDeps
  rdeps : ∀ x, x ∈ a.failedRdeps → x ∈ b.failedRdeps
  bkeys : ∀ t, (a.build.lookup t).isSome = true → (b.build.lookup t).isSome = true
  rkeys : ∀ t, (a.run.lookup t).isSome = true → (b.run.lookup t).isSome = true
  bres : ∀ t, provs b.build t = [] → provs a.build t = [] ∨ t ∈ b.failedDeps
  rres : ∀ t, provs b.run t = [] → provs a.run t = [] ∨ t ∈ b.failedRdeps

theorem Grow.refl (a : TD) : Grow a a :=
  ⟨fun _ h => h, rfl, rfl, fun _ h => h, fun _ h => h, fun _ h => h, fun _ h => h, fun _ h => h, fun _ h => Or.inl h,
    fun _ h => Or.inl h⟩

theorem Grow.trans {a b c : TD} (h1 : Grow a b) (h2 : Grow b c) : Grow a c where
  seen x h := h2.seen x (h1.seen x h)
  external := h2.external.trans h1.external
  added := h2.added.trans h1.added
  fns x h := h2.fns x (h1.fns x h)
  deps x h := h2.deps x (h1.deps x h)
  rdeps x h := h2.rdeps x (h1.rdeps x h)
  bkeys t h := h2.bkeys t (h1.bkeys t h)
  rkeys t h := h2.rkeys t (h1.rkeys t h)
  bres t h := (h2.bres t h).elim (fun h => (h1.bres t h).imp id (h2.deps t)) Or.inr
  rres t h := (h2.rres t h).elim (fun h => (h1.rres t h).imp id (h2.rdeps t)) Or.inr

theorem Ext.grow {halt : Bool} {a b : TD} (h : Ext halt a b) : Grow a b :=
  ⟨fun _ hx => h.seen ▸ hx, h.external, h.added, h.fns, h.deps, h.rdeps, fun t ht => (h.bkeys t).trans ht,
    fun t ht => (h.rkeys t).trans ht, h.bempty, h.rempty⟩

theorem Touch.grow {K R : Str → Prop} {a b : TD} (h : Touch K R a b) : Grow a b :=
  ⟨fun _ hx => h.seen ▸ hx, h.external, h.added, fun _ hx => h.fns ▸ hx, fun _ hx => h.deps ▸ hx, fun _ hx => h.rdeps ▸ hx, h.bkeys,
    h.rkeys, fun t ht => Or.inl (h.bprovs t ▸ ht), fun t ht => Or.inl (h.rprovs t ▸ ht)⟩

/-- Adding a recipe that already provides something. -/
theorem addTasks_spec {D : Data} {halt : Bool} {fail : TD → Str → Out} (hf : FailSpec D halt fail) {st st' : TD} {fn : Str}
    (hb : Base D st) (hfull : Full D (fun x => x = fn) st) (hn : fn ∉ st.failedFns) (h : addTasks D fail st fn = .ok st')
    (hseen : fn ∈ st.seen → Full D (fun _ => False) st) : Ok D st' ∧ Grow st st' := by
  by_cases hs : fn ∈ st.seen
  · unfold addTasks at h
    rw [if_neg hn, if_pos hs] at h
    injection h with h
    subst h
    exact ⟨⟨hb, hseen hs⟩, Grow.refl _⟩
  · obtain ⟨ht, hk1, hk2⟩ := entered_touch D st fn
    have g0 : Grow st (entered D st fn) := by
      refine Grow.trans (b := { st with seen := st.seen ++ [fn] }) ?_ ht.grow
      exact { Grow.refl st with seen := fun x hx => List.mem_append_left _ hx }
    have fu : Full D (fun x => x = fn) (entered D st fn) :=
      { keys := fun g hg hgn => by
          rw [ht.seen] at hg
          rw [ht.fns] at hgn
          rcases List.mem_append.1 hg with hg | hg
          · exact (hfull.keys g hg hgn).imp id fun k d hd => ht.bkeys d (k d hd)
          · exact Or.inl (List.mem_singleton.1 hg)
        rkeys := fun g hg hgn => by
          rw [ht.seen] at hg
          rw [ht.fns] at hgn
          rcases List.mem_append.1 hg with hg | hg
          · exact (hfull.rkeys g hg hgn).imp id fun k d hd => ht.rkeys d (k d hd)
          · exact Or.inl (List.mem_singleton.1 hg)
        ikeys := fun g hg d hd => by
          rw [ht.seen] at hg
          rcases List.mem_append.1 hg with hg | hg
          · exact ht.bkeys d (hfull.ikeys g hg d hd)
          · rw [List.mem_singleton.1 hg] at hd
            exact hk1 d hd
        irkeys := fun g hg d hd => by
          rw [ht.seen] at hg
          rcases List.mem_append.1 hg with hg | hg
          · exact ht.rkeys d (hfull.irkeys g hg d hd)
          · rw [List.mem_singleton.1 hg] at hd
            exact hk2 d hd
        prov := fun t x hx => by
          rw [ht.bprovs] at hx
          obtain ⟨p1, p2⟩ := hfull.prov t x hx
          refine ⟨p1, ?_⟩
          rw [ht.seen]
          exact p2.imp (fun h => List.mem_append_left _ h) id
        rprov := fun t x hx => by
          rw [ht.rprovs] at hx
          obtain ⟨p1, p2⟩ := hfull.rprov t x hx
          refine ⟨p1, ?_⟩
          rw [ht.seen]
          exact p2.imp (fun h => List.mem_append_left _ h) id
        ext := fun t htt => by
          rw [ht.external] at htt
          rw [ht.deps]
          exact (hfull.ext t htt).imp id fun h => h.imp id (ht.bkeys t) }
    have fin : ∀ s, TouchFn D fn (entered D st fn) s → fn ∈ s.seen := fun s hs => by
      rw [hs.seen, ht.seen]
      exact List.mem_append_right _ List.mem_cons_self
    have iv : Inv D (fun g d => d ∉ D.deps g ∨ g = fn) (fun g d => d ∉ D.rdeps g ∨ g = fn) (fun _ => False) (entered D st fn) :=
      { dep := fun g hg hgn d hd hfd => by
          rw [ht.seen] at hg
          rw [ht.fns] at hgn
          rw [ht.deps] at hfd
          rcases List.mem_append.1 hg with hg | hg
          · exact Or.inl (hb.dep g hg hgn d hd hfd)
          · exact Or.inr (List.mem_singleton.1 hg)
        rdep := fun g hg hgn d hd hfd => by
          rw [ht.seen] at hg
          rw [ht.fns] at hgn
          rw [ht.rdeps] at hfd
          rcases List.mem_append.1 hg with hg | hg
          · exact Or.inl (hb.rdep g hg hgn d hd hfd)
          · exact Or.inr (List.mem_singleton.1 hg)
        bprov := fun t x hx hfx => hb.bprov t x (ht.bprovs t ▸ hx) (ht.fns ▸ hfx)
        rprov := fun t x hx hfx => hb.rprov t x (ht.rprovs t ▸ hx) (ht.fns ▸ hfx)
        bnodup := fun t => by rw [ht.bprovs t]; exact hb.bnodup t
        rnodup := fun t => by rw [ht.rprovs t]; exact hb.rnodup t }
    rcases addTasks_cases (D := D) (fail := fail) hn hs with ⟨s, t1, _, e⟩ | ⟨s, t1, k1, k2, e⟩
    · rw [e] at h
      obtain ⟨i1, i2, i3⟩ := hf _ _ _ _ _ _ (iv.touch t1) h
      have f1 := (fu.touch t1).ext_of i3
      have hfs : fn ∈ st'.seen := by rw [i3.seen]; exact fin s t1
      refine ⟨⟨?_, ?_⟩, g0.trans (t1.grow.trans i3.grow)⟩
      · exact { i1 with
          dep := fun g hg hgn d hd hfd => (i1.dep g hg hgn d hd hfd).resolve_right fun e => hgn (e ▸ i2)
          rdep := fun g hg hgn d hd hfd => (i1.rdep g hg hgn d hd hfd).resolve_right fun e => hgn (e ▸ i2) }
      · exact { f1 with
          keys := fun g hg hgn => Or.inr ((f1.keys g hg hgn).resolve_left fun e => hgn (e ▸ i2))
          rkeys := fun g hg hgn => Or.inr ((f1.rkeys g hg hgn).resolve_left fun e => hgn (e ▸ i2))
          prov := fun t x hx => ⟨(f1.prov t x hx).1, Or.inl ((f1.prov t x hx).2.elim id fun e => e ▸ hfs)⟩
          rprov := fun t x hx => ⟨(f1.rprov t x hx).1, Or.inl ((f1.rprov t x hx).2.elim id fun e => e ▸ hfs)⟩ }
    · rw [e] at h
      injection h with h
      subst h
      have f1 := fu.touch t1
      have i1 := iv.touch t1
      have hfs := fin s t1
      refine ⟨⟨?_, ?_⟩, g0.trans t1.grow⟩
      · exact { i1 with
          dep := fun g hg hgn d hd hfd => (i1.dep g hg hgn d hd hfd).elim id fun e hx => by
            subst e
            rw [(ht.trans t1).deps] at hfd
            exact (k1 d hx).2 hfd
          rdep := fun g hg hgn d hd hfd => (i1.rdep g hg hgn d hd hfd).elim id fun e hx => by
            subst e
            rw [(ht.trans t1).rdeps] at hfd
            exact (k2 d hx).2 hfd }
      · exact { f1 with
          keys := fun g hg hgn => Or.inr ((f1.keys g hg hgn).elim (fun e d hd => (k1 d (e ▸ hd)).1) id)
          rkeys := fun g hg hgn => Or.inr ((f1.rkeys g hg hgn).elim (fun e d hd => (k2 d (e ▸ hd)).1) id)
          prov := fun t x hx => ⟨(f1.prov t x hx).1, Or.inl ((f1.prov t x hx).2.elim id fun e => e ▸ hfs)⟩
          rprov := fun t x hx => ⟨(f1.rprov t x hx).1, Or.inl ((f1.rprov t x hx).2.elim id fun e => e ▸ hfs)⟩ }

/-- A new provider of a name. -/
theorem addBuildTarget_spec {D : Data} {st : TD} {fn t : Str} (h : Ok D st) (hn : fn ∉ st.failedFns) (hc : fn ∈ D.choose t)
    (hi : D.ignored t = false) : Base D (addBuildTarget st fn t) ∧ Full D (fun x => x = fn) (addBuildTarget st fn t) ∧
      (fn ∈ st.seen → Full D (fun _ => False) (addBuildTarget st fn t)) ∧ Grow st (addBuildTarget st fn t) ∧
      (addBuildTarget st fn t).seen = st.seen ∧ (addBuildTarget st fn t).failedFns = st.failedFns ∧
      fn ∈ provs (addBuildTarget st fn t).build t := by
  obtain ⟨hb, hf⟩ := h
  unfold addBuildTarget
  by_cases hm : fn ∈ provs st.build t
  · rw [if_pos hm]
    refine ⟨hb, { hf with keys := fun g hg hgn => Or.inr ((hf.keys g hg hgn).resolve_left id), rkeys := fun g hg hgn => Or.inr ((hf.rkeys g hg hgn).resolve_left id), prov := fun s x hx => ⟨(hf.prov s x hx).1, Or.inl ((hf.prov s x hx).2.resolve_right id)⟩, rprov := fun s x hx => ⟨(hf.rprov s x hx).1, Or.inl ((hf.rprov s x hx).2.resolve_right id)⟩ }, fun _ => hf, Grow.refl _, rfl, rfl, hm⟩
  · rw [if_neg hm]
    have mem : ∀ s x, x ∈ provs (st.build.set t (provs st.build t ++ [fn])) s → x ∈ provs st.build s ∨ (x = fn ∧ t = s) := by
      intro s x hx
      rw [provs_set] at hx
      by_cases e : t = s
      · rw [if_pos e] at hx
        subst e
        exact (List.mem_append.1 hx).imp id fun h => ⟨List.mem_singleton.1 h, rfl⟩
      · rw [if_neg e] at hx
        exact Or.inl hx
    have key : ∀ s, (st.build.lookup s).isSome = true → ((st.build.set t (provs st.build t ++ [fn])).lookup s).isSome = true :=
      fun s hs => isSome_set' _ _ _ _ (Or.inl hs)
    have full : ∀ G : Str → Prop, (fn ∈ st.seen ∨ G fn) →
        Full D G { st with build := st.build.set t (provs st.build t ++ [fn]) } := fun G hG =>
      { keys := fun g hg hgn => Or.inr fun d hd => key d ((hf.keys g hg hgn).resolve_left id d hd)
        rkeys := fun g hg hgn => Or.inr ((hf.rkeys g hg hgn).resolve_left id)
        ikeys := fun g hg d hd => key d (hf.ikeys g hg d hd)
        irkeys := hf.irkeys
        prov := fun s x hx => by
          rcases mem s x hx with hx | ⟨rfl, rfl⟩
          · exact ⟨(hf.prov s x hx).1, Or.inl ((hf.prov s x hx).2.resolve_right id)⟩
          · exact ⟨⟨hc, hi⟩, hG⟩
        rprov := fun s x hx => ⟨(hf.rprov s x hx).1, Or.inl ((hf.rprov s x hx).2.resolve_right id)⟩
        ext := fun s hs => (hf.ext s hs).imp id fun h => h.imp id (key s) }
    refine ⟨?_, full _ (Or.inr rfl), fun h => full _ (Or.inl h), ?_, rfl, rfl, ?_⟩
    · exact { hb with
        bprov := fun s x hx hfx => by
          rcases mem s x hx with hx | ⟨rfl, rfl⟩
          · exact hb.bprov s x hx hfx
          · exact hn hfx
        bnodup := fun s => by
          show (provs (st.build.set t (provs st.build t ++ [fn])) s).Nodup
          rw [provs_set]
          by_cases e : t = s
          · rw [if_pos e]
            exact List.nodup_append.2 ⟨hb.bnodup t, by simp, fun a ha b hb e => hm (by rw [← List.mem_singleton.1 hb, ← e]; exact ha)⟩
          · rw [if_neg e]
            exact hb.bnodup s }
    · exact { Grow.refl st with
        bkeys := key
        bres := fun s hs => Or.inl (by
          have hs : provs (st.build.set t (provs st.build t ++ [fn])) s = [] := hs
          rw [provs_set] at hs
          by_cases e : t = s
          · rw [if_pos e] at hs
            exact absurd hs (List.append_ne_nil_of_right_ne_nil _ (List.cons_ne_nil _ _))
          · rw [if_neg e] at hs
            exact hs) }
    · show fn ∈ provs (st.build.set t (provs st.build t ++ [fn])) t
      rw [provs_set, if_pos rfl]
      exact List.mem_append_right _ List.mem_cons_self

theorem addRunTarget_spec {D : Data} {st : TD} {fn t : Str} (h : Ok D st) (hn : fn ∉ st.failedFns)
    (hc : ∃ l, D.rchoose t = some l ∧ fn ∈ l)
    (hi : D.ignored t = false) : Base D (addRunTarget st fn t) ∧ Full D (fun x => x = fn) (addRunTarget st fn t) ∧
      (fn ∈ st.seen → Full D (fun _ => False) (addRunTarget st fn t)) ∧ Grow st (addRunTarget st fn t) ∧
      (addRunTarget st fn t).seen = st.seen ∧ (addRunTarget st fn t).failedFns = st.failedFns ∧
      fn ∈ provs (addRunTarget st fn t).run t := by
  obtain ⟨hb, hf⟩ := h
  unfold addRunTarget
  by_cases hm : fn ∈ provs st.run t
  · rw [if_pos hm]
    refine ⟨hb, { hf with keys := fun g hg hgn => Or.inr ((hf.keys g hg hgn).resolve_left id), rkeys := fun g hg hgn => Or.inr ((hf.rkeys g hg hgn).resolve_left id), prov := fun s x hx => ⟨(hf.prov s x hx).1, Or.inl ((hf.prov s x hx).2.resolve_right id)⟩, rprov := fun s x hx => ⟨(hf.rprov s x hx).1, Or.inl ((hf.rprov s x hx).2.resolve_right id)⟩ }, fun _ => hf, Grow.refl _, rfl, rfl, hm⟩
  · rw [if_neg hm]
    have mem : ∀ s x, x ∈ provs (st.run.set t (provs st.run t ++ [fn])) s → x ∈ provs st.run s ∨ (x = fn ∧ t = s) := by
      intro s x hx
      rw [provs_set] at hx
      by_cases e : t = s
      · rw [if_pos e] at hx
        subst e
        exact (List.mem_append.1 hx).imp id fun h => ⟨List.mem_singleton.1 h, rfl⟩
      · rw [if_neg e] at hx
        exact Or.inl hx
    have key : ∀ s, (st.run.lookup s).isSome = true → ((st.run.set t (provs st.run t ++ [fn])).lookup s).isSome = true :=
      fun s hs => isSome_set' _ _ _ _ (Or.inl hs)
    have full : ∀ G : Str → Prop, (fn ∈ st.seen ∨ G fn) →
        Full D G { st with run := st.run.set t (provs st.run t ++ [fn]) } := fun G hG =>
      { keys := fun g hg hgn => Or.inr ((hf.keys g hg hgn).resolve_left id)
        rkeys := fun g hg hgn => Or.inr fun d hd => key d ((hf.rkeys g hg hgn).resolve_left id d hd)
        ikeys := hf.ikeys
        irkeys := fun g hg d hd => key d (hf.irkeys g hg d hd)
        prov := fun s x hx => ⟨(hf.prov s x hx).1, Or.inl ((hf.prov s x hx).2.resolve_right id)⟩
        rprov := fun s x hx => by
          rcases mem s x hx with hx | ⟨rfl, rfl⟩
          · exact ⟨(hf.rprov s x hx).1, Or.inl ((hf.rprov s x hx).2.resolve_right id)⟩
          · exact ⟨⟨hc, hi⟩, hG⟩
        ext := hf.ext }
    refine ⟨?_, full _ (Or.inr rfl), fun h => full _ (Or.inl h), ?_, rfl, rfl, ?_⟩
    · exact { hb with
        rprov := fun s x hx hfx => by
          rcases mem s x hx with hx | ⟨rfl, rfl⟩
          · exact hb.rprov s x hx hfx
          · exact hn hfx
        rnodup := fun s => by
          show (provs (st.run.set t (provs st.run t ++ [fn])) s).Nodup
          rw [provs_set]
          by_cases e : t = s
          · rw [if_pos e]
            exact List.nodup_append.2 ⟨hb.rnodup t, by simp, fun a ha b hb e => hm (by rw [← List.mem_singleton.1 hb, ← e]; exact ha)⟩
          · rw [if_neg e]
            exact hb.rnodup s }
    · exact { Grow.refl st with
        rkeys := key
        rres := fun s hs => Or.inl (by
          have hs : provs (st.run.set t (provs st.run t ++ [fn])) s = [] := hs
          rw [provs_set] at hs
          by_cases e : t = s
          · rw [if_pos e] at hs
            exact absurd hs (List.append_ne_nil_of_right_ne_nil _ (List.cons_ne_nil _ _))
          · rw [if_neg e] at hs
            exact hs) }
    · show fn ∈ provs (st.run.set t (provs st.run t ++ [fn])) t
      rw [provs_set, if_pos rfl]
      exact List.mem_append_right _ List.mem_cons_self

theorem useBuild_spec {D : Data} {halt : Bool} {fail : TD → Str → Out} (hf : FailSpec D halt fail) {st st' : TD} {fn t : Str}
    (ho : Ok D st) (hc : fn ∈ D.choose t) (hi : D.ignored t = false) (h : useBuild D fail t st fn = .ok st') :
    Ok D st' ∧ Grow st st' ∧ (fn ∉ st.failedFns → provs st'.build t = [] → t ∈ st'.failedDeps) := by
  unfold useBuild at h
  by_cases hn : fn ∈ st.failedFns
  · rw [if_pos hn] at h
    injection h with h
    subst h
    exact ⟨ho, Grow.refl _, fun h => absurd hn h⟩
  · rw [if_neg hn] at h
    obtain ⟨b1, b2, b3, b4, b5, b6, b7⟩ := addBuildTarget_spec ho hn hc hi
    obtain ⟨c1, c2⟩ := addTasks_spec hf b1 b2 (b6 ▸ hn) h (b5 ▸ b3)
    refine ⟨c1, b4.trans c2, fun _ he => (c2.bres t he).resolve_left fun h => ?_⟩
    rw [h] at b7
    cases b7

theorem useRun_spec {D : Data} {halt : Bool} {fail : TD → Str → Out} (hf : FailSpec D halt fail) {st st' : TD} {fn t : Str}
    (ho : Ok D st) (hc : ∃ l, D.rchoose t = some l ∧ fn ∈ l) (hi : D.ignored t = false) (h : useRun D fail t st fn = .ok st') :
    Ok D st' ∧ Grow st st' ∧ (fn ∉ st.failedFns → provs st'.run t = [] → t ∈ st'.failedRdeps) := by
  unfold useRun at h
  by_cases hn : fn ∈ st.failedFns
  · rw [if_pos hn] at h
    injection h with h
    subst h
    exact ⟨ho, Grow.refl _, fun h => absurd hn h⟩
  · rw [if_neg hn] at h
    obtain ⟨b1, b2, b3, b4, b5, b6, b7⟩ := addRunTarget_spec ho hn hc hi
    obtain ⟨c1, c2⟩ := addTasks_spec hf b1 b2 (b6 ▸ hn) h (b5 ▸ b3)
    refine ⟨c1, b4.trans c2, fun _ he => (c2.rres t he).resolve_left fun h => ?_⟩
    rw [h] at b7
    cases b7

theorem each_useBuild {D : Data} {halt : Bool} {fail : TD → Str → Out} (hf : FailSpec D halt fail) {t : Str}
    (hi : D.ignored t = false) {l : List Str} {st st' : TD} (hl : ∀ fn, fn ∈ l → fn ∈ D.choose t) (ho : Ok D st)
    (h : each (useBuild D fail t) l st = .ok st') : Ok D st' ∧ Grow st st' := by
  refine each_inv (P := fun s => Ok D s ∧ Grow st s) (fun s a s' ha hp hs => ?_) ⟨ho, Grow.refl _⟩ h
  obtain ⟨h1, h2, _⟩ := useBuild_spec hf hp.1 (hl a ha) hi hs
  exact ⟨h1, hp.2.trans h2⟩

theorem each_useRun {D : Data} {halt : Bool} {fail : TD → Str → Out} (hf : FailSpec D halt fail) {t : Str}
    (hi : D.ignored t = false) {l l' : List Str} {st st' : TD} (hc : D.rchoose t = some l') (hl : ∀ fn, fn ∈ l → fn ∈ l') (ho : Ok D st)
    (h : each (useRun D fail t) l st = .ok st') : Ok D st' ∧ Grow st st' := by
  refine each_inv (P := fun s => Ok D s ∧ Grow st s) (fun s a s' ha hp hs => ?_) ⟨ho, Grow.refl _⟩ h
  obtain ⟨h1, h2, _⟩ := useRun_spec hf hp.1 ⟨l', hc, hl a ha⟩ hi hs
  exact ⟨h1, hp.2.trans h2⟩

/-- After a name was added it is ignored, it has providers, or it has failed. -/
theorem addProvider_spec {D : Data} {halt : Bool} {fail : TD → Str → Out} (hf : FailSpec D halt fail) {st st' : TD} {t : Str}
    (ho : Ok D st) (h : addProvider D fail st t = .ok st') :
    Ok D st' ∧ Grow st st' ∧ (D.ignored t = true ∨ (provs st'.build t = [] → t ∈ st'.failedDeps)) := by
  unfold addProvider at h
  by_cases hi : D.ignored t = true
  · rw [if_pos hi] at h
    injection h with h
    subst h
    exact ⟨ho, Grow.refl _, Or.inl hi⟩
  rw [if_neg hi] at h
  by_cases hp : provs st.build t ≠ []
  · rw [if_pos hp] at h
    injection h with h
    subst h
    exact ⟨ho, Grow.refl _, Or.inr fun h => absurd h hp⟩
  rw [if_neg hp] at h
  have hi' : D.ignored t = false := by simpa using hi
  have hl : ∀ fn, fn ∈ (D.choose t).filter (fun fn => fn ∉ st.failedFns) → fn ∈ D.choose t ∧ fn ∉ st.failedFns := fun fn hfn => by
    have := List.mem_filter.1 hfn
    exact ⟨this.1, by simpa using this.2⟩
  generalize (D.choose t).filter (fun fn => fn ∉ st.failedFns) = l at h hl
  cases l with
  | nil => rw [if_pos rfl] at h; cases h
  | cons a l =>
    rw [if_neg (List.cons_ne_nil _ _)] at h
    obtain ⟨s, h1, h2⟩ := bind_ok h
    obtain ⟨a1, a2, a3⟩ := useBuild_spec hf ho (hl a List.mem_cons_self).1 hi' h1
    obtain ⟨c1, c2⟩ := each_useBuild hf hi' (fun fn hfn => (hl fn (List.mem_cons_of_mem _ hfn)).1) a1 h2
    refine ⟨c1, a2.trans c2, Or.inr fun he => ?_⟩
    rcases c2.bres t he with h | h
    · exact c2.deps t (a3 (hl a List.mem_cons_self).2 h)
    · exact h

theorem addRprovider_spec {D : Data} {halt : Bool} {fail : TD → Str → Out} (hf : FailSpec D halt fail) {st st' : TD} {t : Str}
    (ho : Ok D st) (h : addRprovider D fail st t = .ok st') :
    Ok D st' ∧ Grow st st' ∧ (D.ignored t = true ∨ (provs st'.run t = [] → t ∈ st'.failedRdeps)) := by
  unfold addRprovider at h
  by_cases hi : D.ignored t = true
  · rw [if_pos hi] at h
    injection h with h
    subst h
    exact ⟨ho, Grow.refl _, Or.inl hi⟩
  rw [if_neg hi] at h
  by_cases hp : provs st.run t ≠ []
  · rw [if_pos hp] at h
    injection h with h
    subst h
    exact ⟨ho, Grow.refl _, Or.inr fun h => absurd h hp⟩
  rw [if_neg hp] at h
  have hi' : D.ignored t = false := by simpa using hi
  cases hr : D.rchoose t with
  | none => rw [hr] at h; cases h
  | some m =>
    rw [hr] at h
    dsimp only at h
    have hl : ∀ fn, fn ∈ m.filter (fun fn => fn ∉ st.failedFns) → fn ∈ m ∧ fn ∉ st.failedFns := fun fn hfn => by
      have := List.mem_filter.1 hfn
      exact ⟨this.1, by simpa using this.2⟩
    generalize m.filter (fun fn => fn ∉ st.failedFns) = l at h hl
    cases l with
    | nil => rw [if_pos rfl] at h; cases h
    | cons a l =>
      rw [if_neg (List.cons_ne_nil _ _)] at h
      obtain ⟨s, h1, h2⟩ := bind_ok h
      obtain ⟨a1, a2, a3⟩ := useRun_spec hf ho ⟨m, hr, (hl a List.mem_cons_self).1⟩ hi' h1
      obtain ⟨c1, c2⟩ := each_useRun hf hi' hr (fun fn hfn => (hl fn (List.mem_cons_of_mem _ hfn)).1) a1 h2
      refine ⟨c1, a2.trans c2, Or.inr fun he => ?_⟩
      rcases c2.rres t he with h | h
      · exact c2.rdeps t (a3 (hl a List.mem_cons_self).2 h)
      · exact h

/-! ## Without halt nothing is raised but by the name itself -/

def NoRaise (o : Out) : Prop := ∀ b st, o ≠ .raised b st

theorem bind_noRaise {o : Out} {f : TD → Out} (h : NoRaise o) (hf : ∀ s, NoRaise (f s)) : NoRaise (o.bind f) := by
  cases o with
  | ok s => exact hf s
  | raised b s => exact absurd rfl (h b s)
  | stop => intro b st h; cases h

theorem each_noRaise {f : TD → Str → Out} (hf : ∀ s a, NoRaise (f s a)) : ∀ (l : List Str) (st : TD), NoRaise (each f l st)
  | [], _ => nofun
  | a :: l, st => bind_noRaise (hf st a) (each_noRaise hf l)

theorem removeBuild_noRaise {D : Data} {fail : TD → Str → Out} (hf : ∀ s a, NoRaise (fail s a)) (st : TD) (t : Str) :
    NoRaise (removeBuild D false fail st t) := by
  refine bind_noRaise (each_noRaise hf _ _) fun s => bind_noRaise (each_noRaise hf _ _) fun s' => ?_
  rw [if_neg (fun h : false = true ∧ t ∈ s'.external => nomatch h.1)]
  exact nofun

theorem removeRun_noRaise {D : Data} {fail : TD → Str → Out} (hf : ∀ s a, NoRaise (fail s a)) (st : TD) (t : Str) :
    NoRaise (removeRun D fail st t) :=
  bind_noRaise (each_noRaise hf _ _) fun _ => each_noRaise hf _ _

theorem fail_noRaise (D : Data) : ∀ (n : Nat) (st : TD) (fn : Str), NoRaise (failFn D false n st fn)
  | 0, _, _ => nofun
  | n + 1, st, fn => by
    unfold failFn
    by_cases h : fn ∈ st.failedFns
    · rw [if_pos h]; exact nofun
    · rw [if_neg h]
      refine bind_noRaise (each_noRaise (fun s a => ?_) _ _) fun s => each_noRaise (fun s a => ?_) _ _
      · unfold cleanBuild
        by_cases h1 : fn ∈ provs s.build a
        · rw [if_pos h1]
          by_cases h2 : (provs s.build a).erase fn = []
          · rw [if_pos h2]; exact removeBuild_noRaise (fail_noRaise D n) _ _
          · rw [if_neg h2]; exact nofun
        · rw [if_neg h1]; exact nofun
      · unfold cleanRun
        by_cases h1 : fn ∈ provs s.run a
        · rw [if_pos h1]
          by_cases h2 : (provs s.run a).erase fn = []
          · rw [if_pos h2]; exact removeRun_noRaise (fail_noRaise D n) _ _
          · rw [if_neg h2]; exact nofun
        · rw [if_neg h1]; exact nofun

theorem addTasks_noRaise {D : Data} {fail : TD → Str → Out} (hf : ∀ s a, NoRaise (fail s a)) (st : TD) (fn : Str) :
    NoRaise (addTasks D fail st fn) := by
  by_cases h1 : fn ∈ st.failedFns
  · unfold addTasks; rw [if_pos h1]; exact nofun
  by_cases h2 : fn ∈ st.seen
  · unfold addTasks; rw [if_neg h1, if_pos h2]; exact nofun
  rcases addTasks_cases (D := D) (fail := fail) h1 h2 with ⟨s, _, _, e⟩ | ⟨s, _, _, _, e⟩
  · rw [e]; exact hf _ _
  · rw [e]; exact nofun

theorem useBuild_noRaise {D : Data} {fail : TD → Str → Out} (hf : ∀ s a, NoRaise (fail s a)) (t : Str) (st : TD) (fn : Str) :
    NoRaise (useBuild D fail t st fn) := by
  unfold useBuild
  by_cases h : fn ∈ st.failedFns
  · rw [if_pos h]; exact nofun
  · rw [if_neg h]; exact addTasks_noRaise hf _ _

theorem useRun_noRaise {D : Data} {fail : TD → Str → Out} (hf : ∀ s a, NoRaise (fail s a)) (t : Str) (st : TD) (fn : Str) :
    NoRaise (useRun D fail t st fn) := by
  unfold useRun
  by_cases h : fn ∈ st.failedFns
  · rw [if_pos h]; exact nofun
  · rw [if_neg h]; exact addTasks_noRaise hf _ _

theorem addProvider_raised {D : Data} {fail : TD → Str → Out} (hf : ∀ s a, NoRaise (fail s a)) {st st' : TD} {t : Str} {b : Bool}
    (h : addProvider D fail st t = .raised b st') : st' = st ∧ D.ignored t = false ∧ ∀ fn, fn ∈ D.choose t → fn ∈ st.failedFns := by
  unfold addProvider at h
  by_cases hi : D.ignored t = true
  · rw [if_pos hi] at h; cases h
  rw [if_neg hi] at h
  by_cases hp : provs st.build t ≠ []
  · rw [if_pos hp] at h; cases h
  rw [if_neg hp] at h
  by_cases he : (D.choose t).filter (fun fn => fn ∉ st.failedFns) = []
  · rw [if_pos he] at h
    injection h with _ h
    refine ⟨h.symm, by simpa using hi, fun fn hfn => ?_⟩
    by_cases hm : fn ∈ st.failedFns
    · exact hm
    · have : fn ∈ (D.choose t).filter (fun fn => fn ∉ st.failedFns) := List.mem_filter.2 ⟨hfn, by simpa using hm⟩
      rw [he] at this
      cases this
  · rw [if_neg he] at h
    exact absurd h (each_noRaise (useBuild_noRaise hf t) _ _ _ _)

theorem addRprovider_raised {D : Data} {fail : TD → Str → Out} (hf : ∀ s a, NoRaise (fail s a)) {st st' : TD} {t : Str} {b : Bool}
    (h : addRprovider D fail st t = .raised b st') :
    st' = st ∧ D.ignored t = false ∧ b = true ∧ ∀ l fn, D.rchoose t = some l → fn ∈ l → fn ∈ st.failedFns := by
  unfold addRprovider at h
  by_cases hi : D.ignored t = true
  · rw [if_pos hi] at h; cases h
  rw [if_neg hi] at h
  by_cases hp : provs st.run t ≠ []
  · rw [if_pos hp] at h; cases h
  rw [if_neg hp] at h
  cases hr : D.rchoose t with
  | none =>
    rw [hr] at h
    injection h with h1 h2
    exact ⟨h2.symm, by simpa using hi, h1.symm, nofun⟩
  | some m =>
    rw [hr] at h
    dsimp only at h
    by_cases he : m.filter (fun fn => fn ∉ st.failedFns) = []
    · rw [if_pos he] at h
      injection h with h1 h
      refine ⟨h.symm, by simpa using hi, h1.symm, fun l fn hl hfn => ?_⟩
      injection hl with hl
      subst hl
      by_cases hm : fn ∈ st.failedFns
      · exact hm
      · have : fn ∈ m.filter (fun fn => fn ∉ st.failedFns) := List.mem_filter.2 ⟨hfn, by simpa using hm⟩
        rw [he] at this
        cases this
    · rw [if_neg he] at h
      exact absurd h (each_noRaise (useRun_noRaise hf t) _ _ _ _)

end Bb.Resolve
