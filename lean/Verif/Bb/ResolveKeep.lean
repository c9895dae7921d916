import Verif.Bb.ResolveAdd
import Verif.Bb.ResolveSpec
/-!
# Lemmas about resolving when the build goes on after errors
-/

namespace Bb.Resolve
open Py

theorem lookup_mem {d : Dict (List Str)} {t : Str} {v : List Str} (h : d.lookup t = some v) : (t, v) ∈ d := by
  induction d with
  | nil => cases h
  | cons e d ih =>
    obtain ⟨k, w⟩ := e
    rw [List.lookup_cons] at h
    by_cases hk : t = k
    · subst hk
      rw [beq_self_eq_true] at h
      injection h with h
      rw [h]
      exact List.mem_cons_self
    · rw [show (t == k) = false from by simpa using hk] at h
      exact List.mem_cons_of_mem _ (ih h)

theorem mem_unresolvedBuild {D : Data} {st : TD} {t : Str} (hk : (st.build.lookup t).isSome = true) (hp : provs st.build t = [])
    (hi : D.ignored t = false) (hf : t ∉ st.failedDeps) : t ∈ unresolvedBuild D st := by
  refine List.mem_filter.2 ⟨?_, ?_⟩
  · cases hl : st.build.lookup t with
    | none => rw [hl] at hk; cases hk
    | some v => exact List.mem_map.2 ⟨_, lookup_mem hl, rfl⟩
  · rw [hi, hp]
    simpa using hf

theorem mem_unresolvedRun {D : Data} {st : TD} {t : Str} (hk : (st.run.lookup t).isSome = true) (hp : provs st.run t = [])
    (hi : D.ignored t = false) (hf : t ∉ st.failedRdeps) : t ∈ unresolvedRun D st := by
  refine List.mem_filter.2 ⟨?_, ?_⟩
  · cases hl : st.run.lookup t with
    | none => rw [hl] at hk; cases hk
    | some v => exact List.mem_map.2 ⟨_, lookup_mem hl, rfl⟩
  · rw [hi, hp]
    simpa using hf

theorem key_isSome {d : Dict (List Str)} {t : Str} (he : t ∈ d.map (·.1)) : (d.lookup t).isSome = true := by
  induction d with
  | nil => cases he
  | cons c d ih =>
    obtain ⟨k, w⟩ := c
    rw [List.lookup_cons]
    by_cases hk : t = k
    · rw [hk, beq_self_eq_true]; rfl
    · rw [show (t == k) = false from by simpa using hk]
      exact ih ((List.mem_cons.1 (show t ∈ k :: d.map (·.1) from he)).resolve_left hk)

theorem unresolvedBuild_key {D : Data} {st : TD} {t : Str} (h : t ∈ unresolvedBuild D st) : (st.build.lookup t).isSome = true :=
  key_isSome (List.mem_filter.1 h).1

theorem unresolvedRun_key {D : Data} {st : TD} {t : Str} (h : t ∈ unresolvedRun D st) : (st.run.lookup t).isSome = true :=
  key_isSome (List.mem_filter.1 h).1

/-- A name that failed. -/
theorem removeBuild_ok {D : Data} {halt : Bool} {n : Nat} {st st' : TD} {t : Str} (h : Ok D st)
    (e : removeBuild D halt (failFn D halt n) st t = .ok st') : Ok D st' ∧ Grow st st' ∧ t ∈ st'.failedDeps ∧
      (halt = false → Ext halt st st') := by
  obtain ⟨i, x, hx⟩ := removeBuild_spec (fail_spec D halt n) h.base e
  have f0 : Full D (fun _ => False) { st with failedDeps := st.failedDeps ++ [t] } :=
    { h.full with ext := fun s hs => (h.full.ext s hs).imp id fun h => h.imp (fun h => List.mem_append_left _ h) id }
  have g0 : Grow st { st with failedDeps := st.failedDeps ++ [t] } :=
    { Grow.refl st with deps := fun _ h => List.mem_append_left _ h, bres := fun _ h => Or.inl h }
  refine ⟨⟨i, f0.ext_of x⟩, g0.trans x.grow, x.deps t (List.mem_append_right _ List.mem_cons_self), fun hh => ?_⟩
  exact {
    seen := x.seen, external := x.external, added := x.added, fns := x.fns, rdeps := x.rdeps, bkeys := x.bkeys, rkeys := x.rkeys
    bsub := x.bsub, rsub := x.rsub, bempty := x.bempty, rempty := x.rempty
    deps := fun s hs => x.deps s (List.mem_append_left _ hs)
    asked := fun h => by rw [hh] at h; cases h }

theorem removeRun_ok {D : Data} {halt : Bool} {n : Nat} {st st' : TD} {t : Str} (h : Ok D st)
    (e : removeRun D (failFn D halt n) st t = .ok st') : Ok D st' ∧ Grow st st' ∧ t ∈ st'.failedRdeps ∧ Ext halt st st' := by
  obtain ⟨i, x⟩ := removeRun_spec (fail_spec D halt n) h.base e
  have f0 : Full D (fun _ => False) { st with failedRdeps := st.failedRdeps ++ [t] } := { h.full with }
  have g0 : Grow st { st with failedRdeps := st.failedRdeps ++ [t] } :=
    { Grow.refl st with rdeps := fun _ h => List.mem_append_left _ h, rres := fun _ h => Or.inl h }
  refine ⟨⟨i, f0.ext_of x⟩, g0.trans x.grow, x.rdeps t (List.mem_append_right _ List.mem_cons_self), ?_⟩
  exact {
    seen := x.seen, external := x.external, added := x.added, fns := x.fns, deps := x.deps, bkeys := x.bkeys, rkeys := x.rkeys
    bsub := x.bsub, rsub := x.rsub, bempty := x.bempty, rempty := x.rempty, asked := x.asked
    rdeps := fun s hs => x.rdeps s (List.mem_append_left _ hs) }

/-- What stays, apart from the count. -/
def Later (a b : TD) : Prop := Grow { a with added := 0 } { b with added := 0 } ∧ a.added ≤ b.added

theorem Grow.later {a b : TD} (h : Grow a b) : Later a b :=
  ⟨{ h with added := rfl }, by rw [h.added]; exact Nat.le_refl _⟩

theorem Later.trans {a b c : TD} (h1 : Later a b) (h2 : Later b c) : Later a c :=
  ⟨h1.1.trans h2.1, Nat.le_trans h1.2 h2.2⟩

theorem Ok.count {D : Data} {st : TD} (h : Ok D st) (k : Nat) : Ok D { st with added := k } :=
  ⟨{ h.base with }, { h.full with }⟩

/-- A name is settled: ignored, provided, or failed. -/
def SettledB (D : Data) (t : Str) (st : TD) : Prop := D.ignored t = true ∨ provs st.build t ≠ [] ∨ t ∈ st.failedDeps
def SettledR (D : Data) (t : Str) (st : TD) : Prop := D.ignored t = true ∨ provs st.run t ≠ [] ∨ t ∈ st.failedRdeps

theorem Later.settledB {D : Data} {t : Str} {a b : TD} (h : Later a b) (hs : SettledB D t a) : SettledB D t b := by
  rcases hs with hs | hs | hs
  · exact Or.inl hs
  · by_cases hp : provs b.build t = []
    · exact Or.inr (Or.inr ((h.1.bres t hp).resolve_left hs))
    · exact Or.inr (Or.inl hp)
  · exact Or.inr (Or.inr (h.1.deps t hs))

theorem Later.settledR {D : Data} {t : Str} {a b : TD} (h : Later a b) (hs : SettledR D t a) : SettledR D t b := by
  rcases hs with hs | hs | hs
  · exact Or.inl hs
  · by_cases hp : provs b.run t = []
    · exact Or.inr (Or.inr ((h.1.rres t hp).resolve_left hs))
    · exact Or.inr (Or.inl hp)
  · exact Or.inr (Or.inr (h.1.rdeps t hs))

section
variable {D : Data} {n : Nat}

theorem resolveBuild_spec {st st' : TD} {t : Str} (ho : Ok D st) (h : resolveBuild D false n st t = .ok st') :
    Ok D st' ∧ Later st st' ∧ SettledB D t st' ∧
      (st'.added = st.added + 1 ∨ (Ext false st st' ∧ t ∈ st'.failedDeps)) := by
  unfold resolveBuild at h
  cases hp : addProvider D (failFn D false n) st t with
  | ok s =>
    rw [hp] at h
    injection h with h
    subst h
    obtain ⟨h1, h2, h3⟩ := addProvider_spec (fail_spec D false n) ho hp
    have l : Later st { s with added := s.added + 1 } :=
      ⟨{ h2 with added := rfl }, by show st.added ≤ s.added + 1; rw [h2.added]; omega⟩
    refine ⟨h1.count _, l, ?_, Or.inl (by show s.added + 1 = _; rw [h2.added])⟩
    rcases h3 with h3 | h3
    · exact Or.inl h3
    · by_cases he : provs s.build t = []
      · exact Or.inr (Or.inr (h3 he))
      · exact Or.inr (Or.inl he)
  | raised b s =>
    rw [hp] at h
    obtain ⟨rfl, _, _⟩ := addProvider_raised (fail_noRaise D n) hp
    dsimp only at h
    rw [if_neg (fun h : false = true ∧ t ∈ s.external => nomatch h.1)] at h
    obtain ⟨h1, h2, h3, h4⟩ := removeBuild_ok ho h
    exact ⟨h1, h2.later, Or.inr (Or.inr h3), Or.inr ⟨h4 rfl, h3⟩⟩
  | stop => rw [hp] at h; cases h

theorem resolveRun_spec {st st' : TD} {t : Str} (ho : Ok D st) (h : resolveRun D false n st t = .ok st') :
    Ok D st' ∧ Later st st' ∧ SettledR D t st' ∧
      (st'.added = st.added + 1 ∨ (Ext false st st' ∧ t ∈ st'.failedRdeps)) := by
  unfold resolveRun at h
  cases hp : addRprovider D (failFn D false n) st t with
  | ok s =>
    rw [hp] at h
    injection h with h
    subst h
    obtain ⟨h1, h2, h3⟩ := addRprovider_spec (fail_spec D false n) ho hp
    have l : Later st { s with added := s.added + 1 } :=
      ⟨{ h2 with added := rfl }, by show st.added ≤ s.added + 1; rw [h2.added]; omega⟩
    refine ⟨h1.count _, l, ?_, Or.inl (by show s.added + 1 = _; rw [h2.added])⟩
    rcases h3 with h3 | h3
    · exact Or.inl h3
    · by_cases he : provs s.run t = []
      · exact Or.inr (Or.inr (h3 he))
      · exact Or.inr (Or.inl he)
  | raised b s =>
    rw [hp] at h
    obtain ⟨rfl, _, rfl, _⟩ := addRprovider_raised (fail_noRaise D n) hp
    obtain ⟨h1, h2, h3, h4⟩ := removeRun_ok ho h
    exact ⟨h1, h2.later, Or.inr (Or.inr h3), Or.inr ⟨h4, h3⟩⟩
  | stop => rw [hp] at h; cases h

theorem eachBuild_spec : ∀ {l : List Str} {st st' : TD}, Ok D st → each (resolveBuild D false n) l st = .ok st' →
    Ok D st' ∧ Later st st' ∧ (∀ t, t ∈ l → SettledB D t st') ∧
      (st'.added = st.added → Ext false st st' ∧ ∀ t, t ∈ l → t ∈ st'.failedDeps)
  | [], st, st', ho, h => by
    injection h with h
    subst h
    exact ⟨ho, (Grow.refl _).later, nofun, fun _ => ⟨Ext.refl _, nofun⟩⟩
  | a :: l, st, st', ho, h => by
    obtain ⟨s, h1, h2⟩ := bind_ok h
    obtain ⟨a1, a2, a3, a4⟩ := resolveBuild_spec ho h1
    obtain ⟨b1, b2, b3, b4⟩ := eachBuild_spec a1 h2
    refine ⟨b1, a2.trans b2, fun t ht => ?_, fun he => ?_⟩
    · rcases List.mem_cons.1 ht with rfl | ht
      · exact b2.settledB a3
      · exact b3 t ht
    · rcases a4 with a4 | ⟨a4, a5⟩
      · have := b2.2
        omega
      · obtain ⟨c1, c2⟩ := b4 (by rw [he, a4.added])
        refine ⟨a4.trans c1, fun t ht => ?_⟩
        rcases List.mem_cons.1 ht with rfl | ht
        · exact c1.deps t a5
        · exact c2 t ht

theorem eachRun_spec : ∀ {l : List Str} {st st' : TD}, Ok D st → each (resolveRun D false n) l st = .ok st' →
    Ok D st' ∧ Later st st' ∧ (∀ t, t ∈ l → SettledR D t st') ∧
      (st'.added = st.added → Ext false st st' ∧ ∀ t, t ∈ l → t ∈ st'.failedRdeps)
  | [], st, st', ho, h => by
    injection h with h
    subst h
    exact ⟨ho, (Grow.refl _).later, nofun, fun _ => ⟨Ext.refl _, nofun⟩⟩
  | a :: l, st, st', ho, h => by
    obtain ⟨s, h1, h2⟩ := bind_ok h
    obtain ⟨a1, a2, a3, a4⟩ := resolveRun_spec ho h1
    obtain ⟨b1, b2, b3, b4⟩ := eachRun_spec a1 h2
    refine ⟨b1, a2.trans b2, fun t ht => ?_, fun he => ?_⟩
    · rcases List.mem_cons.1 ht with rfl | ht
      · exact b2.settledR a3
      · exact b3 t ht
    · rcases a4 with a4 | ⟨a4, a5⟩
      · have := b2.2
        omega
      · obtain ⟨c1, c2⟩ := b4 (by rw [he, a4.added])
        refine ⟨a4.trans c1, fun t ht => ?_⟩
        rcases List.mem_cons.1 ht with rfl | ht
        · exact c1.rdeps t a5
        · exact c2 t ht

/-- Every name is settled. -/
structure Done (D : Data) (st : TD) : Prop where
  build : ∀ t, (st.build.lookup t).isSome = true → SettledB D t st
  run : ∀ t, (st.run.lookup t).isSome = true → SettledR D t st

theorem pass_spec {st st' : TD} (ho : Ok D st) (h : pass D false n st = .ok st') :
    Ok D st' ∧ Grow { st with added := 0 } { st' with added := 0 } ∧ (st'.added = 0 → Done D st') ∧
      (∀ t, t ∈ unresolvedBuild D st → SettledB D t st') ∧ (∀ t, t ∈ unresolvedRun D st → SettledR D t st') ∧
      (unresolvedBuild D st = [] → unresolvedRun D st = [] → st'.added = 0) := by
  obtain ⟨s, h1, h2⟩ := bind_ok h
  obtain ⟨a1, a2, a3, a4⟩ := eachBuild_spec (ho.count 0) h1
  obtain ⟨b1, b2, b3, b4⟩ := eachRun_spec a1 h2
  have hl := a2.trans b2
  refine ⟨b1, hl.1, fun h0 => ?_, fun t ht => b2.settledB (a3 t ht), fun t ht => ?_, fun hb hr => ?_⟩
  · have e1 : s.added = ({ st with added := 0 } : TD).added := by
      have := b2.2
      show s.added = 0
      omega
    obtain ⟨x1, y1⟩ := a4 e1
    obtain ⟨x2, y2⟩ := b4 (by rw [h0, e1])
    refine ⟨fun t hk => ?_, fun t hk => ?_⟩
    · by_cases hi : D.ignored t = true
      · exact Or.inl hi
      by_cases hp : provs st'.build t = []
      · by_cases hf : t ∈ st'.failedDeps
        · exact Or.inr (Or.inr hf)
        · have hp0 := ((x1.trans x2).bempty t hp).resolve_right hf
          have hk0 := ((x1.trans x2).bkeys t).symm.trans hk
          have hf0 : t ∉ st.failedDeps := fun h => hf ((x1.trans x2).deps t h)
          exact absurd (x2.deps t (y1 t (mem_unresolvedBuild hk0 hp0 (by simpa using hi) hf0))) hf
      · exact Or.inr (Or.inl hp)
    · by_cases hi : D.ignored t = true
      · exact Or.inl hi
      by_cases hp : provs st'.run t = []
      · by_cases hf : t ∈ st'.failedRdeps
        · exact Or.inr (Or.inr hf)
        · have hp0 := (x2.rempty t hp).resolve_right hf
          have hk0 := (x2.rkeys t).symm.trans hk
          have hf0 : t ∉ s.failedRdeps := fun h => hf (x2.rdeps t h)
          exact absurd (y2 t (mem_unresolvedRun hk0 hp0 (by simpa using hi) hf0)) hf
      · exact Or.inr (Or.inl hp)
  · by_cases hs : SettledR D t s
    · exact b2.settledR hs
    · have hi : D.ignored t = false := by
        cases hd : D.ignored t with
        | false => rfl
        | true => exact absurd (Or.inl hd) hs
      have hp : provs s.run t = [] := by
        by_cases hp : provs s.run t = []
        · exact hp
        · exact absurd (Or.inr (Or.inl hp)) hs
      have hk : (s.run.lookup t).isSome = true := a2.1.rkeys t (unresolvedRun_key (st := st) ht)
      exact b3 t (mem_unresolvedRun hk hp hi fun h => hs (Or.inr (Or.inr h)))
  · rw [hb] at h1
    injection h1 with h1
    subst h1
    have hr' : unresolvedRun D { st with added := 0 } = [] := hr
    rw [hr'] at h2
    injection h2 with h2
    rw [← h2]

theorem addUnresolved_spec : ∀ {k : Nat} {st st' : TD}, Ok D st → addUnresolved D false n k st = .ok st' →
    Ok D st' ∧ Grow { st with added := 0 } { st' with added := 0 } ∧ Done D st'
  | 0, _, _, _, h => by cases h
  | k + 1, st, st', ho, h => by
    obtain ⟨s, h1, h2⟩ := bind_ok h
    obtain ⟨a1, a2, a3, _⟩ := pass_spec ho h1
    by_cases h0 : s.added = 0
    · rw [if_pos h0] at h2
      injection h2 with h2
      subst h2
      exact ⟨a1, a2, a3 h0⟩
    · rw [if_neg h0] at h2
      obtain ⟨b1, b2, b3⟩ := addUnresolved_spec a1 h2
      exact ⟨b1, a2.trans b2, b3⟩

theorem provs_isSome {d : Dict (List Str)} {t : Str} (h : provs d t ≠ []) : (d.lookup t).isSome = true := by
  cases hp : provs d t with
  | nil => exact absurd hp h
  | cons a l => exact provs_mem_isSome (x := a) (by rw [hp]; exact List.mem_cons_self)

theorem markExternal_spec {st : TD} {t : Str} (ho : Ok D st)
    (h : D.ignored t = true ∨ t ∈ st.failedDeps ∨ (st.build.lookup t).isSome = true) :
    Ok D (markExternal st t) ∧ (∀ s, s ∈ st.external → s ∈ (markExternal st t).external) ∧ t ∈ (markExternal st t).external := by
  unfold markExternal
  by_cases hm : t ∈ st.external
  · rw [if_pos hm]
    exact ⟨ho, fun _ h => h, hm⟩
  · rw [if_neg hm]
    refine ⟨⟨{ ho.base with }, { ho.full with ext := fun s hs => ?_ }⟩, fun s hs => List.mem_append_left _ hs,
      List.mem_append_right _ List.mem_cons_self⟩
    rcases List.mem_append.1 hs with hs | hs
    · exact ho.full.ext s hs
    · rw [List.mem_singleton.1 hs]
      exact h

theorem addExternal_spec {st st' : TD} {t : Str} (ho : Ok D st) (h : addExternal D false n st t = .ok st') :
    Ok D st' ∧ (∀ s, s ∈ st.external → s ∈ st'.external) ∧ t ∈ st'.external := by
  obtain ⟨s, h1, h2⟩ := bind_ok h
  injection h2 with h2
  subst h2
  unfold addRequested at h1
  cases hp : addProvider D (failFn D false n) st t with
  | ok s1 =>
    rw [hp] at h1
    injection h1 with h1
    subst h1
    obtain ⟨a1, a2, a3⟩ := addProvider_spec (fail_spec D false n) ho hp
    have : D.ignored t = true ∨ t ∈ s1.failedDeps ∨ (s1.build.lookup t).isSome = true := by
      rcases a3 with a3 | a3
      · exact Or.inl a3
      · by_cases he : provs s1.build t = []
        · exact Or.inr (Or.inl (a3 he))
        · exact Or.inr (Or.inr (provs_isSome he))
    obtain ⟨b1, b2, b3⟩ := markExternal_spec a1 this
    exact ⟨b1, fun x hx => b2 x (a2.external ▸ hx), b3⟩
  | raised b s1 =>
    rw [hp] at h1
    obtain ⟨rfl, _, _⟩ := addProvider_raised (fail_noRaise D n) hp
    dsimp only at h1
    rw [if_neg (nofun : ¬ false = true)] at h1
    obtain ⟨a1, a2, a3, _⟩ := removeBuild_ok ho h1
    obtain ⟨b1, b2, b3⟩ := markExternal_spec a1 (Or.inr (Or.inl a3))
    exact ⟨b1, fun x hx => b2 x (a2.external ▸ hx), b3⟩
  | stop => rw [hp] at h1; cases h1

theorem ok_start : Ok D start :=
  ⟨⟨nofun, nofun, nofun, nofun, fun _ => List.nodup_nil, fun _ => List.nodup_nil⟩, ⟨nofun, nofun, nofun, nofun, nofun, nofun, nofun⟩⟩

theorem history_ok {k : Nat} : ∀ {ops : List Op} {st st' : TD}, Ok D st → history D false n k ops st = .ok st' →
    Ok D st' ∧ (∀ s, s ∈ st.external → s ∈ st'.external) ∧ ∀ t, .target t ∈ ops → t ∈ st'.external
  | [], st, st', ho, h => by
    injection h with h
    subst h
    exact ⟨ho, fun _ h => h, nofun⟩
  | o :: ops, st, st', ho, h => by
    obtain ⟨s, h1, h2⟩ := bind_ok h
    have key : Ok D s ∧ (∀ x, x ∈ st.external → x ∈ s.external) ∧ ∀ t, o = .target t → t ∈ s.external := by
      cases o with
      | target t =>
        obtain ⟨a1, a2, a3⟩ := addExternal_spec ho h1
        exact ⟨a1, a2, fun u hu => by injection hu with hu; exact hu ▸ a3⟩
      | unresolved =>
        obtain ⟨a1, a2, _⟩ := addUnresolved_spec ho h1
        exact ⟨a1, fun x hx => by have := a2.external; exact this ▸ hx, nofun⟩
    obtain ⟨b1, b2, b3⟩ := history_ok key.1 h2
    refine ⟨b1, fun x hx => b2 x (key.2.1 x hx), fun t ht => ?_⟩
    rcases List.mem_cons.1 ht with ht | ht
    · exact b2 t (key.2.2 t ht.symm)
    · exact b3 t ht

theorem history_append {halt : Bool} {k : Nat} : ∀ {a b : List Op} {st : TD},
    history D halt n k (a ++ b) st = (history D halt n k a st).bind (history D halt n k b)
  | [], _, _ => rfl
  | o :: a, b, st => by
    show (step D halt n k st o).bind (history D halt n k (a ++ b)) = ((step D halt n k st o).bind (history D halt n k a)).bind _
    cases step D halt n k st o with
    | ok s => exact history_append
    | raised x s => rfl
    | stop => rfl

theorem history_done {k : Nat} {ops : List Op} {st : TD} (h : history D false n k (ops ++ [.unresolved]) start = .ok st) :
    Ok D st ∧ Done D st ∧ ∀ t, .target t ∈ ops → t ∈ st.external := by
  have hok := history_ok ok_start h
  rw [history_append] at h
  obtain ⟨s, h1, h2⟩ := bind_ok h
  obtain ⟨s', h3, h4⟩ := bind_ok h2
  injection h4 with h4
  subst h4
  exact ⟨hok.1, (addUnresolved_spec (history_ok ok_start h1).1 h3).2.2, fun t ht => hok.2.2 t (List.mem_append_left _ ht)⟩

end

end Bb.Resolve
