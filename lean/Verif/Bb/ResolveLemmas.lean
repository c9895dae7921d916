import Verif.Bb.ResolveModel
/-!
# Lemmas about resolving dependencies
-/

namespace Bb.Resolve
open Py

theorem bind_ok {o : Out} {f : TD → Out} {st : TD} (h : o.bind f = .ok st) : ∃ s, o = .ok s ∧ f s = .ok st := by
  cases o with
  | ok s => exact ⟨s, rfl, h⟩
  | raised b s => cases h
  | stop => cases h

theorem each_inv {P : TD → Prop} {f : TD → Str → Out} : ∀ {l : List Str} {st st' : TD},
    (∀ s a s', a ∈ l → P s → f s a = .ok s' → P s') → P st → each f l st = .ok st' → P st'
  | [], st, st', _, hp, h => by cases h; exact hp
  | a :: l, st, st', hf, hp, h => by
    obtain ⟨s, h1, h2⟩ := bind_ok h
    exact each_inv (fun s a s' ha => hf s a s' (List.mem_cons_of_mem _ ha)) (hf _ a _ List.mem_cons_self hp h1) h2

/-- What each turn achieves, and later turns keep. -/
theorem each_done {P : TD → Prop} {Q : Str → TD → Prop} {f : TD → Str → Out} : ∀ {l : List Str} {st st' : TD},
    (∀ s a s', a ∈ l → P s → f s a = .ok s' → P s' ∧ Q a s' ∧ ∀ b, Q b s → Q b s') → P st → each f l st = .ok st' →
    P st' ∧ (∀ a, a ∈ l → Q a st') ∧ ∀ b, Q b st → Q b st'
  | [], st, st', _, hp, h => by cases h; exact ⟨hp, nofun, fun _ h => h⟩
  | a :: l, st, st', hf, hp, h => by
    obtain ⟨s, h1, h2⟩ := bind_ok h
    obtain ⟨p1, q1, k1⟩ := hf _ a _ List.mem_cons_self hp h1
    obtain ⟨p2, q2, k2⟩ := each_done (fun s a s' ha => hf s a s' (List.mem_cons_of_mem _ ha)) p1 h2
    refine ⟨p2, fun b hb => ?_, fun b hb => k2 b (k1 b hb)⟩
    rcases List.mem_cons.1 hb with rfl | hb
    · exact k2 b q1
    · exact q2 b hb

/-! ## What failing changes -/

/-- `halt`: nobody asked for what failed. -/
structure Ext (halt : Bool) (a b : TD) : Prop where
  seen : b.seen = a.seen
  external : b.external = a.external
  added : b.added = a.added
  fns : ∀ x, x ∈ a.failedFns → x ∈ b.failedFns
  deps : ∀ x, x ∈ a.failedDeps → x ∈ b.failedDeps
  rdeps : ∀ x, x ∈ a.failedRdeps → x ∈ b.failedRdeps
  bkeys : ∀ t, (b.build.lookup t).isSome = (a.build.lookup t).isSome
  rkeys : ∀ t, (b.run.lookup t).isSome = (a.run.lookup t).isSome
  bsub : ∀ t, (provs b.build t).Sublist (provs a.build t)
  rsub : ∀ t, (provs b.run t).Sublist (provs a.run t)
  bempty : ∀ t, provs b.build t = [] → provs a.build t = [] ∨ t ∈ b.failedDeps
  rempty : ∀ t, provs b.run t = [] → provs a.run t = [] ∨ t ∈ b.failedRdeps
  asked : halt = true → ∀ t, t ∈ b.failedDeps → t ∈ a.failedDeps ∨ t ∉ a.external

theorem Ext.refl {halt : Bool} (a : TD) : Ext halt a a :=
  ⟨rfl, rfl, rfl, fun _ h => h, fun _ h => h, fun _ h => h, fun _ => rfl, fun _ => rfl, fun _ => List.Sublist.refl _,
    fun _ => List.Sublist.refl _, fun _ h => Or.inl h, fun _ h => Or.inl h,
    fun _ _ h => Or.inl h⟩

theorem Ext.trans {halt : Bool} {a b c : TD} (h1 : Ext halt a b) (h2 : Ext halt b c) : Ext halt a c where
  seen := h2.seen.trans h1.seen
  external := h2.external.trans h1.external
  added := h2.added.trans h1.added
  fns x h := h2.fns x (h1.fns x h)
  deps x h := h2.deps x (h1.deps x h)
  rdeps x h := h2.rdeps x (h1.rdeps x h)
  bkeys t := (h2.bkeys t).trans (h1.bkeys t)
  rkeys t := (h2.rkeys t).trans (h1.rkeys t)
  bsub t := (h2.bsub t).trans (h1.bsub t)
  rsub t := (h2.rsub t).trans (h1.rsub t)
  bempty t h := (h2.bempty t h).elim (fun h => (h1.bempty t h).imp id (h2.deps t)) Or.inr
  rempty t h := (h2.rempty t h).elim (fun h => (h1.rempty t h).imp id (h2.rdeps t)) Or.inr
  asked hh t h := (h2.asked hh t h).elim (h1.asked hh t) fun h => Or.inr (h1.external ▸ h)

/-! ## The invariant

`P` and `R` are the dependencies that have failed and whose recipes are still to fail; `F` are the files that have
failed and are still to be removed. -/

structure Inv (D : Data) (P R : Str → Str → Prop) (F : Str → Prop) (st : TD) : Prop where
  dep : ∀ fn, fn ∈ st.seen → fn ∉ st.failedFns → ∀ d, d ∈ D.deps fn ∨ d ∈ D.ideps fn →
    d ∈ st.failedDeps → P fn d
  rdep : ∀ fn, fn ∈ st.seen → fn ∉ st.failedFns → ∀ d, d ∈ D.rdeps fn ∨ d ∈ D.irdeps fn →
    d ∈ st.failedRdeps → R fn d
  bprov : ∀ t x, x ∈ provs st.build t → x ∈ st.failedFns → F x
  rprov : ∀ t x, x ∈ provs st.run t → x ∈ st.failedFns → F x
  bnodup : ∀ t, (provs st.build t).Nodup
  rnodup : ∀ t, (provs st.run t).Nodup

theorem provs_set (d : Dict (List Str)) (t : Str) (v : List Str) (s : Str) :
    provs (d.set t v) s = if t = s then v else provs d s := by
  unfold provs
  rw [Dict.lookup_set]
  by_cases h : t = s
  · rw [if_pos h, if_pos h.symm]; rfl
  · rw [if_neg h, if_neg (Ne.symm h)]

theorem isSome_set {d : Dict (List Str)} {t : Str} {v : List Str} (h : (d.lookup t).isSome = true) (s : Str) :
    ((d.set t v).lookup s).isSome = (d.lookup s).isSome := by
  rw [Dict.lookup_set]
  by_cases e : t = s
  · subst e; rw [if_pos rfl, h]; rfl
  · rw [if_neg (Ne.symm e)]

theorem provs_mem_isSome {d : Dict (List Str)} {t x : Str} (h : x ∈ provs d t) : (d.lookup t).isSome = true := by
  unfold provs at h
  cases hl : d.lookup t with
  | none => rw [hl] at h; cases h
  | some l => rfl

section
variable {D : Data} {halt : Bool} {n : Nat}

/-- What `fail_fn` does. -/
def FailSpec (D : Data) (halt : Bool) (fail : TD → Str → Out) : Prop := ∀ P R F st fn st', Inv D P R F st → fail st fn = .ok st' →
  Inv D P R F st' ∧ fn ∈ st'.failedFns ∧ Ext halt st st'

theorem each_fail {fail : TD → Str → Out} (hf : FailSpec D halt fail) {P R : Str → Str → Prop} {F : Str → Prop} {l : List Str}
    {st st' : TD} (hi : Inv D P R F st) (h : each fail l st = .ok st') :
    Inv D P R F st' ∧ Ext halt st st' ∧ ∀ a, a ∈ l → a ∈ st'.failedFns := by
  have := each_done (P := fun s => Inv D P R F s ∧ Ext halt st s) (Q := fun a s => a ∈ s.failedFns) (f := fail) (l := l)
    (fun s a s' _ hp hs => by
      obtain ⟨h1, h2, h3⟩ := hf P R F s a s' hp.1 hs
      exact ⟨⟨h1, hp.2.trans h3⟩, h2, fun b hb => h3.fns b hb⟩) ⟨hi, Ext.refl st⟩ h
  exact ⟨this.1.1, this.1.2, this.2.1⟩

theorem removeBuild_spec {fail : TD → Str → Out} (hf : FailSpec D halt fail) {P R : Str → Str → Prop} {F : Str → Prop} {t : Str}
    {st st' : TD} (hi : Inv D P R F st) (h : removeBuild D halt fail st t = .ok st') :
    Inv D P R F st' ∧ Ext halt { st with failedDeps := st.failedDeps ++ [t] } st' ∧ (halt = true → t ∉ st.external) := by
  obtain ⟨s1, h1, h⟩ := bind_ok h
  obtain ⟨s2, h2, h⟩ := bind_ok h
  have e : s2 = st' ∧ (halt = true → t ∉ s2.external) := by
    split at h
    · cases h
    · rename_i hc
      injection h with h
      exact ⟨h, fun h1 h2 => hc ⟨h1, h2⟩⟩
  obtain ⟨e, hx⟩ := e
  subst e
  have hi0 : Inv D (fun g d => P g d ∨ d = t) R F { st with failedDeps := st.failedDeps ++ [t] } :=
    { dep := fun fn hs hn d hd hfd => by
        rcases List.mem_append.1 hfd with hfd | hfd
        · exact Or.inl (hi.dep fn hs hn d hd hfd)
        · exact Or.inr (List.mem_singleton.1 hfd)
      rdep := hi.rdep, bprov := hi.bprov, rprov := hi.rprov, bnodup := hi.bnodup, rnodup := hi.rnodup }
  obtain ⟨i1, x1, a1⟩ := each_fail hf hi0 h1
  obtain ⟨i2, x2, a2⟩ := each_fail hf i1 h2
  refine ⟨{ i2 with dep := fun fn hs hn d hd hfd => ?_ }, x1.trans x2, fun hh => (x1.trans x2).external ▸ hx hh⟩
  rcases i2.dep fn hs hn d hd hfd with h | rfl
  · exact h
  · rw [x2.seen] at hs
    rcases hd with hd | hd
    · refine absurd (x2.fns fn (a1 fn (List.mem_filter.2 ⟨x1.seen ▸ hs, ?_⟩))) hn
      simpa using hd
    · refine absurd (a2 fn (List.mem_filter.2 ⟨hs, ?_⟩)) hn
      simpa using hd

theorem removeRun_spec {fail : TD → Str → Out} (hf : FailSpec D halt fail) {P R : Str → Str → Prop} {F : Str → Prop} {t : Str}
    {st st' : TD} (hi : Inv D P R F st) (h : removeRun D fail st t = .ok st') :
    Inv D P R F st' ∧ Ext halt { st with failedRdeps := st.failedRdeps ++ [t] } st' := by
  obtain ⟨s1, h1, h2⟩ := bind_ok h
  have hi0 : Inv D P (fun g d => R g d ∨ d = t) F { st with failedRdeps := st.failedRdeps ++ [t] } :=
    { rdep := fun fn hs hn d hd hfd => by
        rcases List.mem_append.1 hfd with hfd | hfd
        · exact Or.inl (hi.rdep fn hs hn d hd hfd)
        · exact Or.inr (List.mem_singleton.1 hfd)
      dep := hi.dep, bprov := hi.bprov, rprov := hi.rprov, bnodup := hi.bnodup, rnodup := hi.rnodup }
  obtain ⟨i1, x1, a1⟩ := each_fail hf hi0 h1
  obtain ⟨i2, x2, a2⟩ := each_fail hf i1 h2
  refine ⟨{ i2 with rdep := fun fn hs hn d hd hfd => ?_ }, x1.trans x2⟩
  rcases i2.rdep fn hs hn d hd hfd with h | rfl
  · exact h
  · rw [x2.seen] at hs
    rcases hd with hd | hd
    · refine absurd (x2.fns fn (a1 fn (List.mem_filter.2 ⟨x1.seen ▸ hs, ?_⟩))) hn
      simpa using hd
    · refine absurd (a2 fn (List.mem_filter.2 ⟨hs, ?_⟩)) hn
      simpa using hd

/-- Taking a file from the providers of a name. -/
theorem cleanBuild_spec {fail : TD → Str → Out} (hf : FailSpec D halt fail) {P R : Str → Str → Prop} {F : Str → Prop} {fn t : Str}
    {st st' : TD} (hi : Inv D P R F st) (h : cleanBuild (removeBuild D halt fail) fn st t = .ok st') :
    Inv D P R F st' ∧ Ext halt st st' ∧ fn ∉ provs st'.build t := by
  unfold cleanBuild at h
  by_cases hm : fn ∈ provs st.build t
  · rw [if_pos hm] at h
    have hk := provs_mem_isSome hm
    have sub : ∀ s, (provs (st.build.set t ((provs st.build t).erase fn)) s).Sublist (provs st.build s) := by
      intro s
      rw [provs_set]
      by_cases e : t = s
      · subst e; rw [if_pos rfl]; exact List.erase_sublist
      · rw [if_neg e]; exact List.Sublist.refl _
    have inv : Inv D P R F { st with build := st.build.set t ((provs st.build t).erase fn) } :=
      { dep := hi.dep, rdep := hi.rdep, rprov := hi.rprov, rnodup := hi.rnodup
        bprov := fun s x hx hfx => hi.bprov s x ((sub s).subset hx) hfx
        bnodup := fun s => (hi.bnodup s).sublist (sub s) }
    have gone : fn ∉ provs (st.build.set t ((provs st.build t).erase fn)) t := by
      rw [provs_set, if_pos rfl]
      exact fun hx => ((hi.bnodup t).mem_erase_iff.1 hx).1 rfl
    by_cases he : (provs st.build t).erase fn = []
    · rw [if_pos he, ← he] at h
      obtain ⟨i1, x1, y1⟩ := removeBuild_spec hf inv h
      refine ⟨i1, ?_, fun hx => gone ((x1.bsub t).subset hx)⟩
      refine {
        seen := x1.seen, external := x1.external, added := x1.added, fns := x1.fns, rdeps := x1.rdeps, rkeys := x1.rkeys
        rsub := x1.rsub, rempty := x1.rempty
        deps := fun x hx => x1.deps x (List.mem_append_left _ hx)
        bkeys := fun s => (x1.bkeys s).trans (isSome_set hk s)
        bsub := fun s => (x1.bsub s).trans (sub s)
        bempty := fun s hs => ?_
        asked := fun hh s hs => by
          rcases x1.asked hh s hs with hs | hs
          · rcases List.mem_append.1 hs with hs | hs
            · exact Or.inl hs
            · rw [List.mem_singleton.1 hs]
              exact Or.inr (y1 hh)
          · exact Or.inr hs }
      rcases x1.bempty s hs with hs | hs
      · by_cases e : t = s
        · subst e
          exact Or.inr (x1.deps t (List.mem_append_right _ List.mem_cons_self))
        · refine Or.inl ?_
          have hs : provs (st.build.set t ((provs st.build t).erase fn)) s = [] := hs
          rw [provs_set, if_neg e] at hs
          exact hs
      · exact Or.inr hs
    · rw [if_neg he] at h
      injection h with h
      subst h
      refine ⟨inv, ?_, gone⟩
      refine { Ext.refl st with
        bkeys := fun s => isSome_set hk s
        bsub := sub
        bempty := fun s hs => Or.inl ?_ }
      have hs : provs (st.build.set t ((provs st.build t).erase fn)) s = [] := hs
      rw [provs_set] at hs
      by_cases e : t = s
      · rw [if_pos e] at hs; exact absurd hs he
      · rw [if_neg e] at hs; exact hs
  · rw [if_neg hm] at h
    injection h with h
    subst h
    exact ⟨hi, Ext.refl _, hm⟩

theorem cleanRun_spec {fail : TD → Str → Out} (hf : FailSpec D halt fail) {P R : Str → Str → Prop} {F : Str → Prop} {fn t : Str}
    {st st' : TD} (hi : Inv D P R F st) (h : cleanRun (removeRun D fail) fn st t = .ok st') :
    Inv D P R F st' ∧ Ext halt st st' ∧ fn ∉ provs st'.run t := by
  unfold cleanRun at h
  by_cases hm : fn ∈ provs st.run t
  · rw [if_pos hm] at h
    have hk := provs_mem_isSome hm
    have sub : ∀ s, (provs (st.run.set t ((provs st.run t).erase fn)) s).Sublist (provs st.run s) := by
      intro s
      rw [provs_set]
      by_cases e : t = s
      · subst e; rw [if_pos rfl]; exact List.erase_sublist
      · rw [if_neg e]; exact List.Sublist.refl _
    have inv : Inv D P R F { st with run := st.run.set t ((provs st.run t).erase fn) } :=
      { dep := hi.dep, rdep := hi.rdep, bprov := hi.bprov, bnodup := hi.bnodup
        rprov := fun s x hx hfx => hi.rprov s x ((sub s).subset hx) hfx
        rnodup := fun s => (hi.rnodup s).sublist (sub s) }
    have gone : fn ∉ provs (st.run.set t ((provs st.run t).erase fn)) t := by
      rw [provs_set, if_pos rfl]
      exact fun hx => ((hi.rnodup t).mem_erase_iff.1 hx).1 rfl
    by_cases he : (provs st.run t).erase fn = []
    · rw [if_pos he, ← he] at h
      obtain ⟨i1, x1⟩ := removeRun_spec hf inv h
      refine ⟨i1, ?_, fun hx => gone ((x1.rsub t).subset hx)⟩
      refine {
        seen := x1.seen, external := x1.external, added := x1.added, fns := x1.fns, deps := x1.deps, bkeys := x1.bkeys
        bsub := x1.bsub, bempty := x1.bempty
        rdeps := fun x hx => x1.rdeps x (List.mem_append_left _ hx)
        rkeys := fun s => (x1.rkeys s).trans (isSome_set hk s)
        rsub := fun s => (x1.rsub s).trans (sub s)
        rempty := fun s hs => ?_
        asked := x1.asked }
      rcases x1.rempty s hs with hs | hs
      · by_cases e : t = s
        · subst e
          exact Or.inr (x1.rdeps t (List.mem_append_right _ List.mem_cons_self))
        · refine Or.inl ?_
          have hs : provs (st.run.set t ((provs st.run t).erase fn)) s = [] := hs
          rw [provs_set, if_neg e] at hs
          exact hs
      · exact Or.inr hs
    · rw [if_neg he] at h
      injection h with h
      subst h
      refine ⟨inv, ?_, gone⟩
      refine { Ext.refl st with
        rkeys := fun s => isSome_set hk s
        rsub := sub
        rempty := fun s hs => Or.inl ?_ }
      have hs : provs (st.run.set t ((provs st.run t).erase fn)) s = [] := hs
      rw [provs_set] at hs
      by_cases e : t = s
      · rw [if_pos e] at hs; exact absurd hs he
      · rw [if_neg e] at hs; exact hs
  · rw [if_neg hm] at h
    injection h with h
    subst h
    exact ⟨hi, Ext.refl _, hm⟩

theorem mem_keys {d : Dict (List Str)} {t x : Str} (h : x ∈ provs d t) : t ∈ d.map (·.1) := by
  induction d with
  | nil => cases h
  | cons e d ih =>
    obtain ⟨k, v⟩ := e
    by_cases hk : t = k
    · subst hk; exact List.mem_cons_self
    · refine List.mem_cons_of_mem _ (ih ?_)
      unfold provs at h ⊢
      rw [List.lookup_cons, show (t == k) = false from by simpa using hk] at h
      exact h

theorem fail_spec (D : Data) (halt : Bool) : ∀ n, FailSpec D halt (failFn D halt n)
  | 0 => fun P R F st fn st' _ h => by cases h
  | n + 1 => fun P R F st fn st' hi h => by
    unfold failFn at h
    by_cases hm : fn ∈ st.failedFns
    · rw [if_pos hm] at h
      injection h with h
      subst h
      exact ⟨hi, hm, Ext.refl _⟩
    · rw [if_neg hm] at h
      obtain ⟨s1, h1, h2⟩ := bind_ok h
      have ih := fail_spec D halt n
      have hi0 : Inv D P R (fun x => F x ∨ x = fn) { st with failedFns := st.failedFns ++ [fn] } :=
        { dep := fun g hs hn => hi.dep g hs fun h => hn (List.mem_append_left _ h)
          rdep := fun g hs hn => hi.rdep g hs fun h => hn (List.mem_append_left _ h)
          bprov := fun t x hx hfx => by
            rcases List.mem_append.1 hfx with hfx | hfx
            · exact Or.inl (hi.bprov t x hx hfx)
            · exact Or.inr (List.mem_singleton.1 hfx)
          rprov := fun t x hx hfx => by
            rcases List.mem_append.1 hfx with hfx | hfx
            · exact Or.inl (hi.rprov t x hx hfx)
            · exact Or.inr (List.mem_singleton.1 hfx)
          bnodup := hi.bnodup, rnodup := hi.rnodup }
      have b := each_done (P := fun s => Inv D P R (fun x => F x ∨ x = fn) s ∧ Ext halt { st with failedFns := st.failedFns ++ [fn] } s)
        (Q := fun t s => fn ∉ provs s.build t)
        (fun s a s' _ hp hs => by
          obtain ⟨i1, x1, g1⟩ := cleanBuild_spec ih hp.1 hs
          exact ⟨⟨i1, hp.2.trans x1⟩, g1, fun b hb hx => hb ((x1.bsub b).subset hx)⟩) ⟨hi0, Ext.refl _⟩ h1
      have r := each_done (P := fun s => Inv D P R (fun x => F x ∨ x = fn) s ∧ Ext halt s1 s)
        (Q := fun t s => fn ∉ provs s.run t)
        (fun s a s' _ hp hs => by
          obtain ⟨i1, x1, g1⟩ := cleanRun_spec ih hp.1 hs
          exact ⟨⟨i1, hp.2.trans x1⟩, g1, fun b hb hx => hb ((x1.rsub b).subset hx)⟩) ⟨b.1.1, Ext.refl _⟩ h2
      obtain ⟨⟨ib, xb⟩, gb, _⟩ := b
      obtain ⟨⟨ir, xr⟩, gr, _⟩ := r
      have x := xb.trans xr
      refine ⟨{ ir with bprov := fun t y hy hfy => ?_, rprov := fun t y hy hfy => ?_ },
        x.fns fn (List.mem_append_right _ List.mem_cons_self), ?_⟩
      · rcases ir.bprov t y hy hfy with h | rfl
        · exact h
        · exact absurd ((xr.bsub t).subset hy) (gb t (mem_keys ((x.bsub t).subset hy)))
      · rcases ir.rprov t y hy hfy with h | rfl
        · exact h
        · exact absurd hy (gr t (mem_keys ((xr.rsub t).subset hy)))
      · exact {
          seen := x.seen, external := x.external, added := x.added, deps := x.deps, rdeps := x.rdeps, bkeys := x.bkeys
          rkeys := x.rkeys, bsub := x.bsub, rsub := x.rsub, bempty := x.bempty, rempty := x.rempty, asked := x.asked
          fns := fun y hy => x.fns y (List.mem_append_left _ hy) }

end

end Bb.Resolve
