import Verif.Bb.RqLiveLemmas
/-!
# Lemmas about the execution of tasks: the build does not get stuck
-/

namespace Bb.Rq
open Spec

set_option linter.unusedSectionVars false

variable {T P N : Type} [DecidableEq T] [DecidableEq P] [DecidableEq N]

/-! ### All setscene tasks are decided -/

theorem endpoint_unskip {c : Cfg T P N} (ok : c.Ok) {x : T} (hx : x ∈ c.g.tasks)
    (h : c.g.revdeps x = []) : x ∈ c.sc.unskippable := by
  refine (unskippable_exact ok.graph ok.scene x).2 ⟨x, ⟨hx, Or.inl fun y hy hxy => ?_⟩, Or.inl rfl⟩
  have : y ∈ c.g.revdeps x := mem_revdeps'.2 ⟨hy, hxy⟩
  rw [h] at this; cases this

theorem all_processed {c : Cfg T P N} (ok : c.Live) {s : St T P} (h : SInv c [] s)
    (hd : ∀ a ∈ c.setscene, Decided s a) : ∀ x ∈ c.g.tasks, x ∈ s.done := by
  intro x hx
  refine Classical.byContradiction fun hn => ?_
  refine no_ascent ok.acyclic (U := fun x => x ∈ c.g.tasks ∧ x ∉ s.done) (fun x h => h.1) ?_ x ⟨hx, hn⟩
  rintro x ⟨hx, hn⟩
  have hxS : x ∉ c.setscene := fun hS => (h.doneDec x (hd x hS)).elim hn (by simp)
  by_cases hr : c.g.revdeps x = []
  · exact absurd (h.doneRoot x (endpoint_unskip ok.toOk hx hr) hxS) hn
  · refine Classical.byContradiction fun hh => hn (h.doneCl x hx hxS hr fun r hr' => ?_)
    exact Classical.byContradiction fun hrd => hh ⟨r, hr', (mem_revdeps'.1 hr').1, hrd⟩

/-- Each task is a setscene task, is covered by one, or is needed anyway. -/
theorem owner {c : Cfg T P N} (ok : c.Live) {x : T} (hx : x ∈ c.g.tasks) :
    x ∈ c.setscene ∨ (∃ a ∈ c.setscene, x ∈ c.sc.cov a) ∨ x ∈ c.sc.unskippable := by
  have cl := ok.toOk.closed
  refine Classical.byContradiction fun hn => ?_
  refine no_ascent ok.acyclic (U := fun x => x ∈ c.g.tasks ∧ ¬ (x ∈ c.setscene ∨
    (∃ a ∈ c.setscene, x ∈ c.sc.cov a) ∨ x ∈ c.sc.unskippable)) (fun x h => h.1) ?_ x ⟨hx, hn⟩
  rintro x ⟨hx, hn⟩
  have hxS : x ∉ c.setscene := fun hS => hn (Or.inl hS)
  by_cases hr : c.g.revdeps x = []
  · exact absurd (Or.inr (Or.inr (endpoint_unskip ok.toOk hx hr))) hn
  · obtain ⟨r, hr'⟩ := List.exists_mem_of_ne_nil _ hr
    obtain ⟨h1, h2⟩ := mem_revdeps'.1 hr'
    refine ⟨r, hr', h1, fun hh => hn ?_⟩
    by_cases hrS : r ∈ c.setscene
    · exact Or.inr (Or.inl ⟨r, hrS, cl.covFirst r hrS x h2 hxS⟩)
    · rcases hh with hh | ⟨a, ha, hra⟩ | hh
      · exact absurd hh hrS
      · exact Or.inr (Or.inl ⟨a, ha, cl.covFlow a ha r hra x h2 hxS⟩)
      · exact Or.inr (Or.inr (cl.unskip r hh hrS x h2))

theorem all_moved {c : Cfg T P N} (ok : c.Live) {s : St T P} (h : SInv c [] s) (hk : HoldOk c s)
    (hd : ∀ a ∈ c.setscene, Decided s a) : ∀ x ∈ c.g.tasks, x ∈ s.covered ∨ x ∈ s.notcovered := by
  intro x hx
  have hdone := all_processed ok h hd x hx
  rw [hk.covered, hk.notcovered]
  by_cases hn : x ∈ newNotcovered c s
  · exact Or.inr hn
  left
  refine List.mem_filter.2 ⟨?_, by simp [hn, hdone]⟩
  have notN : ∀ (q : Prop), (q → x ∈ s.scNot ++ c.sc.cantskip ++ s.scNot.flatMap c.sc.cov ++
      c.sc.unskippable.filter (fun x => x ∉ c.setscene)) → ¬ q := by
    intro q hq hh
    exact hn (List.mem_filter.2 ⟨hq hh, decide_eq_true hdone⟩)
  by_cases hxS : x ∈ c.setscene
  · rcases hd x hxS with hh | hh
    · exact List.mem_append_left _ hh
    · exact absurd hh (notN _ fun hh => List.mem_append_left _ (List.mem_append_left _
        (List.mem_append_left _ hh)))
  · rcases owner ok hx with hh | ⟨a, ha, hxa⟩ | hh
    · exact absurd hh hxS
    · rcases hd a ha with hh | hh
      · exact List.mem_append_right _ (List.mem_flatMap.2 ⟨a, hh, hxa⟩)
      · exact absurd (⟨a, hh, hxa⟩ : ∃ a, a ∈ s.scNot ∧ x ∈ c.sc.cov a) (notN _ fun hh =>
          List.mem_append_left _ (List.mem_append_right _ (List.mem_flatMap.2 hh)))
    · exact absurd hh (notN _ fun hh => List.mem_append_right _ (List.mem_filter.2
        ⟨hh, decide_eq_true hxS⟩))

theorem sceneError_false {c : Cfg T P N} (ok : c.Live) {s : St T P} (hi : Inv0 c s) (h : SInv c [] s)
    (ht : TInv c [] s) (hk : HoldOk c s) (hn : s.needUpdate = false) (hdf : s.deferred = [])
    (hd : ∀ a ∈ c.setscene, Decided s a) : sceneError c s = false := by
  have hhold : s.holdoff = [] := by
    refine List.eq_nil_iff_forall_not_mem.2 fun x hx => ?_
    obtain ⟨a, ha, hh⟩ := ht.hold hn x hx
    exact hh (hd a ha)
  have hm := all_moved ok h hk hd
  unfold sceneError
  rw [hdf, hhold, Bool.or_eq_false_iff, Bool.or_eq_false_iff]
  refine ⟨⟨by simp, ?_⟩, ?_⟩
  · rw [List.any_eq_false]
    intro t ht'
    have h1 := hi.dec t (hd t ht')
    have h2 := h.runBuild t h1.1
    have h3 : ¬ (t ∉ s.scCovered ∧ t ∉ s.scNot) := fun hh => (hd t ht').elim hh.1 hh.2
    simp only [Bool.or_eq_true, Bool.and_eq_true, decide_eq_true_eq]
    rintro ((hh | hh) | hh)
    · exact h3 hh
    · exact hh h2
    · exact hh h1.1
  · rw [List.any_eq_false]
    intro x hx
    simp only [Bool.or_eq_true, Bool.and_eq_true, decide_eq_true_eq]
    rintro ((hh | hh) | hh)
    · exact (hm x hx).elim hh.1 hh.2
    · exact hh (all_processed ok h hd x hx)
    · exact hh.2 (ht.covB x (hm x hx) hh.1)

/-! ### All tasks are complete -/

theorem best_none {c : Cfg T P N} {l : List T} (h : best c l = none) : l = [] := by
  unfold best at h
  have key : ∀ (l : List T) (x : T), ∃ y, l.foldl (fun b t => match b with
      | none => some t
      | some x => if c.prio t < c.prio x then some t else some x) (some x) = some y := by
    intro l
    induction l with
    | nil => exact fun x => ⟨x, rfl⟩
    | cons a l ih =>
      intro x
      rw [List.foldl_cons]
      simp only
      by_cases hc : c.prio a < c.prio x
      · rw [if_pos hc]; exact ih a
      · rw [if_neg hc]; exact ih x
  cases l with
  | nil => rfl
  | cons a l =>
    obtain ⟨y, hy⟩ := key l a
    rw [List.foldl_cons] at h
    have h' := hy.symm.trans h
    cases h'

theorem idle {c : Cfg T P N} (ok : c.Live) {s : St T P} (h : Good c s) (hs : s.stamps = []) :
    s.active = 0 ∧ s.live = [] ∧ canStart c s = true := by
  have h1 := (h.invC ok.allowed).active
  have h2 : s.live = [] := by
    refine List.eq_nil_iff_forall_not_mem.2 fun x hx => ?_
    have := h.invS.liveKey x hx
    rw [hs] at this; cases this
  rw [hs, h2] at h1
  simp only [List.length_nil] at h1
  have h3 : s.active = 0 := by omega
  refine ⟨h3, h2, ?_⟩
  unfold canStart
  rw [h3, h2]
  have := ok.threads
  refine decide_eq_true ?_
  simp only [List.length_nil]
  omega

theorem all_complete {c : Cfg T P N} (ok : c.Live) (env : Env T) {s : St T P} (hg : Good c s)
    (h : SInv c [] s) (ht : TInv c [] s) (hk : HoldOk c s) (hn : s.needUpdate = false)
    (hd : ∀ a ∈ c.setscene, Decided s a) (hs : s.stamps = []) (hf : s.failed = [])
    (hnext : next c env s = none) :
    ∀ x ∈ c.g.tasks, x ∈ s.complete ∧ x ∈ s.running ∧ x ∈ s.buildable := by
  obtain ⟨hact, hlive, hcan⟩ := idle ok hg hs
  have hrc : ∀ x ∈ s.running, x ∈ s.complete := by
    intro x hx
    refine Classical.byContradiction fun hc => ?_
    rcases ht.opn x hx hc with hh | hh | hh
    · rw [hs] at hh; cases hh
    · rw [hf] at hh; cases hh
    · cases hh
  have hhold : s.holdoff = [] := by
    refine List.eq_nil_iff_forall_not_mem.2 fun x hx => ?_
    obtain ⟨a, ha, hh⟩ := ht.hold hn x hx
    exact hh (hd a ha)
  have hcand : candidates s = [] := by
    unfold next at hnext
    rw [if_neg (by simp [hcan])] at hnext
    by_cases h2 : candidates s = []
    · exact h2
    rw [if_neg h2, if_neg (by simp [hact])] at hnext
    have h3 := best_none hnext
    refine List.eq_nil_iff_forall_not_mem.2 fun x hx => ?_
    have : x ∈ (candidates s).filter fun t => !limited c s t && c.stamp t ∉ s.stamps.map Prod.snd := by
      refine List.mem_filter.2 ⟨hx, ?_⟩
      have hl : limited c s x = false := by
        unfold limited
        have h0 : sameName c s (c.name x) = 0 := by
          unfold sameName
          rw [List.length_eq_zero_iff, List.filter_eq_nil_iff]
          intro a ha
          simp [hrc a ha]
        cases c.nameLimit (c.name x) with
        | none => rfl
        | some n => simp [h0]
      simp [hl, hs]
    rw [h3] at this; cases this
  have hm := all_moved ok h hk hd
  obtain ⟨rank, hr, _⟩ := exists_rank ok.graph ok.acyclic
  have key : ∀ n x, rank x ≤ n → x ∈ c.g.tasks → x ∈ s.complete ∧ x ∈ s.running ∧ x ∈ s.buildable := by
    intro n
    induction n with
    | zero =>
      intro x hx hxt
      have hde : c.g.deps x = [] := by
        refine List.eq_nil_iff_forall_not_mem.2 fun d hd => ?_
        have := hr x hxt d hd
        omega
      have hb := ht.covB x (hm x hxt) hde
      by_cases hrun : x ∈ s.running
      · exact ⟨hrc x hrun, hrun, hb⟩
      · have : x ∈ candidates s := List.mem_filter.2 ⟨by rw [ht.same]; exact hb, by
          have := hm x hxt
          simp [hrun, hhold, this]⟩
        rw [hcand] at this; cases this
    | succ n ih =>
      intro x hx hxt
      have hb : x ∈ s.buildable := by
        by_cases hde : c.g.deps x = []
        · exact ht.covB x (hm x hxt) hde
        · refine ht.depB x hxt hde fun d hd => ?_
          have := hr x hxt d hd
          exact (ih d (by omega) (ok.graph.closed x hxt d hd)).1
      by_cases hrun : x ∈ s.running
      · exact ⟨hrc x hrun, hrun, hb⟩
      · have : x ∈ candidates s := List.mem_filter.2 ⟨by rw [ht.same]; exact hb, by
          have := hm x hxt
          simp [hrun, hhold, this]⟩
        rw [hcand] at this; cases this
  exact fun x hx => key (rank x) x (Nat.le_refl _) hx

/-! ### The search for a setscene task -/

theorem union_nil (l : List T) : union l [] = l := by unfold union; simp

theorem pick_none {c : Cfg T P N} {env : Env T} : ∀ {ts : List T} {s s' : St T P},
    pick c env ts s = .none s' → ∃ hd, s' = { s with hardDeferred := hd } ∧
      (∀ x ∈ s.hardDeferred, x ∈ hd) ∧
      ∀ t ∈ ts, t ∈ s.sqBuildable → t ∉ s.sqRunning → c.stamp t ∉ s.stamps.map Prod.snd →
        t ∈ hd ∨ ∃ b, s.deferred.lookup t = some b
  | [], s, s', h => by
    unfold pick at h
    cases h
    exact ⟨s.hardDeferred, rfl, fun x hx => hx, by simp⟩
  | t :: ts, s, s', h => by
    unfold pick at h
    by_cases h1 : eligible c s t = false
    · rw [if_pos h1] at h
      obtain ⟨hd, e1, e2, e3⟩ := pick_none h
      refine ⟨hd, e1, e2, fun x hx a1 a2 a3 => ?_⟩
      rcases List.mem_cons.1 hx with rfl | hx
      · left
        refine e2 x (Classical.byContradiction fun hh => ?_)
        have : eligible c s x = true := by
          unfold eligible
          simp only [Bool.and_eq_true, decide_eq_true_eq]
          exact ⟨⟨⟨a1, a2⟩, a3⟩, hh⟩
        rw [h1] at this; cases this
      · exact e3 x hx a1 a2 a3
    rw [if_neg h1] at h
    by_cases h2 : notNeeded c env s t = true
    · rw [if_pos h2] at h; cases h
    rw [if_neg h2] at h
    by_cases h3 : subset (c.hardRev t) (s.scCovered ++ s.scNot) = false
    · rw [if_pos h3] at h
      simp only at h
      by_cases h5 : ((c.hardRev t).filter fun d => decide (d ∉ s.hardNeeded)) ≠ []
      · rw [if_pos h5] at h; cases h
      · rw [if_neg h5] at h
        have h5' : ((c.hardRev t).filter fun d => decide (d ∉ s.hardNeeded)) = [] := by
          simpa using h5
        rw [h5', union_nil, union_nil] at h
        obtain ⟨hd, e1, e2, e3⟩ := pick_none h
        refine ⟨hd, e1, fun x hx => e2 x (mem_union.2 (Or.inl hx)), fun x hx a1 a2 a3 => ?_⟩
        rcases List.mem_cons.1 hx with rfl | hx
        · exact Or.inl (e2 x (mem_union.2 (Or.inr (by simp))))
        · exact e3 x hx a1 a2 a3
    rw [if_neg h3] at h
    cases hlk : s.deferred.lookup t with
    | none =>
      rw [hlk] at h
      simp only at h
      unfold pickTail at h
      by_cases h4 : t ∈ s.outright
      · rw [if_pos h4] at h; cases h
      · rw [if_neg h4] at h; cases h
    | some b =>
      rw [hlk] at h
      simp only at h
      by_cases h4 : b ∉ s.complete
      · rw [if_pos h4] at h
        obtain ⟨hd, e1, e2, e3⟩ := pick_none h
        refine ⟨hd, e1, e2, fun x hx a1 a2 a3 => ?_⟩
        rcases List.mem_cons.1 hx with rfl | hx
        · exact Or.inr ⟨b, hlk⟩
        · exact e3 x hx a1 a2 a3
      rw [if_neg h4] at h
      by_cases h6 : env.valid t = false
      · rw [if_pos h6] at h; cases h
      · rw [if_neg h6] at h
        unfold pickTail at h
        by_cases h7 : t ∈ s.outright
        · simp only at h
          rw [if_pos h7] at h; cases h
        · simp only at h
          rw [if_neg h7] at h; cases h

/-- With nothing in flight and nothing deferred, a setscene task is found as long as one is not
decided. -/
theorem pick_all {c : Cfg T P N} (ok : c.Live) {env : Env T} {s s' : St T P}
    (h : pick c env c.setscene s = .none s') (hg : Good c s') (hS : SInv c [] s')
    (hs : s'.stamps = []) (hdf : s'.deferred = []) : ∀ a ∈ c.setscene, Decided s' a := by
  obtain ⟨hd, e1, e2, e3⟩ := pick_none h
  have hlive := (idle ok hg hs).2.1
  obtain ⟨rank, hr, hb⟩ := exists_rank ok.graph ok.acyclic
  obtain ⟨hrank, hhr⟩ := ok.hardLoop
  have e3' : ∀ t ∈ c.setscene, t ∈ s'.sqBuildable → ¬ Decided s' t → t ∈ s'.hardDeferred := by
    intro t ht hb' hnd
    have h1 : t ∉ s'.sqRunning := by
      intro hh
      rcases hS.runDec t hh with hh | hh
      · exact hnd hh
      · rw [hlive] at hh; cases hh
    subst e1
    rcases e3 t ht hb' h1 (by rw [show s.stamps = [] from hs]; simp) with hh | ⟨b, hb⟩
    · exact hh
    · rw [show s.deferred = [] from hdf] at hb; cases hb
  -- no setscene task that may be started is left
  have key2 : ∀ n t, hrank t ≤ n → t ∈ c.setscene → t ∈ s'.sqBuildable → Decided s' t := by
    intro n
    induction n with
    | zero =>
      intro t hn ht hb'
      refine Classical.byContradiction fun hnd => ?_
      rcases hS.hdWait t (e3' t ht hb' hnd) with ⟨y, hy, _⟩ | ⟨_, hp, _⟩
      · have := hhr t y hy; omega
      · cases hp
    | succ n ih =>
      intro t hn ht hb'
      refine Classical.byContradiction fun hnd => ?_
      have hhd := e3' t ht hb' hnd
      rcases hS.hdWait t hhd with ⟨y, hy, hyd⟩ | ⟨_, hp, _⟩
      · have := hhr t y hy
        exact hyd (ih y (by omega) (ok.hardBack t y hy).1 (hS.hdBuild t hhd y hy))
      · cases hp
  -- hence all are decided: go up the graph
  have hvia : ∀ {a b : T}, Via c.g c.setscene a b → a ∈ c.g.tasks → b ∈ c.g.tasks ∧ rank b < rank a := by
    intro a b hv ha
    induction hv with
    | one hh => exact ⟨ok.graph.closed _ ha _ hh, hr _ ha _ hh⟩
    | more _ _ hh ih =>
      obtain ⟨i1, i2⟩ := ih
      have := hr _ i1 _ hh
      exact ⟨ok.graph.closed _ i1 _ hh, by omega⟩
  have key : ∀ n a, c.g.tasks.length - rank a ≤ n → a ∈ c.setscene → Decided s' a := by
    intro n
    induction n with
    | zero =>
      intro a hn ha
      refine key2 _ a (Nat.le_refl _) ha ?_
      have hrev : ∀ r ∈ c.sc.revdeps a, Decided s' r := by
        intro r hr'
        obtain ⟨h1, h2⟩ := (revdeps_exact ok.graph ok.sub ok.scene ha r).1 hr'
        have := (hvia h2 (ok.sub r h1)).2
        have := hb r
        omega
      rcases hS.build a ha hrev with hh | ⟨_, hp, _⟩
      · exact hh
      · cases hp
    | succ n ih =>
      intro a hn ha
      refine key2 _ a (Nat.le_refl _) ha ?_
      have hrev : ∀ r ∈ c.sc.revdeps a, Decided s' r := by
        intro r hr'
        obtain ⟨h1, h2⟩ := (revdeps_exact ok.graph ok.sub ok.scene ha r).1 hr'
        have := (hvia h2 (ok.sub r h1)).2
        have := hb r
        exact ih r (by omega) h1
      rcases hS.build a ha hrev with hh | ⟨_, hp, _⟩
      · exact hh
      · cases hp
  exact fun a ha => key _ a (Nat.le_refl _) ha

end Bb.Rq
