import Verif.Bb.RqExecLemmas4
/-!
# Lemmas about the execution of tasks: nothing is forgotten
-/

namespace Bb.Rq
open Spec

set_option linter.unusedSectionVars false

variable {T P N : Type} [DecidableEq T] [DecidableEq P] [DecidableEq N]

/-- What the build relies on to come to an end: there are no loops in the graph of tasks and in the
hard dependencies of setscene tasks, the two tables of hard dependencies say the same, no task is
refused, and `--setscene-only` is not given for a build without setscene tasks. -/
structure Cfg.Live (c : Cfg T P N) : Prop extends c.Ok where
  acyclic : Acyclic c.g
  hardBack : ∀ d, ∀ t ∈ c.hardRev d, t ∈ c.setscene ∧ d ∈ c.hard t
  hardLoop : ∃ rank : T → Nat, ∀ d, ∀ t ∈ c.hardRev d, rank t < rank d
  threads : 0 < c.threads
  allowed : c.allowed = none
  only : c.setsceneOnly = true → c.setscene ≠ []

/-- Setscene task `t` is decided. -/
def Decided (s : St T P) (t : T) : Prop := t ∈ s.scCovered ∨ t ∈ s.scNot

/-- The invariant of the setscene tasks.  `pend` are the tasks that are decided, but whose
`scenequeue_updatecounters` still runs. -/
structure SInv (c : Cfg T P N) (pend : List T) (s : St T P) : Prop where
  build : ∀ d ∈ c.setscene, (∀ r ∈ c.sc.revdeps d, Decided s r) →
    d ∈ s.sqBuildable ∨ ∃ p ∈ pend, p ∈ c.sc.revdeps d
  doneDec : ∀ t, Decided s t → t ∈ s.done ∨ t ∈ pend
  doneRoot : ∀ t ∈ c.sc.unskippable, t ∉ c.setscene → t ∈ s.done
  doneCl : ∀ d ∈ c.g.tasks, d ∉ c.setscene → c.g.revdeps d ≠ [] → (∀ r ∈ c.g.revdeps d, r ∈ s.done) →
    d ∈ s.done
  hdWait : ∀ t ∈ s.hardDeferred, (∃ h ∈ c.hardRev t, ¬ Decided s h) ∨ ∃ p ∈ pend, p ∈ c.hardRev t
  hdBuild : ∀ t ∈ s.hardDeferred, ∀ h ∈ c.hardRev t, h ∈ s.sqBuildable
  needBuild : ∀ t ∈ s.hardNeeded, t ∈ s.sqBuildable
  runBuild : ∀ t ∈ s.sqRunning, t ∈ s.sqBuildable
  runDec : ∀ t ∈ s.sqRunning, Decided s t ∨ t ∈ s.live

/-- The invariant of the tasks.  `pend` are tasks that are about to become complete. -/
structure TInv (c : Cfg T P N) (pend : List T) (s : St T P) : Prop where
  same : s.sched = s.buildable
  runB : ∀ t ∈ s.running, t ∈ s.buildable
  depB : ∀ r ∈ c.g.tasks, c.g.deps r ≠ [] → (∀ d ∈ c.g.deps r, d ∈ s.complete) → r ∈ s.buildable
  covB : ∀ r, r ∈ s.covered ∨ r ∈ s.notcovered → c.g.deps r = [] → r ∈ s.buildable
  opn : ∀ r ∈ s.running, r ∉ s.complete → r ∈ s.stamps.map Prod.fst ∨ r ∈ s.failed ∨
    r ∈ pend
  fail : ∀ t, .fail t ∈ s.log ↔ t ∈ s.failed
  hold : s.needUpdate = false → ∀ x ∈ s.holdoff, ∃ a ∈ c.setscene, ¬ Decided s a
  sqd : s.sqdone = true → c.setsceneOnly = false ∧ ∀ a ∈ c.setscene, Decided s a
  mode : s.mode = .failed → s.failed ≠ []

/-! ### The walk through the graph -/

theorem mem_revdeps' {g : Graph T} {t x : T} : x ∈ g.revdeps t ↔ x ∈ g.tasks ∧ t ∈ g.deps x := by
  unfold Graph.revdeps
  rw [List.mem_filter]
  simp

/-- All tasks that could be processed are, or are next. -/
def Cl (c : Cfg T P N) (next done : List T) : Prop :=
  ∀ d ∈ c.g.tasks, d ∉ c.setscene → c.g.revdeps d ≠ [] → (∀ r ∈ c.g.revdeps d, r ∈ done) →
    d ∈ done ∨ d ∈ next

theorem walkDeps_mem (c : Cfg T P N) (done : List T) : ∀ (l new : List T) (d : T),
    d ∈ l.foldl (fun new d =>
      if d ∈ c.setscene ∨ d ∈ done then new
      else if subset (c.g.revdeps d) done then union new [d] else new) new ↔
    d ∈ new ∨ (d ∈ l ∧ d ∉ c.setscene ∧ d ∉ done ∧ subset (c.g.revdeps d) done = true)
  | [], new, d => by simp
  | a :: l, new, d => by
    rw [List.foldl_cons, walkDeps_mem c done l]
    by_cases h1 : a ∈ c.setscene ∨ a ∈ done
    · rw [if_pos h1]
      constructor
      · rintro (h | ⟨h2, h3⟩)
        · exact Or.inl h
        · exact Or.inr ⟨List.mem_cons_of_mem _ h2, h3⟩
      · rintro (h | ⟨h2, h3⟩)
        · exact Or.inl h
        · rcases List.mem_cons.1 h2 with rfl | h2
          · exact absurd h1 fun hh => hh.elim h3.1 h3.2.1
          · exact Or.inr ⟨h2, h3⟩
    · rw [if_neg h1]
      have h1a : a ∉ c.setscene := fun hh => h1 (Or.inl hh)
      have h1b : a ∉ done := fun hh => h1 (Or.inr hh)
      by_cases h2 : subset (c.g.revdeps a) done = true
      · rw [if_pos h2, mem_union]
        constructor
        · rintro ((h | h) | ⟨h4, h3⟩)
          · exact Or.inl h
          · have : d = a := by simpa using h
            subst this
            exact Or.inr ⟨by simp, h1a, h1b, h2⟩
          · exact Or.inr ⟨List.mem_cons_of_mem _ h4, h3⟩
        · rintro (h | ⟨h4, h3⟩)
          · exact Or.inl (Or.inl h)
          · rcases List.mem_cons.1 h4 with rfl | h4
            · exact Or.inl (Or.inr (by simp))
            · exact Or.inr ⟨h4, h3⟩
      · rw [if_neg h2]
        constructor
        · rintro (h | ⟨h4, h3⟩)
          · exact Or.inl h
          · exact Or.inr ⟨List.mem_cons_of_mem _ h4, h3⟩
        · rintro (h | ⟨h4, h3⟩)
          · exact Or.inl h
          · rcases List.mem_cons.1 h4 with rfl | h4
            · exact absurd h3.2.2 h2
            · exact Or.inr ⟨h4, h3⟩

theorem walkTask_fst (c : Cfg T P N) (s : List T × List T) (t : T) :
    (walkTask c s t).1 = union s.1 [t] := rfl

theorem walkTask_snd (c : Cfg T P N) (s : List T × List T) (t d : T) :
    d ∈ (walkTask c s t).2 ↔ d ∈ s.2 ∨ (d ∈ c.g.deps t ∧ d ∉ c.setscene ∧ d ∉ union s.1 [t] ∧
      subset (c.g.revdeps d) (union s.1 [t]) = true) :=
  walkDeps_mem c _ _ _ _

theorem walkPass {c : Cfg T P N} (next' : List T) : ∀ (l : List T) (s : List T × List T),
    (∀ x ∈ l, x ∈ c.g.tasks) →
    Cl c (s.2 ++ next') s.1 →
    Cl c ((l.foldl (walkTask c) s).2 ++ next') (l.foldl (walkTask c) s).1 ∧
    (∀ x, x ∈ (l.foldl (walkTask c) s).1 ↔ x ∈ s.1 ∨ x ∈ l) ∧
    (∀ x ∈ (l.foldl (walkTask c) s).2, x ∈ s.2 ∨ ∃ y ∈ l, x ∈ c.g.deps y)
  | [], s, _, h => ⟨h, by simp, by simp⟩
  | t :: l, s, hl, h => by
    rw [List.foldl_cons]
    have h1 : Cl c ((walkTask c s t).2 ++ next') (walkTask c s t).1 := by
      intro d hd hS hne hr
      rw [walkTask_fst] at hr ⊢
      by_cases hdd : d ∈ union s.1 [t]
      · exact Or.inl hdd
      refine Or.inr ?_
      rw [List.mem_append, walkTask_snd]
      by_cases ht : t ∈ c.g.revdeps d
      · exact Or.inl (Or.inr ⟨(mem_revdeps'.1 ht).2, hS, hdd, subset_iff.2 hr⟩)
      · rcases h d hd hS hne (fun r hr' => by
          rcases mem_union.1 (hr r hr') with hh | hh
          · exact hh
          · have : r = t := by simpa using hh
            exact absurd (this ▸ hr') ht) with hh | hh
        · exact absurd (mem_union.2 (Or.inl hh)) hdd
        · rcases List.mem_append.1 hh with hh | hh
          · exact Or.inl (Or.inl hh)
          · exact Or.inr hh
    obtain ⟨a1, a2, a3⟩ := walkPass next' l _ (fun x hx => hl x (List.mem_cons_of_mem _ hx)) h1
    refine ⟨a1, fun x => ?_, fun x hx => ?_⟩
    · rw [a2, walkTask_fst, mem_union]
      simp only [List.mem_cons, List.not_mem_nil, or_false, or_assoc]
    · rcases a3 x hx with hh | ⟨y, hy, hxy⟩
      · rcases (walkTask_snd c s t x).1 hh with hh | hh
        · exact Or.inl hh
        · exact Or.inr ⟨t, by simp, hh.1⟩
      · exact Or.inr ⟨y, List.mem_cons_of_mem _ hy, hxy⟩

theorem walk_spec {c : Cfg T P N} (ok : c.Ok) (rank : T → Nat)
    (hr : ∀ t ∈ c.g.tasks, ∀ d ∈ c.g.deps t, rank d < rank t) : ∀ (fuel : Nat) (next done : List T),
    (∀ x ∈ next, x ∈ c.g.tasks ∧ rank x < fuel) → Cl c next done →
    Cl c [] (walk c fuel next done) ∧ (∀ x ∈ done, x ∈ walk c fuel next done) ∧
    ∀ x ∈ next, x ∈ walk c fuel next done
  | 0, next, done, hn, h => by
    unfold walk
    have : next = [] := List.eq_nil_iff_forall_not_mem.2 fun x hx => absurd (hn x hx).2 (by omega)
    subst this
    exact ⟨h, fun x hx => hx, by simp⟩
  | fuel + 1, next, done, hn, h => by
    unfold walk
    by_cases he : next = []
    · rw [if_pos he]; subst he; exact ⟨h, fun x hx => hx, by simp⟩
    · rw [if_neg he]
      simp only
      obtain ⟨a1, a2, a3⟩ := walkPass (c := c) next next (done, []) (fun x hx => (hn x hx).1)
        (by simpa using h)
      generalize hrr : next.foldl (walkTask c) (done, []) = r at a1 a2 a3
      have h1 : Cl c r.2 r.1 := by
        intro d hd hS hne hdr
        rcases a1 d hd hS hne hdr with hh | hh
        · exact Or.inl hh
        · rcases List.mem_append.1 hh with hh | hh
          · exact Or.inr hh
          · exact Or.inl ((a2 d).2 (Or.inr hh))
      obtain ⟨b1, b2, b3⟩ := walk_spec ok rank hr fuel r.2 r.1 (fun x hx => by
        rcases a3 x hx with hh | ⟨y, hy, hxy⟩
        · simp at hh
        · have h5 := hn y hy
          have h6 := hr y h5.1 x hxy
          exact ⟨ok.graph.closed y h5.1 x hxy, by omega⟩) h1
      exact ⟨b1, fun x hx => b2 x ((a2 x).2 (Or.inl hx)), fun x hx => b2 x ((a2 x).2 (Or.inr hx))⟩

/-! ### Setscene tasks -/

theorem sinv_finishCounters {c : Cfg T P N} (ok : c.Live) {pend : List T} {s : St T P} {t : T}
    (h : SInv c (t :: pend) s) (hS : t ∈ c.setscene) : SInv c pend (finishCounters c t s) := by
  obtain ⟨rank, hr, hb⟩ := exists_rank ok.graph ok.acyclic
  obtain ⟨w1, w2, w3⟩ := walk_spec ok.toOk rank hr (c.g.tasks.length + 1) [t] s.done (by
    intro x hx
    have : x = t := by simpa using hx
    subst this
    have := hb x
    exact ⟨ok.sub x hS, by omega⟩) (fun d hd hdS hne hdr => Or.inl (h.doneCl d hd hdS hne hdr))
  have mono : ∀ x ∈ s.sqBuildable, x ∈ (finishCounters c t s).sqBuildable := fun x hx =>
    mem_union.2 (Or.inl hx)
  refine ⟨?_, ?_, ?_, ?_, ?_, ?_, ?_, ?_, h.runDec⟩
  · intro d hd hdec
    rcases h.build d hd hdec with hh | ⟨p, hp, hpd⟩
    · exact Or.inl (mono d hh)
    · rcases List.mem_cons.1 hp with rfl | hp
      · refine Or.inl (mem_union.2 (Or.inr (List.mem_filter.2 ⟨?_, subset_iff.2 fun x hx =>
          List.mem_append.2 (hdec x hx)⟩)))
        exact (scene_deps_exact ok.graph ok.sub ok.scene hS d).2
          ⟨hd, ((revdeps_exact ok.graph ok.sub ok.scene hd p).1 hpd).2⟩
      · exact Or.inr ⟨p, hp, hpd⟩
  · intro x hx
    rcases h.doneDec x hx with hh | hh
    · exact Or.inl (w2 x hh)
    · rcases List.mem_cons.1 hh with rfl | hh
      · exact Or.inl (w3 x (by simp))
      · exact Or.inr hh
  · exact fun x hx hxS => w2 x (h.doneRoot x hx hxS)
  · intro d hd hdS hne hdr
    rcases w1 d hd hdS hne hdr with hh | hh
    · exact hh
    · cases hh
  · intro x hx
    change x ∈ (if c.hard t = [] then s.hardDeferred
      else s.hardDeferred.filter fun d => !subset (c.hardRev d) (s.scCovered ++ s.scNot)) at hx
    by_cases he : c.hard t = []
    · rw [if_pos he] at hx
      rcases h.hdWait x hx with hh | ⟨p, hp, hpx⟩
      · exact Or.inl hh
      · rcases List.mem_cons.1 hp with rfl | hp
        · have := (ok.hardBack x p hpx).2
          rw [he] at this; cases this
        · exact Or.inr ⟨p, hp, hpx⟩
    · rw [if_neg he] at hx
      obtain ⟨_, h2⟩ := List.mem_filter.1 hx
      left
      by_cases hx2 : ∃ y ∈ c.hardRev x, ¬ Decided s y
      · exact hx2
      · have : subset (c.hardRev x) (s.scCovered ++ s.scNot) = true := by
          refine subset_iff.2 fun y hy => List.mem_append.2 ?_
          exact Classical.byContradiction fun hh => hx2 ⟨y, hy, hh⟩
        rw [this] at h2; cases h2
  · intro x hx y hy
    refine mono y (h.hdBuild x ?_ y hy)
    change x ∈ (if c.hard t = [] then s.hardDeferred
      else s.hardDeferred.filter fun d => !subset (c.hardRev d) (s.scCovered ++ s.scNot)) at hx
    by_cases he : c.hard t = []
    · rwa [if_pos he] at hx
    · rw [if_neg he] at hx; exact (List.mem_filter.1 hx).1
  · exact fun x hx => mono x (h.needBuild x hx)
  · exact fun x hx => mono x (h.runBuild x hx)

/-- A setscene task is decided. -/
theorem sinv_decide {c : Cfg T P N} {pend : List T} {s s' : St T P} {t : T} (h : SInv c pend s)
    (hb : ∀ x ∈ s.sqBuildable, x ∈ s'.sqBuildable) (hd : ∀ x, Decided s' x ↔ Decided s x ∨ x = t)
    (hdone : s'.done = s.done) (hhd : s'.hardDeferred = s.hardDeferred)
    (hhn : s'.hardNeeded = s.hardNeeded)
    (hrb : ∀ x ∈ s'.sqRunning, x ∈ s.sqRunning ∨ (x = t ∧ t ∈ s'.sqBuildable))
    (hl : ∀ x ∈ s.live, x ∈ s'.live ∨ x = t) : SInv c (t :: pend) s' := by
  refine ⟨?_, ?_, ?_, ?_, ?_, ?_, ?_, ?_, ?_⟩
  · intro d hdS hdec
    by_cases ht : t ∈ c.sc.revdeps d
    · exact Or.inr ⟨t, by simp, ht⟩
    · rcases h.build d hdS (fun r hr => ((hd r).1 (hdec r hr)).elim id fun e => absurd (e ▸ hr) ht) with
        hh | ⟨p, hp, hpd⟩
      · exact Or.inl (hb d hh)
      · exact Or.inr ⟨p, List.mem_cons_of_mem _ hp, hpd⟩
  · intro x hx
    rw [hdone]
    rcases (hd x).1 hx with hh | rfl
    · exact (h.doneDec x hh).imp id (List.mem_cons_of_mem _)
    · exact Or.inr (by simp)
  · rw [hdone]; exact h.doneRoot
  · rw [hdone]; exact h.doneCl
  · rw [hhd]
    intro x hx
    rcases h.hdWait x hx with ⟨y, hy, hyd⟩ | ⟨p, hp, hpx⟩
    · by_cases ht : y = t
      · exact Or.inr ⟨t, by simp, ht ▸ hy⟩
      · exact Or.inl ⟨y, hy, fun hh => ((hd y).1 hh).elim hyd ht⟩
    · exact Or.inr ⟨p, List.mem_cons_of_mem _ hp, hpx⟩
  · rw [hhd]; exact fun x hx y hy => hb y (h.hdBuild x hx y hy)
  · rw [hhn]; exact fun x hx => hb x (h.needBuild x hx)
  · intro x hx
    rcases hrb x hx with hh | ⟨rfl, hh⟩
    · exact hb x (h.runBuild x hh)
    · exact hh
  · intro x hx
    rcases hrb x hx with hh | ⟨rfl, _⟩
    · rcases h.runDec x hh with hh | hh
      · exact Or.inl ((hd x).2 (Or.inl hh))
      · rcases hl x hh with hh | hh
        · exact Or.inr hh
        · exact Or.inl ((hd x).2 (Or.inr hh))
    · exact Or.inl ((hd x).2 (Or.inr rfl))

theorem sinv_markMissing {c : Cfg T P N} {pend : List T} {s : St T P} (h : SInv c pend s) (t : T) :
    SInv c (t :: pend) (markMissing t s) := by
  refine sinv_decide h (fun x hx => mem_union.2 (Or.inl hx)) (fun x => ?_) rfl rfl rfl ?_
    fun x hx => Or.inl hx
  · unfold Decided markMissing
    simp only [mem_union, List.mem_singleton, or_assoc]
  · intro x hx
    rcases mem_union.1 hx with hh | hh
    · exact Or.inl hh
    · exact Or.inr ⟨by simpa using hh, mem_union.2 (Or.inr (by simp))⟩

theorem sinv_updateCounters {c : Cfg T P N} (ok : c.Live) (env : Env T) : ∀ (fuel : Nat) (t : T)
    (fail : Bool) (pend : List T) (s : St T P), SInv c (t :: pend) s → t ∈ c.setscene →
    SInv c pend (updateCounters c env fuel t fail s)
  | 0, t, fail, pend, s, h, hS => by unfold updateCounters; exact sinv_finishCounters ok h hS
  | fuel + 1, t, fail, pend, s, h, hS => by
    unfold updateCounters
    refine sinv_finishCounters ok ?_ hS
    cases fail with
    | false => exact h
    | true =>
      rw [if_pos rfl]
      have hh : ∀ d ∈ c.hard t, d ∈ c.setscene := fun d hd => (ok.hard t d hd).1
      revert hh
      generalize c.hard t = l
      induction l generalizing s with
      | nil => exact fun _ => h
      | cons d l ih =>
        intro hh
        rw [List.foldl_cons]
        refine ih _ ?_ fun x hx => hh x (List.mem_cons_of_mem _ hx)
        by_cases hc : d ∈ s.scCovered ∨ d ∈ s.scNot ∨ present c env d = true
        · rw [if_pos hc]; exact h
        · rw [if_neg hc]
          exact sinv_updateCounters ok env fuel d true _ _ (sinv_markMissing h d) (hh d (by simp))

theorem sinv_failOutright {c : Cfg T P N} (ok : c.Live) (env : Env T) {t : T} {s : St T P}
    (h : SInv c [] s) (hS : t ∈ c.setscene) : SInv c [] (failOutright c env t s) :=
  sinv_updateCounters ok env _ t true _ _ (sinv_markMissing h t) hS

theorem sinv_sqSkip {c : Cfg T P N} (ok : c.Live) (env : Env T) (e : Ev T) {t : T} {s : St T P}
    (h : SInv c [] s) (hS : t ∈ c.setscene) : SInv c [] (sqSkip c env e t s) := by
  refine sinv_updateCounters ok env _ t false _ _ ?_ hS
  refine sinv_decide h (fun x hx => mem_union.2 (Or.inl hx)) (fun x => ?_) rfl rfl rfl ?_
    fun x hx => Or.inl hx
  · unfold Decided
    simp only [mem_union, List.mem_singleton]
    constructor
    · rintro ((hh | hh) | hh)
      · exact Or.inl (Or.inl hh)
      · exact Or.inr hh
      · exact Or.inl (Or.inr hh)
    · rintro ((hh | hh) | hh)
      · exact Or.inl (Or.inl hh)
      · exact Or.inr hh
      · exact Or.inl (Or.inr hh)
  · intro x hx
    rcases mem_union.1 hx with hh | hh
    · exact Or.inl hh
    · exact Or.inr ⟨by simpa using hh, mem_union.2 (Or.inr (by simp))⟩

/-- Fields that `SInv` does not speak of. -/
theorem SInv.other {c : Cfg T P N} {pend : List T} {s s' : St T P} (h : SInv c pend s)
    (h1 : s'.sqBuildable = s.sqBuildable) (h2 : s'.scCovered = s.scCovered) (h3 : s'.scNot = s.scNot)
    (h4 : s'.done = s.done) (h5 : s'.hardDeferred = s.hardDeferred) (h6 : s'.hardNeeded = s.hardNeeded)
    (h7 : s'.sqRunning = s.sqRunning) (h8 : s'.live = s.live) : SInv c pend s' := by
  have hd : ∀ x, Decided s' x ↔ Decided s x := fun x => by unfold Decided; rw [h2, h3]
  refine ⟨?_, ?_, ?_, ?_, ?_, ?_, ?_, ?_, ?_⟩
  · intro d hdS hdec
    rw [h1]
    exact h.build d hdS fun r hr => (hd r).1 (hdec r hr)
  · intro x hx; rw [h4]; exact h.doneDec x ((hd x).1 hx)
  · rw [h4]; exact h.doneRoot
  · rw [h4]; exact h.doneCl
  · rw [h5]
    intro x hx
    rcases h.hdWait x hx with ⟨y, hy, hyd⟩ | hh
    · exact Or.inl ⟨y, hy, fun hh => hyd ((hd y).1 hh)⟩
    · exact Or.inr hh
  · rw [h5, h1]; exact h.hdBuild
  · rw [h6, h1]; exact h.needBuild
  · rw [h7, h1]; exact h.runBuild
  · rw [h7, h8]
    exact fun x hx => (h.runDec x hx).imp (hd x).2 id

theorem sinv_updateSceneTask {c : Cfg T P N} (ok : c.Live) (env : Env T) {t : T} {s : St T P}
    (h : SInv c [] s) (hS : t ∈ c.setscene) : SInv c [] (updateSceneTask c env s t) := by
  have h0 : SInv c [] { s with outright := s.outright.filter fun x => x ≠ t } :=
    h.other rfl rfl rfl rfl rfl rfl rfl rfl
  unfold updateSceneTask
  simp only
  by_cases h1 : c.noexec t = true
  · rw [if_pos h1]; exact sinv_sqSkip ok env _ h0 hS
  · rw [if_neg h1]
    by_cases h2 : (env.sstampNow t || env.stampRec t) = true
    · rw [if_pos h2]; exact sinv_sqSkip ok env _ h0 hS
    · rw [if_neg h2]; exact h0

theorem sinv_updateScene {c : Cfg T P N} (ok : c.Live) (env : Env T) {tids : List T} {s : St T P}
    (h : SInv c [] s) (hS : ∀ t ∈ tids, t ∈ c.setscene) : SInv c [] (updateScene c env tids s) := by
  have h' : SInv c [] (tids.foldl (updateSceneTask c env) s) := by
    revert hS
    induction tids generalizing s with
    | nil => exact fun _ => h
    | cons t tids ih =>
      intro hS
      rw [List.foldl_cons]
      exact ih (sinv_updateSceneTask ok env h (hS t (by simp)))
        fun x hx => hS x (List.mem_cons_of_mem _ hx)
  exact h'.other rfl rfl rfl rfl rfl rfl rfl rfl

theorem sinv_release {c : Cfg T P N} (ok : c.Live) (env : Env T) (t : T) {s : St T P}
    (h : SInv c [] s) : SInv c [] (release c env t s) := by
  unfold release
  generalize hw : (c.setscene.filter fun x => decide (s.deferred.lookup x = some t)) = w
  cases w with
  | nil => exact h
  | cons f rest =>
    simp only
    have hf : f ∈ c.setscene.filter fun x => decide (s.deferred.lookup x = some t) := by rw [hw]; simp
    have h0 : SInv c [] { s with deferred := s.deferred.filter fun e => e.1 ≠ f } :=
      h.other rfl rfl rfl rfl rfl rfl rfl rfl
    have h1 := sinv_updateScene ok env (tids := [f]) h0 (by
      intro x hx
      have : x = f := by simpa using hx
      subst this; exact (List.mem_filter.1 hf).1)
    exact h1.other rfl rfl rfl rfl rfl rfl rfl rfl

theorem sinv_completeOutright {c : Cfg T P N} (ok : c.Live) (env : Env T) (t : T) {s : St T P}
    (h : SInv c [] s) : SInv c [] (completeOutright c env t s) := by
  unfold completeOutright
  simp only
  refine sinv_release ok env t ?_
  exact h.other rfl rfl rfl rfl rfl rfl rfl rfl

theorem sinv_updateHoldoff {c : Cfg T P N} {s : St T P} (h : SInv c [] s) :
    SInv c [] (updateHoldoff c s) := by
  unfold updateHoldoff
  by_cases hn : s.needUpdate = false
  · rw [if_pos hn]; exact h
  · rw [if_neg hn]; exact h.other rfl rfl rfl rfl rfl rfl rfl rfl

/-! ### Tasks -/

/-- What the functions for setscene tasks leave alone. -/
structure Frame3 (s s' : St T P) : Prop where
  sched : s'.sched = s.sched
  buildable : s'.buildable = s.buildable
  running : s'.running = s.running
  complete : s'.complete = s.complete
  covered : s'.covered = s.covered
  notcovered : s'.notcovered = s.notcovered
  stamps : s'.stamps = s.stamps
  failed : s'.failed = s.failed
  sqdone : s'.sqdone = s.sqdone
  mode : s'.mode = s.mode
  log : ∀ t, .fail t ∈ s'.log ↔ .fail t ∈ s.log
  dec : ∀ t, Decided s t → Decided s' t
  hold : s'.needUpdate = false → s.needUpdate = false ∧ s'.holdoff = s.holdoff ∧
    ∀ t, Decided s' t → Decided s t

theorem Frame3.refl (s : St T P) : Frame3 s s :=
  ⟨rfl, rfl, rfl, rfl, rfl, rfl, rfl, rfl, rfl, rfl, fun _ => Iff.rfl, fun _ h => h,
    fun h => ⟨h, rfl, fun _ h => h⟩⟩

theorem Frame3.trans {a b d : St T P} (h : Frame3 a b) (h' : Frame3 b d) : Frame3 a d :=
  ⟨h'.sched.trans h.sched, h'.buildable.trans h.buildable, h'.running.trans h.running,
    h'.complete.trans h.complete, h'.covered.trans h.covered, h'.notcovered.trans h.notcovered,
    h'.stamps.trans h.stamps, h'.failed.trans h.failed, h'.sqdone.trans h.sqdone,
    h'.mode.trans h.mode, fun t => (h'.log t).trans (h.log t), fun t ht => h'.dec t (h.dec t ht),
    fun hn => by
      obtain ⟨a1, a2, a3⟩ := h'.hold hn
      obtain ⟨b1, b2, b3⟩ := h.hold a1
      exact ⟨b1, a2.trans b2, fun t ht => b3 t (a3 t ht)⟩⟩

theorem TInv.frame {c : Cfg T P N} {pend : List T} {s s' : St T P} (h : TInv c pend s)
    (f : Frame3 s s') : TInv c pend s' := by
  refine ⟨?_, ?_, ?_, ?_, ?_, ?_, ?_, ?_, ?_⟩
  · rw [f.sched, f.buildable]; exact h.same
  · rw [f.running, f.buildable]; exact h.runB
  · rw [f.complete, f.buildable]; exact h.depB
  · rw [f.covered, f.notcovered, f.buildable]; exact h.covB
  · rw [f.running, f.complete, f.stamps, f.failed]; exact h.opn
  · rw [f.failed]; exact fun t => (f.log t).trans (h.fail t)
  · intro hn x hx
    obtain ⟨a1, a2, a3⟩ := f.hold hn
    rw [a2] at hx
    obtain ⟨a, ha, hd⟩ := h.hold a1 x hx
    exact ⟨a, ha, fun hh => hd (a3 a hh)⟩
  · rw [f.sqdone]; exact fun hq => ⟨(h.sqd hq).1, fun a ha => f.dec a ((h.sqd hq).2 a ha)⟩
  · rw [f.mode, f.failed]; exact h.mode

theorem updateCounters_cov (c : Cfg T P N) (env : Env T) : ∀ (fuel : Nat) (t : T) (fail : Bool)
    (s : St T P), (updateCounters c env fuel t fail s).covered = s.covered ∧
      (updateCounters c env fuel t fail s).notcovered = s.notcovered
  | 0, t, fail, s => ⟨rfl, rfl⟩
  | fuel + 1, t, fail, s => by
    unfold updateCounters
    cases fail with
    | false => exact ⟨rfl, rfl⟩
    | true =>
      rw [if_pos rfl]
      generalize c.hard t = l
      induction l generalizing s with
      | nil => exact ⟨rfl, rfl⟩
      | cons d l ih =>
        rw [List.foldl_cons]
        obtain ⟨a, b⟩ := ih (if d ∈ s.scCovered ∨ d ∈ s.scNot ∨ present c env d = true then s
          else updateCounters c env fuel d true (markMissing d s))
        rw [a, b]
        by_cases hc : d ∈ s.scCovered ∨ d ∈ s.scNot ∨ present c env d = true
        · rw [if_pos hc]; exact ⟨rfl, rfl⟩
        · rw [if_neg hc]; exact updateCounters_cov c env fuel d true _

theorem frame3_updateCounters (c : Cfg T P N) (env : Env T) (fuel : Nat) (t : T) (fail : Bool)
    (s : St T P) : Frame3 s (updateCounters c env fuel t fail s) := by
  have h := updateCounters_frame c env fuel t fail s
  have h' := updateCounters_cov c env fuel t fail s
  obtain ⟨l, hl, hq⟩ := h.log
  refine ⟨h.sched, h.buildable, h.running, h.complete, h'.1, h'.2, h.stamps, h.failed, h.sqdone,
    h.mode, fun x => ⟨fun hx => ?_, fun hx => ?_⟩, fun x hx => ?_, fun hn => ?_⟩
  · rw [hl] at hx
    rcases List.mem_append.1 hx with hh | hh
    · obtain ⟨y, hy⟩ := hq _ hh
      cases hy
    · exact hh
  · rw [hl]; exact List.mem_append_right _ hx
  · exact hx.imp (fun hh => by rw [h.scCovered]; exact hh) (h.scNot x)
  · rw [updateCounters_needUpdate] at hn; cases hn

theorem updateCounters_dec (c : Cfg T P N) (env : Env T) (fuel : Nat) (t : T) (fail : Bool)
    (s s0 : St T P)
    (h0 : s.sched = s0.sched ∧ s.buildable = s0.buildable ∧ s.running = s0.running ∧
      s.complete = s0.complete ∧ s.covered = s0.covered ∧ s.notcovered = s0.notcovered ∧
      s.stamps = s0.stamps ∧ s.failed = s0.failed ∧ s.sqdone = s0.sqdone ∧ s.mode = s0.mode)
    (hlog : ∀ x, .fail x ∈ s.log ↔ .fail x ∈ s0.log) (hdec : ∀ x, Decided s0 x → Decided s x) :
    Frame3 s0 (updateCounters c env fuel t fail s) := by
  have h := frame3_updateCounters c env fuel t fail s
  obtain ⟨a1, a2, a3, a4, a5, a6, a7, a8, a9, a10⟩ := h0
  exact ⟨h.sched.trans a1, h.buildable.trans a2, h.running.trans a3, h.complete.trans a4,
    h.covered.trans a5, h.notcovered.trans a6, h.stamps.trans a7, h.failed.trans a8,
    h.sqdone.trans a9, h.mode.trans a10, fun x => (h.log x).trans (hlog x),
    fun x hx => h.dec x (hdec x hx), fun hn => by rw [updateCounters_needUpdate] at hn; cases hn⟩

theorem frame3_failOutright (c : Cfg T P N) (env : Env T) (t : T) (s : St T P) :
    Frame3 s (failOutright c env t s) := by
  refine updateCounters_dec c env _ t true _ s ⟨rfl, rfl, rfl, rfl, rfl, rfl, rfl, rfl, rfl, rfl⟩
    (fun x => ⟨fun hx => ?_, List.mem_cons_of_mem _⟩) fun x hx =>
      hx.imp id fun hh => mem_union.2 (Or.inl hh)
  rcases List.mem_cons.1 hx with hh | hh
  · cases hh
  · exact hh

theorem frame3_sqSkip (c : Cfg T P N) (env : Env T) {e : Ev T} (he : ∀ x, e ≠ .fail x) (t : T)
    (s : St T P) : Frame3 s (sqSkip c env e t s) := by
  refine updateCounters_dec c env _ t false _ s ⟨rfl, rfl, rfl, rfl, rfl, rfl, rfl, rfl, rfl, rfl⟩
    (fun x => ⟨fun hx => ?_, List.mem_cons_of_mem _⟩) fun x hx =>
      hx.imp (fun hh => mem_union.2 (Or.inl hh)) id
  rcases List.mem_cons.1 hx with hh | hh
  · exact absurd hh.symm (he x)
  · exact hh

theorem frame3_updateSceneTask (c : Cfg T P N) (env : Env T) (s : St T P) (t : T) :
    Frame3 s (updateSceneTask c env s t) := by
  have h0 : Frame3 s { s with outright := s.outright.filter fun x => x ≠ t } :=
    ⟨rfl, rfl, rfl, rfl, rfl, rfl, rfl, rfl, rfl, rfl, fun _ => Iff.rfl, fun _ h => h,
      fun h => ⟨h, rfl, fun _ h => h⟩⟩
  unfold updateSceneTask
  simp only
  by_cases h1 : c.noexec t = true
  · rw [if_pos h1]
    exact h0.trans (frame3_sqSkip c env (fun _ hh => by cases hh) t _)
  · rw [if_neg h1]
    by_cases h2 : (env.sstampNow t || env.stampRec t) = true
    · rw [if_pos h2]
      exact h0.trans (frame3_sqSkip c env (fun _ hh => by cases hh) t _)
    · rw [if_neg h2]; exact h0

theorem frame3_updateScene (c : Cfg T P N) (env : Env T) (tids : List T) (s : St T P) :
    Frame3 s (updateScene c env tids s) := by
  have h : Frame3 s (tids.foldl (updateSceneTask c env) s) := by
    induction tids generalizing s with
    | nil => exact Frame3.refl s
    | cons t tids ih =>
      rw [List.foldl_cons]
      exact (frame3_updateSceneTask c env s t).trans (ih _)
  refine h.trans ?_
  exact ⟨rfl, rfl, rfl, rfl, rfl, rfl, rfl, rfl, rfl, rfl, fun _ => Iff.rfl, fun _ h => h,
      fun h => ⟨h, rfl, fun _ h => h⟩⟩

theorem frame3_release (c : Cfg T P N) (env : Env T) (t : T) (s : St T P) :
    Frame3 s (release c env t s) := by
  unfold release
  generalize (c.setscene.filter fun x => decide (s.deferred.lookup x = some t)) = w
  cases w with
  | nil => exact Frame3.refl s
  | cons f rest =>
    simp only
    have h := frame3_updateScene c env [f] { s with deferred := s.deferred.filter fun e => e.1 ≠ f }
    exact ⟨h.sched, h.buildable, h.running, h.complete, h.covered, h.notcovered, h.stamps, h.failed,
      h.sqdone, h.mode, h.log, h.dec, h.hold⟩

/-- A task becomes complete. -/
theorem tinv_completeOutright {c : Cfg T P N} (env : Env T) (t : T) {s : St T P}
    (h : TInv c [t] s) : TInv c [] (completeOutright c env t s) := by
  unfold completeOutright
  simp only
  refine TInv.frame ?_ (frame3_release c env t _)
  have mono : ∀ l, ∀ x ∈ s.buildable, x ∈ union s.buildable l := fun _ x hx => mem_union.2 (Or.inl hx)
  refine ⟨?_, fun x hx => mono _ x (h.runB x hx), ?_, fun x hx he => mono _ x (h.covB x hx he), ?_,
    h.fail, h.hold, h.sqd, h.mode⟩
  · show union s.sched _ = union s.buildable _
    rw [h.same]
  · intro r hr hne hd
    by_cases hb : r ∈ s.buildable
    · exact mono _ r hb
    by_cases ht : t ∈ c.g.deps r
    · refine mem_union.2 (Or.inr (List.mem_filter.2 ⟨mem_revdeps'.2 ⟨hr, ht⟩, ?_⟩))
      simp only [Bool.and_eq_true, decide_eq_true_eq]
      exact ⟨⟨fun hh => hb (h.runB r hh), hb⟩, subset_iff.2 hd⟩
    · refine absurd (h.depB r hr hne fun d hdr => ?_) hb
      rcases mem_union.1 (hd d hdr) with hh | hh
      · exact hh
      · have : d = t := by simpa using hh
        exact absurd (this ▸ hdr) ht
  · intro r hr hc
    rcases h.opn r hr fun hh => hc (mem_union.2 (Or.inl hh)) with hh | hh | hh
    · exact Or.inl hh
    · exact Or.inr (Or.inl hh)
    · exact absurd (mem_union.2 (Or.inr hh)) hc

theorem tinv_setBuildable {c : Cfg T P N} {pend : List T} {s : St T P} (h : TInv c pend s)
    (l : List T) : TInv c pend (setBuildable l s) := by
  have mono : ∀ x ∈ s.buildable, x ∈ union s.buildable l := fun x hx => mem_union.2 (Or.inl hx)
  refine ⟨?_, fun x hx => mono x (h.runB x hx), fun r hr hne hd => mono r (h.depB r hr hne hd),
    fun r hr he => mono r (h.covB r hr he), h.opn, h.fail, h.hold, h.sqd, h.mode⟩
  show union s.sched l = union s.buildable l
  rw [h.same]

theorem tinv_updateHoldoff {c : Cfg T P N} {s : St T P} (h : TInv c [] s) :
    TInv c [] (updateHoldoff c s) := by
  unfold updateHoldoff
  by_cases hn : s.needUpdate = false
  · rw [if_pos hn]; exact h
  · rw [if_neg hn]
    have h1 := tinv_setBuildable h ((newNotcovered c s ++ newCovered c s).filter fun t =>
      subset (c.g.deps t) s.complete)
    refine ⟨h1.same, h1.runB, h1.depB, ?_, h1.opn, h1.fail, ?_, h1.sqd, h1.mode⟩
    · intro r hr he
      refine mem_union.2 (Or.inr (List.mem_filter.2 ⟨List.mem_append.2 hr.symm, ?_⟩))
      rw [he]; rfl
    · intro _ x hx
      unfold newHoldoff at hx
      simp only at hx
      have key : ∀ a ∈ c.setscene.filter (fun t => decide (t ∉ s.scCovered) && decide (t ∉ s.scNot)),
          a ∈ c.setscene ∧ ¬ Decided s a := by
        intro a ha
        obtain ⟨h1, h2⟩ := List.mem_filter.1 ha
        simp only [Bool.and_eq_true, decide_eq_true_eq] at h2
        exact ⟨h1, fun hh => hh.elim h2.1 h2.2⟩
      rcases List.mem_append.1 hx with hh | hh
      · exact ⟨x, (key x hh).1, (key x hh).2⟩
      · obtain ⟨a, ha, _⟩ := List.mem_flatMap.1 (List.mem_filter.1 hh).1
        exact ⟨a, (key a ha).1, (key a ha).2⟩

end Bb.Rq
