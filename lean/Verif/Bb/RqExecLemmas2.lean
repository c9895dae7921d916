import Verif.Bb.RqExecLemmas
/-!
# Lemmas about the execution of tasks: the invariant holds in all states
-/

namespace Bb.Rq
open Spec

set_option linter.unusedSectionVars false

variable {T P N : Type} [DecidableEq T] [DecidableEq P] [DecidableEq N]

/-- Fields that the invariant does not depend on. -/
theorem Inv.other {c : Cfg T P N} {s : St T P} (h : Inv c s) (act : Int) (st : List (T × P))
    (f b o hn hd : List T) (q : Bool) (m : Mode) (D : List (T × T))
    (hD : ∀ e ∈ D, ∃ e' ∈ s.deferred, e'.1 = e.1) :
    Inv c { s with active := act, stamps := st, failed := f, sqBuildable := b, outright := o,
                   hardNeeded := hn, hardDeferred := hd, sqdone := q, mode := m, deferred := D } where
  bld := h.bld
  comp := h.comp
  cov := h.cov
  sc := h.sc
  unn := h.unn
  disj := h.disj
  dec := h.dec
  live := h.live
  defr e he := by
    obtain ⟨e', he', hk⟩ := hD e he
    rw [← hk]
    exact h.defr e' he'
  ord := h.ord
  ran := h.ran
  crun := h.crun
  rest := h.rest
  hold := fun hn => ⟨(h.hold hn).covered, (h.hold hn).notcovered, (h.hold hn).holdoff⟩

theorem keep (D : List (T × T)) : ∀ e ∈ D, ∃ e' ∈ D, e'.1 = e.1 := fun e he => ⟨e, he, rfl⟩

theorem subset_iff {a b : List T} : subset a b = true ↔ ∀ x ∈ a, x ∈ b := by
  unfold subset
  rw [List.all_eq_true]
  simp

theorem inv_setBuildable {c : Cfg T P N} {s : St T P} (h : Inv c s) {l : List T}
    (hl : ∀ t ∈ l, ∀ d ∈ c.g.deps t, d ∈ s.complete) : Inv c (setBuildable l s) where
  bld t ht d hd := by
    rcases ht with ht | ht
    · rcases mem_union.1 ht with ht | ht
      · exact h.bld t (Or.inl ht) d hd
      · exact hl t ht d hd
    · rcases mem_union.1 ht with ht | ht
      · exact h.bld t (Or.inr ht) d hd
      · exact hl t ht d hd
  comp := h.comp
  cov := h.cov
  sc := h.sc
  unn := h.unn
  disj := h.disj
  dec := h.dec
  live := h.live
  defr := h.defr
  ord := h.ord
  ran := h.ran
  crun := h.crun
  rest := h.rest
  hold := fun hn => ⟨(h.hold hn).covered, (h.hold hn).notcovered, (h.hold hn).holdoff⟩

/-! ### `update_scenequeue_data` -/

theorem inv_updateSceneTask {c : Cfg T P N} (ok : c.Ok) (env : Env T) {s : St T P} (h : Inv c s)
    {t : T} (hS : t ∈ c.setscene) (hn : t ∉ s.scNot) (hl : t ∉ s.live) :
    Inv c (updateSceneTask c env s t) := by
  have h' : Inv c { s with outright := s.outright.filter fun x => x ≠ t } :=
    h.other s.active s.stamps s.failed s.sqBuildable _ s.hardNeeded s.hardDeferred s.sqdone s.mode
      s.deferred (keep _)
  unfold updateSceneTask
  simp only
  by_cases h1 : c.noexec t = true
  · rw [if_pos h1]
    exact inv_sqSkip ok env h'.toInv0 hS hn hl (Or.inr (Or.inl rfl))
  · rw [if_neg h1]
    by_cases h2 : (env.sstampNow t || env.stampRec t) = true
    · rw [if_pos h2]
      exact inv_sqSkip ok env h'.toInv0 hS hn hl (Or.inl rfl)
    · rw [if_neg h2]
      exact h'

theorem updateSceneTask_keep (c : Cfg T P N) (env : Env T) (s : St T P) (t : T) :
    (updateSceneTask c env s t).live = s.live ∧
    (∀ x, x ∉ s.scNot → x ∉ (updateSceneTask c env s t).scNot) ∧
    (updateSceneTask c env s t).deferred = s.deferred := by
  have key : ∀ (e : Ev T) (s : St T P), (sqSkip c env e t s).live = s.live ∧
      (∀ x, x ∉ s.scNot → x ∉ (sqSkip c env e t s).scNot) ∧
      (sqSkip c env e t s).deferred = s.deferred := by
    intro e s
    exact ⟨(updateCounters_frame c env _ t false _).live, fun x hx => hx,
      (updateCounters_frame c env _ t false _).deferred⟩
  unfold updateSceneTask
  simp only
  by_cases h1 : c.noexec t = true
  · rw [if_pos h1]; exact key _ _
  · rw [if_neg h1]
    by_cases h2 : (env.sstampNow t || env.stampRec t) = true
    · rw [if_pos h2]; exact key _ _
    · rw [if_neg h2]; exact ⟨rfl, fun _ h => h, rfl⟩

theorem inv_updateScene {c : Cfg T P N} (ok : c.Ok) (env : Env T) {s : St T P} (h : Inv c s)
    {tids : List T} (ht : ∀ t ∈ tids, t ∈ c.setscene ∧ t ∉ s.scNot ∧ t ∉ s.live) :
    Inv c (updateScene c env tids s) := by
  have h' : Inv c (tids.foldl (updateSceneTask c env) s) := by
    revert ht
    induction tids generalizing s with
    | nil => exact fun _ => h
    | cons t tids ih =>
      intro ht
      obtain ⟨a1, a2, a3⟩ := ht t (by simp)
      obtain ⟨b1, b2, _⟩ := updateSceneTask_keep c env s t
      rw [List.foldl_cons]
      refine ih (inv_updateSceneTask ok env h a1 a2 a3) fun x hx => ?_
      obtain ⟨a1, a2, a3⟩ := ht x (List.mem_cons_of_mem _ hx)
      exact ⟨a1, b2 x a2, by rw [b1]; exact a3⟩
  exact h'.other _ _ _ _ _ _ _ _ _ _ (keep _)

theorem updateScene_deferred (c : Cfg T P N) (env : Env T) (tids : List T) (s : St T P) :
    (updateScene c env tids s).deferred = s.deferred := by
  show (tids.foldl (updateSceneTask c env) s).deferred = _
  induction tids generalizing s with
  | nil => rfl
  | cons t tids ih => rw [List.foldl_cons, ih]; exact (updateSceneTask_keep c env s t).2.2

/-! ### Completion of tasks -/

theorem lookup_mem {l : List (T × T)} {x b : T} (h : l.lookup x = some b) :
    ∃ e ∈ l, e.1 = x := by
  induction l with
  | nil => simp at h
  | cons a l ih =>
    rw [List.lookup_cons] at h
    by_cases hx : x = a.1
    · exact ⟨a, by simp, hx.symm⟩
    · rw [beq_eq_false_iff_ne.2 hx] at h
      obtain ⟨e, he, hk⟩ := ih h
      exact ⟨e, List.mem_cons_of_mem _ he, hk⟩

theorem lookup_none {l : List (T × T)} {x : T} (h : l.lookup x = none) : ∀ e ∈ l, e.1 ≠ x := by
  induction l with
  | nil => simp
  | cons a l ih =>
    rw [List.lookup_cons] at h
    intro e he
    by_cases hx : x = a.1
    · rw [beq_iff_eq.2 hx] at h; cases h
    · rw [beq_eq_false_iff_ne.2 hx] at h
      rcases List.mem_cons.1 he with rfl | he
      · exact fun hh => hx hh.symm
      · exact ih h e he

theorem inv_release {c : Cfg T P N} (ok : c.Ok) (env : Env T) {s : St T P} (h : Inv c s) (t : T) :
    Inv c (release c env t s) := by
  unfold release
  generalize hw : (c.setscene.filter fun x => decide (s.deferred.lookup x = some t)) = w
  cases w with
  | nil => exact h
  | cons f rest =>
    simp only
    have hf : f ∈ c.setscene.filter fun x => decide (s.deferred.lookup x = some t) := by rw [hw]; simp
    obtain ⟨hfS, hfl⟩ := List.mem_filter.1 hf
    obtain ⟨e, he, hk⟩ := lookup_mem (of_decide_eq_true hfl)
    obtain ⟨a1, a2, a3, a4⟩ := h.defr e he
    rw [hk] at a2 a3
    have h1 : Inv c { s with deferred := s.deferred.filter fun e => e.1 ≠ f } :=
      h.other s.active s.stamps s.failed s.sqBuildable s.outright s.hardNeeded s.hardDeferred s.sqdone
        s.mode _ fun e he => ⟨e, (List.mem_filter.1 he).1, rfl⟩
    have h2 := inv_updateScene ok env h1 (tids := [f])
      (by simpa using ⟨hfS, a3, a2⟩)
    refine h2.other _ _ _ _ _ _ _ _ _ _ fun e he => ?_
    obtain ⟨e', he', rfl⟩ := List.mem_map.1 he
    refine ⟨e', he', ?_⟩
    by_cases hr : e'.1 ∈ rest
    · rw [if_pos hr]
    · rw [if_neg hr]

theorem inv_completeOutright {c : Cfg T P N} (ok : c.Ok) (env : Env T) {s : St T P} (h : Inv c s)
    {t : T} (ht : .done t ∈ s.log ∨ .noexec t ∈ s.log ∨ .existing t ∈ s.log ∨ .covered t ∈ s.log) :
    Inv c (completeOutright c env t s) := by
  unfold completeOutright
  simp only
  refine inv_release ok env ?_ t
  have h1 : Inv c { s with complete := union s.complete [t] } := {
    bld := fun x hx d hd => mem_union.2 (Or.inl (h.bld x hx d hd))
    comp := by
      intro x hx
      rcases mem_union.1 hx with hx | hx
      · exact h.comp x hx
      · have : x = t := by simpa using hx
        subst this; exact ht
    cov := h.cov
    sc := h.sc
    unn := h.unn
    disj := h.disj
    dec := h.dec
    live := h.live
    defr := h.defr
    ord := h.ord
    ran := h.ran
    crun := h.crun
    rest := h.rest
    hold := fun hn => ⟨(h.hold hn).covered, (h.hold hn).notcovered, fun a ha h1 h2 =>
      ⟨((h.hold hn).holdoff a ha h1 h2).1, fun d hd hc =>
        ((h.hold hn).holdoff a ha h1 h2).2 d hd fun hh => hc (mem_union.2 (Or.inl hh))⟩⟩ }
  refine inv_setBuildable h1 fun r hr d hd => ?_
  have := (List.mem_filter.1 hr).2
  simp only [Bool.and_eq_true] at this
  exact subset_iff.1 this.2 d hd

/-- An event for a task that becomes one of the running ones. -/
theorem inv_event {c : Cfg T P N} {s : St T P} (h : Inv c s) {t : T} (e : Ev T) (r : List T)
    (hr : ∀ x ∈ s.running, x ∈ r) (ht : t ∈ r)
    (he : e = .done t ∨ e = .noexec t ∨ e = .existing t ∨ (e = .covered t ∧ CovOk c s t) ∨
      e = .fail t ∨ e = .sstart t) :
    Inv c { s with running := r, log := e :: s.log } where
  bld := h.bld
  comp x hx := by
    have := h.comp x hx
    simp only [List.mem_cons]
    rcases this with hh | hh | hh | hh <;> simp [hh]
  cov d hd := by
    rcases List.mem_cons.1 hd with hd | hd
    · rcases he with rfl | rfl | rfl | ⟨rfl, hc⟩ | rfl | rfl
      · cases hd
      · cases hd
      · cases hd
      · cases hd; exact hc
      · cases hd
      · cases hd
    · exact h.cov d hd
  sc d hd := by
    have := h.sc d hd
    simp only [List.mem_cons]
    rcases this with hh | hh | hh | hh <;> simp [hh]
  unn d hd := by
    have : Ev.sunneeded d ∈ s.log := by
      rcases List.mem_cons.1 hd with hd | hd
      · rcases he with rfl | rfl | rfl | ⟨rfl, _⟩ | rfl | rfl <;> cases hd
      · exact hd
    exact h.unn d this
  disj := h.disj
  dec := h.dec
  live := h.live
  defr := h.defr
  ord := by
    refine ord_cons (fun x => ?_) h.ord
    rcases he with rfl | rfl | rfl | ⟨rfl, _⟩ | rfl | rfl <;> exact fun hh => (by cases hh)
  ran x hx := by
    have : Ev.start x ∈ s.log := by
      rcases List.mem_cons.1 hx with hd | hd
      · rcases he with rfl | rfl | rfl | ⟨rfl, _⟩ | rfl | rfl <;> cases hd
      · exact hd
    exact ⟨hr x (h.ran x this).1, (h.ran x this).2⟩
  crun x hx := by
    simp only [List.mem_cons] at hx
    by_cases hxt : x = t
    · subst hxt; exact ht
    · refine hr x (h.crun x ?_)
      have hxt' : ∀ a : T, a = t → x ≠ a := fun a ha hh => hxt (hh.trans ha)
      rcases he with rfl | rfl | rfl | ⟨rfl, _⟩ | rfl | rfl <;> simpa [hxt] using hx
  rest x hx := by
    refine h.rest x ?_
    rcases List.mem_cons.1 hx with hd | hd
    · rcases he with rfl | rfl | rfl | ⟨rfl, _⟩ | rfl | rfl <;> cases hd
    · exact hd
  hold := fun hn => ⟨(h.hold hn).covered, (h.hold hn).notcovered, (h.hold hn).holdoff⟩

theorem inv_active {c : Cfg T P N} {s : St T P} (h : Inv c s) (a : Int) :
    Inv c { s with active := a } :=
  h.other a s.stamps s.failed s.sqBuildable s.outright s.hardNeeded s.hardDeferred s.sqdone s.mode
    s.deferred (keep _)

theorem inv_mode {c : Cfg T P N} {s : St T P} (h : Inv c s) (m : Mode) :
    Inv c { s with mode := m } :=
  h.other s.active s.stamps s.failed s.sqBuildable s.outright s.hardNeeded s.hardDeferred s.sqdone m
    s.deferred (keep _)

theorem inv_taskFail {c : Cfg T P N} {s : St T P} (h : Inv c s) (t : T) :
    Inv c (taskFail c t s) := by
  have h1 : Inv c { s with running := s.running, log := .fail t :: s.log } := {
    bld := h.bld
    comp := fun x hx => by
      have := h.comp x hx
      simp only [List.mem_cons]
      rcases this with hh | hh | hh | hh <;> simp [hh]
    cov := fun d hd => h.cov d (by simpa using hd)
    sc := fun d hd => by
      have := h.sc d hd
      simp only [List.mem_cons]
      rcases this with hh | hh | hh | hh <;> simp [hh]
    unn := fun d hd => h.unn d (by simpa using hd)
    disj := h.disj
    dec := h.dec
    live := h.live
    defr := h.defr
    ord := ord_cons (fun x => fun hh => (by cases hh)) h.ord
    ran := fun x hx => h.ran x (by simpa using hx)
    crun := fun x hx => h.crun x (by simpa using hx)
    rest := fun x hx => h.rest x (by simpa using hx)
    hold := fun hn => ⟨(h.hold hn).covered, (h.hold hn).notcovered, (h.hold hn).holdoff⟩ }
  exact h1.other (s.active - 1) s.stamps (s.failed ++ [t]) s.sqBuildable s.outright s.hardNeeded
    s.hardDeferred s.sqdone (if c.halt then .cleanup else s.mode) s.deferred (keep _)

theorem inv_taskComplete {c : Cfg T P N} (ok : c.Ok) (env : Env T) {s : St T P} (h : Inv c s) {t : T}
    (ht : .done t ∈ s.log ∨ .noexec t ∈ s.log ∨ .existing t ∈ s.log ∨ .covered t ∈ s.log) :
    Inv c (taskComplete c env t s) :=
  inv_completeOutright ok env (inv_active h _) ht

theorem inv_taskSkip {c : Cfg T P N} (ok : c.Ok) (env : Env T) {s : St T P} (h : Inv c s) {t : T}
    {e : Ev T} (he : e = .existing t ∨ (e = .covered t ∧ CovOk c s t))
    (hd : ∀ d ∈ c.g.deps t, d ∈ s.complete) : Inv c (taskSkip c env e t s) := by
  unfold taskSkip
  simp only
  refine inv_active (inv_completeOutright ok env (inv_setBuildable (l := [t])
    (inv_event h (t := t) e (union s.running [t]) (fun x hx => mem_union.2 (Or.inl hx))
      (mem_union.2 (Or.inr (by simp))) ?_) ?_) ?_) _
  · rcases he with he | he
    · exact Or.inr (Or.inr (Or.inl he))
    · exact Or.inr (Or.inr (Or.inr (Or.inl he)))
  · intro x hx d hxd
    have : x = t := by simpa using hx
    subst this; exact hd d hxd
  · rcases he with rfl | ⟨rfl, _⟩
    · exact Or.inr (Or.inr (Or.inl (by simp [setBuildable])))
    · exact Or.inr (Or.inr (Or.inr (by simp [setBuildable])))

/-! ### `update_holdofftasks` -/

theorem newCovered_congr {c : Cfg T P N} {s s' : St T P} (h1 : s'.scCovered = s.scCovered)
    (h2 : s'.scNot = s.scNot) (h3 : s'.done = s.done) : newCovered c s' = newCovered c s := by
  unfold newCovered newNotcovered
  rw [h1, h2, h3]

theorem newNotcovered_congr {c : Cfg T P N} {s s' : St T P} 
    (h2 : s'.scNot = s.scNot) (h3 : s'.done = s.done) : newNotcovered c s' = newNotcovered c s := by
  unfold newNotcovered
  rw [h2, h3]

theorem inv_updateHoldoff {c : Cfg T P N} {s : St T P} (h : Inv c s) :
    Inv c (updateHoldoff c s) ∧ HoldOk c (updateHoldoff c s) := by
  unfold updateHoldoff
  by_cases hn : s.needUpdate = false
  · rw [if_pos hn]; exact ⟨h, h.hold hn⟩
  · rw [if_neg hn]
    simp only
    have h1 : Inv c (setBuildable ((newNotcovered c s ++ newCovered c s).filter fun t =>
        subset (c.g.deps t) s.complete) s) :=
      inv_setBuildable h fun t ht d hd => subset_iff.1 (List.mem_filter.1 ht).2 d hd
    generalize hs' : setBuildable ((newNotcovered c s ++ newCovered c s).filter fun t =>
        subset (c.g.deps t) s.complete) s = s' at h1
    have hk : HoldOk c
        { s' with
          covered := newCovered c s, notcovered := newNotcovered c s
          holdoff := newHoldoff c s, needUpdate := false } := by
      subst hs'
      refine ⟨(newCovered_congr rfl rfl rfl).symm, (newNotcovered_congr rfl rfl).symm, ?_⟩
      intro a ha h1 h2
      have hm : a ∈ c.setscene.filter fun t => t ∉ s.scCovered && t ∉ s.scNot :=
        List.mem_filter.2 ⟨ha, by
          simp only [Bool.and_eq_true, decide_eq_true_eq]
          exact ⟨h1, h2⟩⟩
      refine ⟨List.mem_append_left _ hm, fun d hd hc => List.mem_append_right _ ?_⟩
      exact List.mem_filter.2 ⟨List.mem_flatMap.2 ⟨a, hm, hd⟩, decide_eq_true hc⟩
    refine ⟨?_, hk⟩
    exact {
      bld := h1.bld
      comp := h1.comp
      cov := h1.cov
      sc := h1.sc
      unn := h1.unn
      disj := h1.disj
      dec := h1.dec
      live := h1.live
      defr := h1.defr
      ord := h1.ord
      ran := h1.ran
      crun := h1.crun
      rest := h1.rest
      hold := fun _ => hk }

/-! ### The next task -/

theorem best_mem {c : Cfg T P N} {l : List T} {t : T} (h : best c l = some t) : t ∈ l := by
  unfold best at h
  have key : ∀ (l : List T) (b : Option T),
      l.foldl (fun b t => match b with
        | none => some t
        | some x => if c.prio t < c.prio x then some t else some x) b = some t → t ∈ l ∨ b = some t := by
    intro l
    induction l with
    | nil => exact fun b hb => Or.inr hb
    | cons a l ih =>
      intro b hb
      rw [List.foldl_cons] at hb
      rcases ih _ hb with hh | hh
      · exact Or.inl (List.mem_cons_of_mem _ hh)
      · cases b with
        | none => simp only at hh; cases hh; exact Or.inl (by simp)
        | some x =>
          simp only at hh
          by_cases hp : c.prio a < c.prio x
          · rw [if_pos hp] at hh; cases hh; exact Or.inl (by simp)
          · rw [if_neg hp] at hh; exact Or.inr hh
  rcases key l none h with hh | hh
  · exact hh
  · cases hh

/-- What is known of a task that the scheduler proposes. -/
structure NextOk (c : Cfg T P N) (s : St T P) (t : T) : Prop where
  sched : t ∈ s.sched
  running : t ∉ s.running
  holdoff : t ∉ s.holdoff
  cov : t ∈ s.covered ∨ t ∈ s.notcovered
  can : canStart c s = true
  limit : limited c s t = false
  stamp : c.stamp t ∉ s.stamps.map Prod.snd

theorem next_ok {c : Cfg T P N} {env : Env T} {s : St T P} {t : T} (h : next c env s = some t) :
    NextOk c s t := by
  unfold next at h
  by_cases h1 : canStart c s = false
  · rw [if_pos h1] at h; cases h
  rw [if_neg h1] at h
  by_cases h2 : candidates s = []
  · rw [if_pos h2] at h; cases h
  rw [if_neg h2] at h
  by_cases h3 : s.active ≠ 0 ∧ env.pressure = true
  · rw [if_pos h3] at h; cases h
  rw [if_neg h3] at h
  obtain ⟨a1, a2⟩ := List.mem_filter.1 (best_mem h)
  unfold candidates at a1
  obtain ⟨b1, b2⟩ := List.mem_filter.1 a1
  simp only [Bool.and_eq_true, decide_eq_true_eq, Bool.or_eq_true] at b2
  simp only [Bool.and_eq_true, decide_eq_true_eq, Bool.not_eq_true'] at a2
  exact ⟨b1, b2.1.1, b2.1.2, b2.2, by simpa using h1, a2.1, a2.2⟩

theorem mem_newNotcovered {c : Cfg T P N} {s : St T P} {x : T} (h : x ∈ newNotcovered c s) :
    x ∈ s.scNot ∨ x ∈ c.sc.cantskip ∨ (∃ a ∈ s.scNot, x ∈ c.sc.cov a) ∨
      (x ∈ c.sc.unskippable ∧ x ∉ c.setscene) := by
  unfold newNotcovered at h
  have h := (List.mem_filter.1 h).1
  rcases List.mem_append.1 h with h | h
  · rcases List.mem_append.1 h with h | h
    · rcases List.mem_append.1 h with h | h
      · exact Or.inl h
      · exact Or.inr (Or.inl h)
    · obtain ⟨a, ha, hx⟩ := List.mem_flatMap.1 h
      exact Or.inr (Or.inr (Or.inl ⟨a, ha, hx⟩))
  · obtain ⟨h1, h2⟩ := List.mem_filter.1 h
    exact Or.inr (Or.inr (Or.inr ⟨h1, of_decide_eq_true h2⟩))

/-- A task that the scheduler proposes and that is covered may be skipped. -/
theorem covered_ok {c : Cfg T P N} (ok : c.Ok) {s : St T P} (h : Inv0 c s) (hk : HoldOk c s)
    {t : T} (hc : t ∈ s.covered) (hh : t ∉ s.holdoff) (hcomp : t ∉ s.complete) : CovOk c s t := by
  have cl := ok.closed
  rw [hk.covered] at hc
  unfold newCovered at hc
  obtain ⟨h1, h2⟩ := List.mem_filter.1 hc
  simp only [Bool.and_eq_true, decide_eq_true_eq] at h2
  obtain ⟨hnn, hdone⟩ := h2
  have hnn' : ∀ (x : Prop), (x → t ∈ s.scNot ++ c.sc.cantskip ++ s.scNot.flatMap c.sc.cov ++
    c.sc.unskippable.filter (fun x => x ∉ c.setscene)) → ¬ x := by
    intro x hx hx'
    exact hnn (List.mem_filter.2 ⟨hx hx', decide_eq_true hdone⟩)
  refine ⟨fun hS => ?_, fun hS => ⟨?_, fun a ha hda => ?_⟩⟩
  · rcases List.mem_append.1 h1 with h1 | h1
    · exact h1
    · obtain ⟨a, ha, hx⟩ := List.mem_flatMap.1 h1
      exact absurd hS (cl.covNot a (h.dec a (Or.inl ha)).2 t hx)
  · refine hnn' _ fun hu => List.mem_append_right _ (List.mem_filter.2 ⟨hu, decide_eq_true hS⟩)
  · refine Classical.byContradiction fun hnc => ?_
    by_cases hns : a ∈ s.scNot
    · exact hnn' True (fun _ => List.mem_append_left _ (List.mem_append_right _
        (List.mem_flatMap.2 ⟨a, hns, hda⟩))) trivial
    · exact hh ((hk.holdoff a ha hnc hns).2 t hda hcomp)

/-- The dependencies of a task that is not covered were produced. -/
theorem deps_produced {c : Cfg T P N} (ok : c.Ok) {s : St T P} (h : Inv0 c s) (hk : HoldOk c s)
    {t : T} (hc : t ∉ s.covered) (hn : t ∈ s.notcovered)
    (hd : ∀ d ∈ c.g.deps t, d ∈ s.complete) (ht : t ∈ c.setscene → t ∈ s.scNot) :
    ∀ d ∈ c.g.deps t, Produced s.log d := by
  have cl := ok.closed
  intro d hdt
  unfold Produced
  rcases h.comp d (hd d hdt) with hh | hh | hh | hh
  · exact Or.inl hh
  · exact Or.inr (Or.inl hh)
  · exact Or.inr (Or.inr (Or.inl hh))
  · obtain ⟨c1, c2⟩ := h.cov d hh
    rw [hk.notcovered] at hn
    have hn' := mem_newNotcovered hn
    by_cases hdS : d ∈ c.setscene
    · -- a setscene task that was restored, or not needed
      rcases h.sc d (c1 hdS) with hh | hh | hh | hh
      · exact Or.inr (Or.inr (Or.inr (Or.inl hh)))
      · exact Or.inr (Or.inr (Or.inr (Or.inr (Or.inl hh))))
      · exact Or.inr (Or.inr (Or.inr (Or.inr (Or.inr hh))))
      · exfalso
        obtain ⟨u1, _, u2⟩ := h.unn d hh
        by_cases htS : t ∈ c.setscene
        · exact h.disj t (u2 t (cl.revFirst t htS d hdt hdS)) (ht htS)
        · rcases hn' with hh | hh | ⟨a, ha, hta⟩ | ⟨hh, _⟩
          · exact htS (h.dec t (Or.inr hh)).2
          · exact u1 (cl.unskip t (cl.cant t hh).2 htS d hdt)
          · exact h.disj a (u2 a (cl.revFlow a (h.dec a (Or.inr ha)).2 t hta d hdt hdS)) ha
          · exact u1 (cl.unskip t hh htS d hdt)
    · exfalso
      obtain ⟨u1, u2⟩ := c2 hdS
      by_cases htS : t ∈ c.setscene
      · exact h.disj t (u2 t htS (cl.covFirst t htS d hdt hdS)) (ht htS)
      · rcases hn' with hh | hh | ⟨a, ha, hta⟩ | ⟨hh, _⟩
        · exact htS (h.dec t (Or.inr hh)).2
        · exact u1 (cl.unskip t (cl.cant t hh).2 htS d hdt)
        · have haS := (h.dec a (Or.inr ha)).2
          exact h.disj a (u2 a haS (cl.covFlow a haS t hta d hdt hdS)) ha
        · exact u1 (cl.unskip t hh htS d hdt)

/-- A setscene task that is not covered was not restored. -/
theorem notcovered_scene {c : Cfg T P N} (ok : c.Ok) {s : St T P} (h : Inv0 c s) (hk : HoldOk c s)
    {t : T} (hn : t ∈ s.notcovered) (hS : t ∈ c.setscene) : t ∈ s.scNot := by
  have cl := ok.closed
  rw [hk.notcovered] at hn
  rcases mem_newNotcovered hn with hh | hh | ⟨a, ha, hta⟩ | ⟨_, hh⟩
  · exact hh
  · exact absurd hS (cl.cant t hh).1
  · exact absurd hS (cl.covNot a (h.dec a (Or.inr ha)).2 t hta)
  · exact absurd hS hh

end Bb.Rq
