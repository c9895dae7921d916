import Verif.Bb.RqExecLemmas3
/-!
# Lemmas about the execution of tasks: the invariants hold in every state
-/

namespace Bb.Rq
open Spec

set_option linter.unusedSectionVars false

variable {T P N : Type} [DecidableEq T] [DecidableEq P] [DecidableEq N]

theorem good_setBuildable {c : Cfg T P N} {s : St T P} (h : Good c s) {l : List T}
    (hl : ∀ t ∈ l, ∀ d ∈ c.g.deps t, d ∈ s.complete) : Good c (setBuildable l s) :=
  h.frame ⟨rfl, rfl, rfl, rfl, rfl, rfl, rfl, ⟨[], rfl, by simp⟩, fun _ h => h, fun _ h => h, rfl⟩
    (inv_setBuildable h.inv hl)

/-- The task that is next is decided, if it has a setscene variant. -/
theorem next_decided {c : Cfg T P N} {s : St T P} (hk : HoldOk c s) {t : T} (hn : NextOk c s t)
    (hS : t ∈ c.setscene) : t ∈ s.scCovered ∨ t ∈ s.scNot := by
  by_cases h1 : t ∈ s.scCovered
  · exact Or.inl h1
  by_cases h2 : t ∈ s.scNot
  · exact Or.inr h2
  exact absurd (hk.holdoff t hS h1 h2).1 hn.holdoff

theorem next_notKey {c : Cfg T P N} {s : St T P} (h : Good c s) (hk : HoldOk c s) {t : T}
    (hn : NextOk c s t) : t ∉ s.stamps.map Prod.fst := by
  intro hh
  obtain ⟨e, he, rfl⟩ := List.mem_map.1 hh
  rcases h.invS.key e he with hh | hh
  · obtain ⟨_, h1, h2, h3, _⟩ := h.inv.live e.1 hh.1
    exact (next_decided hk hn h3).elim h1 h2
  · exact hn.running hh.2.1

theorem good_taskSkip {c : Cfg T P N} (ok : c.Ok) (env : Env T) {s : St T P} (h : Good c s)
    (hk : HoldOk c s) {t : T} (hn : NextOk c s t) {e : Ev T}
    (he : e = .existing t ∨ (e = .covered t ∧ CovOk c s t)) : Good c (taskSkip c env e t s) := by
  have h1 := good_quietRun h e hn.running (fun hS => next_decided hk hn hS)
    (he.elim (fun hh => Or.inr (Or.inl hh)) fun hh => Or.inr (Or.inr hh))
  have h2 := good_setBuildable h1 (l := [t]) (by
    intro x hx d hd
    have : x = t := by simpa using hx
    subst this; exact h.inv.bld x (Or.inr hn.sched) d hd)
  have h3 := good_completeOutright ok env h2 (t := t) (by
    rcases he with rfl | ⟨rfl, _⟩ <;> simp [setBuildable]) (next_notKey h hk hn)
  unfold taskSkip
  simp only
  exact good_active h3 (by omega)

theorem good_noexec {c : Cfg T P N} (ok : c.Ok) (env : Env T) {s : St T P} (h : Good c s)
    (hk : HoldOk c s) {t : T} (hn : NextOk c s t) :
    Good c (taskComplete c env t
      { s with running := union s.running [t], active := s.active + 1, log := .noexec t :: s.log }) := by
  have h1 := good_quietRun h (.noexec t) hn.running (fun hS => next_decided hk hn hS) (Or.inl rfl)
  have h3 := good_completeOutright ok env h1 (t := t) (by simp) (next_notKey h hk hn)
  have e : s.active + 1 - 1 = s.active := by omega
  unfold taskComplete
  simp only [e]
  exact h3

/-- A refused task: the counts are not kept. -/
theorem good_refused {c : Cfg T P N} {s : St T P} (h : Good c s) (t : T) (ha : c.allowed ≠ none) :
    Good c (taskFail c t s) := by
  refine ⟨inv_taskFail h.inv t, ?_, fun hn => absurd hn ha⟩
  refine ⟨h.invS.nodup, ?_, h.invS.liveKey, h.invS.liveNodup, h.invS.runDec, ?_, h.invS.runNodup,
    h.invS.compRun, h.invS.excl⟩
  · intro e he
    rcases h.invS.key e he with hh | ⟨h1, h2, h3, h4, h5⟩
    · exact Or.inl hh
    · exact Or.inr ⟨h1, h2, List.mem_cons_of_mem _ h3, h4, h5⟩
  · intro post x pre heq h1 h2
    obtain ⟨post', e1, e2⟩ := split_quiet (l := [Ev.fail t]) (by simp) heq
    refine h.invS.op post' x pre e2 (fun hh => h1 ?_) (fun hh => h2 ?_)
    · rw [e1]; exact List.mem_append_right _ hh
    · rw [e1]; exact List.mem_append_right _ hh

theorem good_finishStep {c : Cfg T P N} {s : St T P} (h : Good c s) : Good c (finishStep c s) := by
  unfold finishStep
  by_cases h1 : 0 < s.active ∨ s.live ≠ []
  · rw [if_pos h1]; exact h
  rw [if_neg h1]
  generalize hd : s.deferred = D
  cases D with
  | cons e rest =>
    exact good_tables h s.sqBuildable s.outright s.hardNeeded s.hardDeferred rest
      fun x hx => hd ▸ List.mem_cons_of_mem _ hx
  | nil =>
    simp only
    by_cases h2 : s.failed ≠ []
    · rw [if_pos h2]
      have := good_mode h .failed
      rwa [hd] at this
    · rw [if_neg h2]
      by_cases h3 : (sceneError c s || unfinished c s) = true
      · rw [if_pos h3]
        have := good_mode h .failed
        rwa [hd] at this
      · rw [if_neg h3]
        have := good_mode h .complete
        rwa [hd] at this

theorem good_runTask {c : Cfg T P N} (ok : c.Ok) (env : Env T) {s : St T P} (h : Good c s)
    (hk : HoldOk c s) {t : T} (hn : NextOk c s t) : Good c (runTask c env t s) := by
  unfold runTask
  by_cases h0 : ignored c env s t = true
  · rw [if_pos h0]
    refine good_refused h t fun ha => ?_
    unfold ignored at h0
    rw [ha] at h0
    cases h0
  rw [if_neg h0]
  by_cases h1 : t ∈ s.covered
  · rw [if_pos h1]
    exact good_taskSkip ok env h hk hn (Or.inr ⟨rfl, covered_ok ok h.inv.toInv0 hk h1 hn.holdoff
      fun hc => hn.running (h.invS.compRun t hc)⟩)
  rw [if_neg h1]
  by_cases h2 : env.stampNow t = true
  · rw [if_pos h2]
    exact good_taskSkip ok env h hk hn (Or.inl rfl)
  rw [if_neg h2]
  by_cases h3 : c.noexec t = true
  · rw [if_pos h3]
    exact good_noexec ok env h hk hn
  rw [if_neg h3]
  have h4 := good_start ok h hk hn h1
  simp only
  generalize hs : { s with
        stamps := s.stamps ++ [(t, c.stamp t)], running := union s.running [t]
        active := s.active + 1, log := .start t :: s.log } = s' at h4
  by_cases h5 : canStart c s' = true
  · rw [if_pos h5]; exact h4
  · rw [if_neg h5]; exact good_finishStep h4

theorem good_tasksStep {c : Cfg T P N} (ok : c.Ok) (env : Env T) {s : St T P} (h : Good c s)
    (hk : HoldOk c s) : Good c (tasksStep c env s) := by
  unfold tasksStep
  generalize hn : (if c.setsceneOnly then none else next c env s) = n
  cases n with
  | none => exact good_finishStep h
  | some t =>
    refine good_runTask ok env h hk (next_ok (env := env) ?_)
    by_cases h1 : c.setsceneOnly = true
    · rw [if_pos h1] at hn; cases hn
    · rw [if_neg h1] at hn; exact hn

theorem good_executeRest {c : Cfg T P N} (ok : c.Ok) (env : Env T) {s : St T P} (h : Good c s) :
    Good c (executeRest c env s) := by
  obtain ⟨h1, hk⟩ := good_updateHoldoff h
  unfold executeRest
  simp only
  generalize hs : updateHoldoff c s = s' at h1 hk
  by_cases h2 : s'.live = [] ∧ s'.sqdone = false ∧ s'.deferred = [] ∧ s'.holdoff = []
  · rw [if_pos h2]
    by_cases h3 : sceneError c s' = true
    · rw [if_pos h3]; exact good_mode h1 .failed
    rw [if_neg h3]
    by_cases h4 : c.setsceneOnly = true
    · rw [if_pos h4]; exact good_mode h1 .complete
    rw [if_neg h4]
    by_cases h5 : c.g.tasks = []
    · rw [if_pos h5]; exact good_mode (good_sqdone h1 true) .complete
    rw [if_neg h5]
    exact good_tasksStep ok env (good_sqdone h1 true) ⟨hk.covered, hk.notcovered, hk.holdoff⟩
  · rw [if_neg h2]
    exact good_tasksStep ok env h1 hk

/-- What is known of a setscene task that is to be started. -/
structure PickOk (c : Cfg T P N) (s : St T P) (t : T) : Prop where
  mem : t ∈ c.setscene
  fresh : t ∉ s.sqRunning
  can : canStart c s = true
  hard : ∀ x ∈ c.hardRev t, x ∈ s.scCovered ∨ x ∈ s.scNot
  deferred : ∀ e ∈ s.deferred, e.1 ≠ t
  stamp : c.stamp t ∉ s.stamps.map Prod.snd

theorem good_sceneStep {c : Cfg T P N} (ok : c.Ok) (env : Env T) {s : St T P} (h : Good c s)
    {t : T} (hp : PickOk c s t) : Good c (sceneStep c env t s) := by
  have hn : t ∉ s.scNot := fun hx => hp.fresh (h.inv.dec t (Or.inr hx)).1
  have hl : t ∉ s.live := fun hx => hp.fresh (h.inv.live t hx).1
  unfold sceneStep
  by_cases h1 : env.stampRec t = true
  · rw [if_pos h1]; exact good_failOutright ok env h hp.mem hp.fresh hp.deferred
  rw [if_neg h1]
  by_cases h2 : c.force = true ∧ t ∈ c.targets
  · rw [if_pos h2]; exact good_failOutright ok env h hp.mem hp.fresh hp.deferred
  rw [if_neg h2]
  by_cases h3 : env.sstampNow t = true
  · rw [if_pos h3]; exact good_sqSkip ok env h hp.mem hn hl (Or.inl rfl)
  rw [if_neg h3]
  by_cases h4 : c.skipSetscene = true
  · rw [if_pos h4]; exact good_failOutright ok env h hp.mem hp.fresh hp.deferred
  rw [if_neg h4]
  have h5 := good_sstart ok h hp.mem hp.fresh hp.can hp.hard hp.deferred
  simp only
  generalize hs : { s with
        stamps := s.stamps ++ [(t, c.sstamp t)], sqRunning := union s.sqRunning [t]
        live := union s.live [t], log := .sstart t :: s.log } = s' at h5
  by_cases h6 : canStart c s' = true
  · rw [if_pos h6]; exact h5
  · rw [if_neg h6]; exact good_executeRest ok env h5

/-- What the search for a setscene task gives. -/
def PickGood (c : Cfg T P N) : Pick T P → Prop
  | .ret s => Good c s
  | .none s => Good c s
  | .task t s => Good c s ∧ PickOk c s t

theorem good_pickTail {c : Cfg T P N} (ok : c.Ok) (env : Env T) {s : St T P} (h : Good c s)
    {t : T} (hp : PickOk c s t) : PickGood c (pickTail c env t s) := by
  unfold pickTail
  by_cases h1 : t ∈ s.outright
  · rw [if_pos h1]; exact good_failOutright ok env h hp.mem hp.fresh hp.deferred
  · rw [if_neg h1]; exact ⟨h, hp⟩

theorem good_pick {c : Cfg T P N} (ok : c.Ok) (env : Env T) : ∀ (ts : List T) (s : St T P),
    Good c s → canStart c s = true → (∀ t ∈ ts, t ∈ c.setscene) → PickGood c (pick c env ts s)
  | [], s, h, _, _ => by unfold pick; exact h
  | t :: ts, s, h, hcan, hts => by
    have hts' : ∀ x ∈ ts, x ∈ c.setscene := fun x hx => hts x (List.mem_cons_of_mem _ hx)
    have hS := hts t (by simp)
    unfold pick
    by_cases h1 : eligible c s t = false
    · rw [if_pos h1]; exact good_pick ok env ts s h hcan hts'
    rw [if_neg h1]
    have he : eligible c s t = true := by simpa using h1
    unfold eligible at he
    simp only [Bool.and_eq_true, decide_eq_true_eq] at he
    obtain ⟨⟨⟨_, hr⟩, hst⟩, _⟩ := he
    have hn : t ∉ s.scNot := fun hx => hr (h.inv.dec t (Or.inr hx)).1
    have hl : t ∉ s.live := fun hx => hr (h.inv.live t hx).1
    by_cases h2 : notNeeded c env s t = true
    · rw [if_pos h2]
      unfold notNeeded at h2
      simp only [Bool.and_eq_true, decide_eq_true_eq, subset_iff] at h2
      obtain ⟨⟨⟨⟨⟨a1, _⟩, _⟩, a2⟩, _⟩, a3⟩ := h2
      have := good_sqSkip ok env h hS hn hl (Or.inr (Or.inr ⟨rfl, a1, a3, a2⟩))
      exact good_tables this _ _ _ _ _ fun e he => (List.mem_filter.1 he).1
    rw [if_neg h2]
    by_cases h3 : subset (c.hardRev t) (s.scCovered ++ s.scNot) = false
    · rw [if_pos h3]
      simp only
      generalize hnew : ((c.hardRev t).filter fun d => decide (d ∉ s.hardNeeded)) = new
      have h4 := good_tables h (union s.sqBuildable new) s.outright (union s.hardNeeded new)
        (union s.hardDeferred [t]) s.deferred (fun e he => he)
      by_cases h5 : new ≠ []
      · rw [if_pos h5]; exact h4
      · rw [if_neg h5]; exact good_pick ok env ts _ h4 hcan hts'
    rw [if_neg h3]
    have h3' : ∀ x ∈ c.hardRev t, x ∈ s.scCovered ∨ x ∈ s.scNot := fun x hx =>
      List.mem_append.1 (subset_iff.1 (by simpa using h3) x hx)
    generalize hlk : s.deferred.lookup t = lk
    cases lk with
    | none => exact good_pickTail ok env h ⟨hS, hr, hcan, h3', lookup_none hlk, hst⟩
    | some b =>
      simp only
      by_cases h4 : b ∉ s.complete
      · rw [if_pos h4]; exact good_pick ok env ts s h hcan hts'
      rw [if_neg h4]
      have h5 := good_tables h s.sqBuildable s.outright s.hardNeeded s.hardDeferred
        (s.deferred.filter fun e => e.1 ≠ t) fun e he => (List.mem_filter.1 he).1
      have hd : ∀ e ∈ (s.deferred.filter fun e => decide (e.1 ≠ t)), e.1 ≠ t := fun e he =>
        of_decide_eq_true (List.mem_filter.1 he).2
      by_cases h6 : env.valid t = false
      · rw [if_pos h6]; exact good_failOutright ok env h5 hS hr hd
      · rw [if_neg h6]; exact good_pickTail ok env h5 ⟨hS, hr, hcan, h3', hd, hst⟩

theorem good_execute {c : Cfg T P N} (ok : c.Ok) (env : Env T) {s : St T P} (h : Good c s) :
    Good c (execute c env s) := by
  unfold execute
  have hp : PickGood c
      (if s.sqdone = false ∧ canStart c s = true then pick c env c.setscene s else .none s) := by
    by_cases h1 : s.sqdone = false ∧ canStart c s = true
    · rw [if_pos h1]; exact good_pick ok env _ s h h1.2 fun _ hx => hx
    · rw [if_neg h1]; exact h
  generalize (if s.sqdone = false ∧ canStart c s = true then pick c env c.setscene s else .none s) = r
    at hp
  cases r with
  | ret s' => exact hp
  | none s' => exact good_executeRest ok env hp
  | task t s' => exact good_sceneStep ok env hp.1 hp.2

/-! ### A worker reports -/

theorem remove_key {l : List (T × P)} (hn : (l.map Prod.fst).Nodup) {e : T × P} (he : e ∈ l)
    (q : T × P → Bool) :
    l.countP q = (l.filter fun x => x.1 ≠ e.1).countP q + if q e then 1 else 0 := by
  induction l with
  | nil => cases he
  | cons a l ih =>
    rw [List.map_cons] at hn
    obtain ⟨h1, h2⟩ := List.nodup_cons.1 hn
    rw [List.countP_cons]
    rcases List.mem_cons.1 he with rfl | he'
    · have : l.filter (fun x => decide (x.1 ≠ e.1)) = l := by
        rw [List.filter_eq_self]
        intro x hx
        have : x.1 ≠ e.1 := fun hh => h1 (hh ▸ List.mem_map.2 ⟨x, hx, rfl⟩)
        simp [this]
      rw [List.filter_cons_of_neg (by simp), this]
    · have hne : a.1 ≠ e.1 := fun hh => h1 (hh ▸ List.mem_map.2 ⟨e, he', rfl⟩)
      rw [List.filter_cons_of_pos (by simpa using hne), List.countP_cons, ih h2 he']
      omega

theorem remove_len {l : List T} (hn : l.Nodup) {t : T} (ht : t ∈ l) :
    l.length = (l.filter fun x => x ≠ t).length + 1 := by
  induction l with
  | nil => cases ht
  | cons a l ih =>
    obtain ⟨h1, h2⟩ := List.nodup_cons.1 hn
    rcases List.mem_cons.1 ht with rfl | ht'
    · have : l.filter (fun x => decide (x ≠ t)) = l := by
        rw [List.filter_eq_self]
        intro x hx
        have : x ≠ t := fun hh => h1 (hh ▸ hx)
        simp [this]
      rw [List.filter_cons_of_neg (by simp), this]; rfl
    · have hne : a ≠ t := fun hh => h1 (hh ▸ ht')
      rw [List.filter_cons_of_pos (by simpa using hne), List.length_cons, List.length_cons, ih h2 ht']

theorem remove_key_len {l : List (T × P)} (hn : (l.map Prod.fst).Nodup) {e : T × P} (he : e ∈ l) :
    l.length = (l.filter fun x => x.1 ≠ e.1).length + 1 := by
  have := remove_key hn he fun _ => true
  simpa using this

theorem updateCounters_live (c : Cfg T P N) (env : Env T) (L : List T) : ∀ (fuel : Nat) (t : T)
    (fail : Bool) (s : St T P),
    { updateCounters c env fuel t fail s with live := L } =
      updateCounters c env fuel t fail { s with live := L }
  | 0, t, fail, s => rfl
  | fuel + 1, t, fail, s => by
    unfold updateCounters
    cases fail with
    | false => rfl
    | true =>
      rw [if_pos rfl, if_pos rfl]
      have key : ∀ (l : List T) (s : St T P),
          { l.foldl (fun s d => if d ∈ s.scCovered ∨ d ∈ s.scNot ∨ present c env d = true then s
              else updateCounters c env fuel d true (markMissing d s)) s with live := L } =
          l.foldl (fun s d => if d ∈ s.scCovered ∨ d ∈ s.scNot ∨ present c env d = true then s
              else updateCounters c env fuel d true (markMissing d s)) { s with live := L } := by
        intro l
        induction l with
        | nil => exact fun s => rfl
        | cons d l ih =>
          intro s
          rw [List.foldl_cons, List.foldl_cons, ih]
          congr 1
          by_cases hc : d ∈ s.scCovered ∨ d ∈ s.scNot ∨ present c env d = true
          · rw [if_pos hc, if_pos hc]
          · rw [if_neg hc, if_neg hc, updateCounters_live c env L fuel d true]
            rfl
      rw [← key]
      rfl

/-- A setscene task in flight ends: the part of the invariants about tasks in flight. -/
theorem flight_send {c : Cfg T P N} {s : St T P} (h : Good c s) {t : T} (hl : t ∈ s.live)
    (e : Ev T) (he : e = .sdone t ∨ e = .sfail t) (C N' : List T) (hC : ∀ x ∈ s.scCovered, x ∈ C)
    (hN : ∀ x ∈ s.scNot, x ∈ N') :
    InvS c { s with
      stamps := s.stamps.filter fun e => e.1 ≠ t, live := s.live.filter fun x => x ≠ t
      scCovered := C, scNot := N', log := e :: s.log } ∧
    (c.allowed = none → InvC c { s with
      stamps := s.stamps.filter fun e => e.1 ≠ t, live := s.live.filter fun x => x ≠ t
      scCovered := C, scNot := N', log := e :: s.log }) := by
  have hne : ∀ x, e ≠ .start x := by
    intro x; rcases he with rfl | rfl <;> exact fun hh => (by cases hh)
  have hc : isBegin e = false ∧ isEnd e = true ∧ ∀ p, begins p e = false ∧ ends p e = false := by
    rcases he with rfl | rfl <;> simp [isBegin, isEnd, begins, ends]
  have hkey := h.invS.liveKey t hl
  obtain ⟨en, hen, hent⟩ := List.mem_map.1 hkey
  have hrun : t ∉ s.running := by
    rcases h.invS.key en hen with hh | hh
    · exact hent ▸ hh.2.1
    · exact absurd (hent ▸ hl) hh.1
  refine ⟨⟨?_, ?_, ?_, ?_, ?_, ?_, h.invS.runNodup, h.invS.compRun, ?_⟩, fun ha => ?_⟩
  · exact (List.filter_sublist.map _).nodup h.invS.nodup
  · intro e' he'
    obtain ⟨h1, h2⟩ := List.mem_filter.1 he'
    have h2 := of_decide_eq_true h2
    rcases h.invS.key e' h1 with ⟨a1, a2, a3⟩ | ⟨a1, a2, a3, a4, a5⟩
    · exact Or.inl ⟨List.mem_filter.2 ⟨a1, by simpa using h2⟩, a2, a3⟩
    · exact Or.inr ⟨fun hh => a1 (List.mem_filter.1 hh).1, a2, List.mem_cons_of_mem _ a3, a4, a5⟩
  · intro x hx
    obtain ⟨h1, h2⟩ := List.mem_filter.1 hx
    obtain ⟨e', he', rfl⟩ := List.mem_map.1 (h.invS.liveKey x h1)
    exact List.mem_map.2 ⟨e', List.mem_filter.2 ⟨he', h2⟩, rfl⟩
  · exact List.filter_sublist.nodup h.invS.liveNodup
  · exact fun x hx hS => (h.invS.runDec x hx hS).imp (hC x) (hN x)
  · intro post x pre heq h1 h2
    obtain ⟨post', e1, e2⟩ := split_quiet (l := [e]) (by simpa using hne) heq
    have h3 := h.invS.op post' x pre e2
      (fun hh => h1 (by rw [e1]; exact List.mem_append_right _ hh))
      (fun hh => h2 (by rw [e1]; exact List.mem_append_right _ hh))
    refine List.mem_filter.2 ⟨h3, decide_eq_true ?_⟩
    rintro rfl
    exact hrun (h.inv.ran x (by rw [e2]; simp)).1
  · intro a ha b hb h1 h2
    obtain ⟨a1, a2⟩ := List.mem_filter.1 ha
    obtain ⟨b1, b2⟩ := List.mem_filter.1 hb
    exact h.invS.excl a a1 b b1 (fun hx => h1 (List.mem_filter.2 ⟨hx, a2⟩))
      fun hx => h2 (List.mem_filter.2 ⟨hx, b2⟩)
  · have h2 := h.invC ha
    have hlen := remove_key_len h.invS.nodup hen
    rw [hent] at hlen
    have hllen := remove_len h.invS.liveNodup hl
    have hact := h2.active
    have htot := h2.total
    have hb := h2.bound
    have hcp : ∀ q : T × P → Bool,
        ((s.stamps.filter fun e => e.1 ≠ t).countP fun e =>
          e.1 ∉ (s.live.filter fun x => decide (x ≠ t)) && q e) =
        s.stamps.countP fun e => e.1 ∉ s.live && q e := by
      intro q
      have := remove_key h.invS.nodup hen fun e => e.1 ∉ s.live && q e
      rw [if_neg (by simp [hent, hl]), hent, Nat.add_zero] at this
      rw [this]
      refine List.countP_congr fun x hx => ?_
      have := of_decide_eq_true (List.mem_filter.1 hx).2
      simp [List.mem_filter, this]
    refine ⟨?_, ?_, ?_, ?_, ?_⟩
    · show List.countP isBegin (e :: s.log) = List.countP isEnd (e :: s.log) +
        (s.stamps.filter fun e => decide (e.1 ≠ t)).length
      rw [List.countP_cons_of_neg (by simp [hc.1]), List.countP_cons_of_pos hc.2.1]
      omega
    · show s.active + ((s.live.filter fun x => decide (x ≠ t)).length : Nat) =
        ((s.stamps.filter fun e => decide (e.1 ≠ t)).length : Nat)
      omega
    · show (s.stamps.filter fun e => decide (e.1 ≠ t)).length ≤ _
      omega
    · intro p
      show List.countP (begins p) (e :: s.log) = List.countP (ends p) (e :: s.log) +
        ((s.stamps.filter fun e => e.1 ≠ t).countP fun e =>
          e.1 ∉ (s.live.filter fun x => decide (x ≠ t)) && p e.1)
      rw [List.countP_cons_of_neg (by simp [(hc.2.2 p).1]),
        List.countP_cons_of_neg (by simp [(hc.2.2 p).2]), hcp fun e => p e.1]
      exact h2.part p
    · intro n k hnk
      show ((s.stamps.filter fun e => e.1 ≠ t).countP fun e =>
          e.1 ∉ (s.live.filter fun x => decide (x ≠ t)) && decide (c.name e.1 = n)) ≤ _
      rw [hcp fun e => decide (c.name e.1 = n)]
      exact h2.names n k hnk

/-- The run of a task ends. -/
theorem good_ended {c : Cfg T P N} {s : St T P} (h : Good c s) {t : T} (hl : t ∉ s.live)
    (ht : t ∈ s.stamps.map Prod.fst) (e : Ev T) (he : e = .done t ∨ e = .fail t) :
    Good c { s with
      stamps := s.stamps.filter fun e => e.1 ≠ t, active := s.active - 1, log := e :: s.log } := by
  have hne : ∀ x, e ≠ .start x := by
    intro x; rcases he with rfl | rfl <;> exact fun hh => (by cases hh)
  have hc : isBegin e = false ∧ isEnd e = true ∧ ∀ p, begins p e = false ∧ ends p e = p t := by
    rcases he with rfl | rfl <;> simp [isBegin, isEnd, begins, ends]
  obtain ⟨en, hen, hent⟩ := List.mem_map.1 ht
  have hrun : t ∈ s.running := by
    rcases h.invS.key en hen with hh | hh
    · exact absurd (hent ▸ hh.1) hl
    · exact hent ▸ hh.2.1
  refine ⟨?_, ⟨?_, ?_, ?_, h.invS.liveNodup, h.invS.runDec, ?_, h.invS.runNodup, h.invS.compRun,
    fun a ha b hb => h.invS.excl a (List.mem_filter.1 ha).1 b (List.mem_filter.1 hb).1⟩,
    fun ha => ?_⟩
  · have h1 : Inv c { s with running := s.running, log := e :: s.log } :=
      inv_event h.inv (t := t) e s.running (fun _ hx => hx) hrun (by
        rcases he with rfl | rfl
        · exact Or.inl rfl
        · exact Or.inr (Or.inr (Or.inr (Or.inr (Or.inl rfl)))))
    exact h1.other (s.active - 1) (s.stamps.filter fun e => e.1 ≠ t) s.failed s.sqBuildable s.outright
      s.hardNeeded s.hardDeferred s.sqdone s.mode s.deferred (keep _)
  · exact (List.filter_sublist.map _).nodup h.invS.nodup
  · intro e' he'
    rcases h.invS.key e' (List.mem_filter.1 he').1 with hh | ⟨a1, a2, a3, a4, a5⟩
    · exact Or.inl hh
    · exact Or.inr ⟨a1, a2, List.mem_cons_of_mem _ a3, a4, a5⟩
  · intro x hx
    obtain ⟨e', he', rfl⟩ := List.mem_map.1 (h.invS.liveKey x hx)
    refine List.mem_map.2 ⟨e', List.mem_filter.2 ⟨he', decide_eq_true ?_⟩, rfl⟩
    intro hh
    exact hl (hh ▸ hx)
  · intro post x pre heq h1 h2
    obtain ⟨post', e1, e2⟩ := split_quiet (l := [e]) (by simpa using hne) heq
    have h3 := h.invS.op post' x pre e2
      (fun hh => h1 (by rw [e1]; exact List.mem_append_right _ hh))
      (fun hh => h2 (by rw [e1]; exact List.mem_append_right _ hh))
    refine List.mem_filter.2 ⟨h3, decide_eq_true ?_⟩
    rintro rfl
    rcases he with rfl | rfl
    · exact h1 (by rw [e1]; simp)
    · exact h2 (by rw [e1]; simp)
  · have h2 := h.invC ha
    have hlen := remove_key_len h.invS.nodup hen
    rw [hent] at hlen
    have hact := h2.active
    have htot := h2.total
    have hb := h2.bound
    have hcp := fun q : T × P → Bool => remove_key h.invS.nodup hen q
    rw [hent] at hcp
    refine ⟨?_, ?_, ?_, ?_, ?_⟩
    · show List.countP isBegin (e :: s.log) = List.countP isEnd (e :: s.log) +
        (s.stamps.filter fun e => decide (e.1 ≠ t)).length
      rw [List.countP_cons_of_neg (by simp [hc.1]), List.countP_cons_of_pos hc.2.1]
      omega
    · show s.active - 1 + (s.live.length : Nat) =
        ((s.stamps.filter fun e => decide (e.1 ≠ t)).length : Nat)
      omega
    · show (s.stamps.filter fun e => decide (e.1 ≠ t)).length ≤ _
      omega
    · intro p
      show List.countP (begins p) (e :: s.log) = List.countP (ends p) (e :: s.log) +
        ((s.stamps.filter fun e => e.1 ≠ t).countP fun e => e.1 ∉ s.live && p e.1)
      have h3 := h2.part p
      rw [hcp] at h3
      rw [List.countP_cons_of_neg (by simp [(hc.2.2 p).1]), List.countP_cons, (hc.2.2 p).2, h3]
      have : (decide (en.1 ∉ s.live) && p en.1) = p t := by rw [hent]; simp [hl]
      rw [this]
      omega
    · intro n k hnk
      show ((s.stamps.filter fun e => e.1 ≠ t).countP fun e =>
          e.1 ∉ s.live && decide (c.name e.1 = n)) ≤ _
      have h3 := h2.names n k hnk
      rw [hcp] at h3
      omega

theorem good_failedMode {c : Cfg T P N} {s : St T P} (h : Good c s) (f : List T) (m : Mode) :
    Good c { s with failed := f, mode := m } :=
  ⟨h.inv.other s.active s.stamps f s.sqBuildable s.outright s.hardNeeded s.hardDeferred s.sqdone
      m s.deferred (keep _),
    ⟨h.invS.nodup, h.invS.key, h.invS.liveKey, h.invS.liveNodup, h.invS.runDec,
    h.invS.op, h.invS.runNodup, h.invS.compRun, h.invS.excl⟩, fun ha => ⟨(h.invC ha).total, (h.invC ha).active,
    (h.invC ha).bound, (h.invC ha).part, (h.invC ha).names⟩⟩

theorem good_waitpid {c : Cfg T P N} (ok : c.Ok) (env : Env T) {s : St T P} (h : Good c s) {t : T}
    (ht : t ∈ s.stamps.map Prod.fst) (success : Bool) : Good c (waitpid c env t success s) := by
  unfold waitpid
  simp only
  by_cases hl : t ∈ s.live
  · rw [if_pos hl]
    obtain ⟨l1, l2, l3, l4, l5⟩ := h.inv.live t hl
    have h0 : Inv0 c { s with stamps := s.stamps.filter fun e => e.1 ≠ t } :=
      (h.inv.other s.active (s.stamps.filter fun e => e.1 ≠ t) s.failed s.sqBuildable s.outright
        s.hardNeeded s.hardDeferred s.sqdone s.mode s.deferred (keep _)).toInv0
    have hL : ∀ x ∈ (s.live.filter fun x => decide (x ≠ t)), x ∈ s.live ∧ x ≠ t := fun x hx =>
      ⟨(List.mem_filter.1 hx).1, of_decide_eq_true (List.mem_filter.1 hx).2⟩
    have hr : ∀ x, x ∈ s.sqRunning ↔ x ∈ s.sqRunning ∨ x = t := fun x =>
      ⟨Or.inl, fun hh => hh.elim id fun e => e ▸ l1⟩
    cases success with
    | true =>
      rw [if_pos rfl]
      have h1 := inv0_covered h0 l4 l3 (.sdone t) (Or.inl rfl) s.sqRunning s.sqBuildable hr _ hL
      obtain ⟨h2, h3⟩ := flight_send h hl (.sdone t) (Or.inl rfl) (union s.scCovered [t]) s.scNot
        (fun x hx => mem_union.2 (Or.inl hx)) (fun x hx => hx)
      have hf := (updateCounters_frame c env c.fuel t false { s with
        stamps := s.stamps.filter fun e => e.1 ≠ t, live := s.live.filter fun x => x ≠ t
        scCovered := union s.scCovered [t], log := .sdone t :: s.log }).quiet
      have h4 : Good c (updateCounters c env c.fuel t false { s with
        stamps := s.stamps.filter fun e => e.1 ≠ t, live := s.live.filter fun x => x ≠ t
        scCovered := union s.scCovered [t], log := .sdone t :: s.log }) :=
        ⟨inv_updateCounters ok env _ t false _ h1 (fun hh => by cases hh), h2.frame hf,
          fun ha => (h3 ha).frame hf⟩
      rw [(updateCounters_frame c env c.fuel t false _).live, updateCounters_live]
      exact h4
    | false =>
      rw [if_neg (by simp)]
      have h1 := inv0_not h0 l4 l2 (fun e he hh => (h.inv.defr e he).2.1 (hh ▸ hl)) (.sfail t)
        (Or.inr rfl) s.sqRunning s.sqBuildable hr _ hL
      obtain ⟨h2, h3⟩ := flight_send h hl (.sfail t) (Or.inr rfl) s.scCovered (union s.scNot [t])
        (fun x hx => hx) (fun x hx => mem_union.2 (Or.inl hx))
      have hf := (updateCounters_frame c env c.fuel t true { s with
        stamps := s.stamps.filter fun e => e.1 ≠ t, live := s.live.filter fun x => x ≠ t
        scNot := union s.scNot [t], log := .sfail t :: s.log }).quiet
      have h4 : Good c (updateCounters c env c.fuel t true { s with
        stamps := s.stamps.filter fun e => e.1 ≠ t, live := s.live.filter fun x => x ≠ t
        scNot := union s.scNot [t], log := .sfail t :: s.log }) :=
        ⟨inv_updateCounters ok env _ t true _ h1 (fun _ d hd hdl => by
          rcases (h.inv.live d (hL d hdl).1).2.2.2.2 t (ok.hard t d hd).2 with hh | hh
          · exact l2 hh
          · exact l3 hh), h2.frame hf, fun ha => (h3 ha).frame hf⟩
      have hlive := (updateCounters_frame c env c.fuel t true
        { s with
          stamps := s.stamps.filter fun e => decide (e.1 ≠ t)
          scNot := union s.scNot [t], log := .sfail t :: s.log }).live
      have hcomm := updateCounters_live c env (s.live.filter fun x => decide (x ≠ t)) c.fuel t true
        { s with
          stamps := s.stamps.filter fun e => decide (e.1 ≠ t)
          scNot := union s.scNot [t], log := .sfail t :: s.log }
      generalize hu : updateCounters c env c.fuel t true
        { s with
          stamps := s.stamps.filter fun e => decide (e.1 ≠ t)
          scNot := union s.scNot [t], log := .sfail t :: s.log } = u at hlive hcomm
      have h5 : Good c { u with live := s.live.filter fun x => x ≠ t } := by
        rw [hcomm]; exact h4
      cases ha : c.allowed with
      | none => simp only; rw [hlive]; exact h5
      | some okf =>
        simp only
        by_cases hk : okf t = true
        · rw [if_pos hk, hlive]; exact h5
        · rw [if_neg hk]
          simp only
          rw [hlive]
          exact good_mode h5 .cleanup
  · rw [if_neg hl]
    cases success with
    | true =>
      rw [if_pos rfl]
      have h1 := good_ended h hl ht (.done t) (Or.inl rfl)
      exact good_completeOutright ok env h1 (Or.inl (by simp)) (by simp)
    | false =>
      rw [if_neg (by simp)]
      have h1 := good_ended h hl ht (.fail t) (Or.inr rfl)
      exact good_failedMode h1 (s.failed ++ [t]) (if c.halt then .cleanup else s.mode)

theorem good_finish {c : Cfg T P N} {s : St T P} (h : Good c s) : Good c (finish s) := by
  unfold finish
  by_cases h1 : 0 < s.active + s.live.length
  · rw [if_pos h1]; exact h
  rw [if_neg h1]
  by_cases h2 : s.failed ≠ []
  · rw [if_pos h2]; exact good_mode h .failed
  · rw [if_neg h2]; exact good_mode h .complete

/-! ### The beginning -/

theorem good_empty {c : Cfg T P N} (ok : c.Ok) : Good c (empty c) := by
  refine ⟨?_, ?_, fun _ => ?_⟩
  · have hb : ∀ t, t ∈ (c.sc.unskippable.filter fun t => decide (t ∉ c.setscene) && decide
        (c.g.deps t = [])) → ∀ d ∈ c.g.deps t, d ∈ ([] : List T) := by
      intro t ht d hd
      obtain ⟨_, h2⟩ := List.mem_filter.1 ht
      simp only [Bool.and_eq_true, decide_eq_true_eq] at h2
      rw [h2.2] at hd; cases hd
    exact {
      bld := fun t ht => hb t (ht.elim id id)
      comp := fun _ h => (by cases h)
      cov := fun _ h => (by cases h)
      sc := fun _ h => (by cases h)
      unn := fun _ h => (by cases h)
      disj := fun _ h => (by cases h)
      dec := fun _ h => (by rcases h with h | h <;> cases h)
      live := fun _ h => (by cases h)
      defr := fun e he => ⟨(ok.deferred e he).1, by simp [empty], by simp [empty],
        (ok.deferred e he).2⟩
      ord := fun post t pre h => (by
        have h' : ([] : List (Ev T)) = post ++ .start t :: pre := h
        simp at h')
      ran := fun _ h => (by cases h)
      crun := fun _ h => (by rcases h with h | h | h | h <;> cases h)
      rest := fun _ h => (by cases h)
      hold := fun h => (by cases h) }
  · exact ⟨List.nodup_nil, fun _ h => (by cases h), fun _ h => (by cases h), List.nodup_nil,
      fun _ h => (by cases h), fun post t pre h => (by
        have h' : ([] : List (Ev T)) = post ++ .start t :: pre := h
        simp at h'), List.nodup_nil, fun _ h => (by cases h), fun _ h => (by cases h)⟩
  · exact ⟨rfl, rfl, Nat.zero_le _, fun _ => rfl, fun _ _ _ => Nat.zero_le _⟩

theorem good_initial {c : Cfg T P N} (ok : c.Ok) (env : Env T) : Good c (initial c env) := by
  have h : Good c (updateScene c env c.setscene (empty c)) :=
    (good_empty ok).frame (frame_updateScene c env _ _)
      (inv_updateScene ok env (good_empty ok).inv fun t ht => ⟨ht, by simp [empty], by simp [empty]⟩)
  unfold initial
  simp only
  by_cases h1 : c.setscene = []
  · rw [if_pos h1]
    have h2 := good_setBuildable h (l := c.g.tasks.filter fun t => c.g.deps t = []) (by
      intro t ht d hd
      have := of_decide_eq_true (List.mem_filter.1 ht).2
      rw [this] at hd; cases hd)
    have hnu : (updateScene c env c.setscene (empty c)).needUpdate = true := by rw [h1]; rfl
    generalize updateScene c env c.setscene (empty c) = s at h2 hnu
    have hi := h2.inv
    have hS := h2.invS
    refine ⟨?_, ⟨hS.nodup, hS.key, hS.liveKey, hS.liveNodup, hS.runDec, hS.op, hS.runNodup,
      hS.compRun, hS.excl⟩, fun ha => ⟨(h2.invC ha).total, (h2.invC ha).active, (h2.invC ha).bound,
      (h2.invC ha).part, (h2.invC ha).names⟩⟩
    exact {
      bld := hi.bld, comp := hi.comp, cov := hi.cov, sc := hi.sc, unn := hi.unn, disj := hi.disj
      dec := hi.dec, live := hi.live, defr := hi.defr, ord := hi.ord, ran := hi.ran, crun := hi.crun
      rest := hi.rest
      hold := fun hh => absurd (show s.needUpdate = false from hh) (by simp [hnu]) }
  · rw [if_neg h1]; exact h

/-- The invariants hold in every state that a build can reach. -/
theorem good_reach {c : Cfg T P N} (ok : c.Ok) {s : St T P} (h : Reach c s) : Good c s := by
  induction h with
  | init env => exact good_initial ok env
  | step env _ _ ih => exact good_execute ok env ih
  | report env t success _ _ ht ih => exact good_waitpid ok env ih ht success
  | stop _ _ ih => exact good_mode ih .cleanup
  | finish _ _ ih => exact good_finish ih

end Bb.Rq
