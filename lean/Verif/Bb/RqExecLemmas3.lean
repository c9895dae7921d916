import Verif.Bb.RqExecLemmas2
/-!
# Lemmas about the execution of tasks: tasks in flight
-/

namespace Bb.Rq
open Spec

set_option linter.unusedSectionVars false

variable {T P N : Type} [DecidableEq T] [DecidableEq P] [DecidableEq N]

/-- Events that decide about a setscene task without a run. -/
def Quiet (e : Ev T) : Prop :=
  ∃ t, e = .smissing t ∨ e = .spresent t ∨ e = .snoexec t ∨ e = .sunneeded t

/-- What does not change while a task is taken as complete. -/
structure Frame2 (s s' : St T P) : Prop where
  running : s'.running = s.running
  failed : s'.failed = s.failed
  active : s'.active = s.active
  stamps : s'.stamps = s.stamps
  live : s'.live = s.live
  sqdone : s'.sqdone = s.sqdone
  mode : s'.mode = s.mode
  log : ∃ l, s'.log = l ++ s.log ∧ ∀ e ∈ l, Quiet e
  scCovered : ∀ x ∈ s.scCovered, x ∈ s'.scCovered
  scNot : ∀ x ∈ s.scNot, x ∈ s'.scNot
  complete : s'.complete = s.complete

theorem Frame2.refl (s : St T P) : Frame2 s s :=
  ⟨rfl, rfl, rfl, rfl, rfl, rfl, rfl, ⟨[], rfl, by simp⟩, fun _ h => h, fun _ h => h, rfl⟩

theorem Frame2.trans {a b d : St T P} (h : Frame2 a b) (h' : Frame2 b d) : Frame2 a d := by
  obtain ⟨l, hl, hl'⟩ := h.log
  obtain ⟨m, hm, hm'⟩ := h'.log
  refine ⟨h'.running.trans h.running, h'.failed.trans h.failed, h'.active.trans h.active,
    h'.stamps.trans h.stamps, h'.live.trans h.live, h'.sqdone.trans h.sqdone, h'.mode.trans h.mode,
    ⟨m ++ l, by rw [hm, hl, List.append_assoc], fun e he => ?_⟩,
    fun x hx => h'.scCovered x (h.scCovered x hx), fun x hx => h'.scNot x (h.scNot x hx),
    h'.complete.trans h.complete⟩
  rcases List.mem_append.1 he with he | he
  · exact hm' e he
  · exact hl' e he

theorem Frame.quiet {s s' : St T P} (h : Frame s s') : Frame2 s s' := by
  obtain ⟨l, hl, hl'⟩ := h.log
  refine ⟨h.running, h.failed, h.active, h.stamps, h.live, h.sqdone, h.mode, ⟨l, hl, fun e he => ?_⟩,
    fun x hx => by rw [h.scCovered]; exact hx, h.scNot, h.complete⟩
  obtain ⟨t, ht⟩ := hl' e he
  exact ⟨t, Or.inl ht⟩

theorem frame_failOutright (c : Cfg T P N) (env : Env T) (t : T) (s : St T P) :
    Frame2 s (failOutright c env t s) :=
  ((frame_markMissing s t).trans (updateCounters_frame c env _ t true _)).quiet

theorem frame_sqSkip (c : Cfg T P N) (env : Env T) {e : Ev T} (he : Quiet e) (t : T) (s : St T P) :
    Frame2 s (sqSkip c env e t s) := by
  refine Frame2.trans ?_ (updateCounters_frame c env _ t false _).quiet
  exact ⟨rfl, rfl, rfl, rfl, rfl, rfl, rfl, ⟨[e], rfl, by simpa using he⟩,
    fun x hx => mem_union.2 (Or.inl hx), fun x hx => hx, rfl⟩

theorem frame_updateSceneTask (c : Cfg T P N) (env : Env T) (s : St T P) (t : T) :
    Frame2 s (updateSceneTask c env s t) := by
  have h0 : Frame2 s { s with outright := s.outright.filter fun x => x ≠ t } :=
    ⟨rfl, rfl, rfl, rfl, rfl, rfl, rfl, ⟨[], rfl, by simp⟩, fun _ h => h, fun _ h => h, rfl⟩
  unfold updateSceneTask
  simp only
  by_cases h1 : c.noexec t = true
  · rw [if_pos h1]
    exact h0.trans (frame_sqSkip c env ⟨t, Or.inr (Or.inr (Or.inl rfl))⟩ t _)
  · rw [if_neg h1]
    by_cases h2 : (env.sstampNow t || env.stampRec t) = true
    · rw [if_pos h2]
      exact h0.trans (frame_sqSkip c env ⟨t, Or.inr (Or.inl rfl)⟩ t _)
    · rw [if_neg h2]; exact h0

theorem frame_updateScene (c : Cfg T P N) (env : Env T) (tids : List T) (s : St T P) :
    Frame2 s (updateScene c env tids s) := by
  have h : Frame2 s (tids.foldl (updateSceneTask c env) s) := by
    induction tids generalizing s with
    | nil => exact Frame2.refl s
    | cons t tids ih =>
      rw [List.foldl_cons]
      exact (frame_updateSceneTask c env s t).trans (ih _)
  refine h.trans ?_
  exact ⟨rfl, rfl, rfl, rfl, rfl, rfl, rfl, ⟨[], rfl, by simp⟩, fun _ h => h, fun _ h => h, rfl⟩

theorem frame_release (c : Cfg T P N) (env : Env T) (t : T) (s : St T P) :
    Frame2 s (release c env t s) := by
  unfold release
  generalize (c.setscene.filter fun x => decide (s.deferred.lookup x = some t)) = w
  cases w with
  | nil => exact Frame2.refl s
  | cons f rest =>
    simp only
    have h := frame_updateScene c env [f] { s with deferred := s.deferred.filter fun e => e.1 ≠ f }
    exact ⟨h.running, h.failed, h.active, h.stamps, h.live, h.sqdone, h.mode, h.log, h.scCovered,
      h.scNot, h.complete⟩

theorem frame_completeOutright (c : Cfg T P N) (env : Env T) (t : T) (s : St T P) :
    Frame2 { s with complete := union s.complete [t] } (completeOutright c env t s) := by
  unfold completeOutright
  simp only
  refine Frame2.trans ?_ (frame_release c env t _)
  exact ⟨rfl, rfl, rfl, rfl, rfl, rfl, rfl, ⟨[], rfl, by simp⟩, fun _ h => h, fun _ h => h, rfl⟩

theorem frame_updateHoldoff (c : Cfg T P N) (s : St T P) : Frame2 s (updateHoldoff c s) := by
  unfold updateHoldoff
  by_cases hn : s.needUpdate = false
  · rw [if_pos hn]; exact Frame2.refl s
  · rw [if_neg hn]
    exact ⟨rfl, rfl, rfl, rfl, rfl, rfl, rfl, ⟨[], rfl, by simp⟩, fun _ h => h, fun _ h => h, rfl⟩

/-! ### Tasks in flight -/

theorem quiet_counts {l : List (Ev T)} (h : ∀ e ∈ l, Quiet e) (p : T → Bool) :
    l.countP isBegin = 0 ∧ l.countP isEnd = 0 ∧ l.countP (begins p) = 0 ∧ l.countP (ends p) = 0 := by
  refine ⟨?_, ?_, ?_, ?_⟩ <;>
  · rw [List.countP_eq_zero]
    intro e he
    obtain ⟨t, ht⟩ := h e he
    rcases ht with rfl | rfl | rfl | rfl <;> simp [isBegin, isEnd, begins, ends]

/-- The invariant of the tasks in flight. -/
structure InvS (c : Cfg T P N) (s : St T P) : Prop where
  nodup : (s.stamps.map Prod.fst).Nodup
  key : ∀ e ∈ s.stamps, (e.1 ∈ s.live ∧ e.1 ∉ s.running ∧ e.2 = c.sstamp e.1) ∨
    (e.1 ∉ s.live ∧ e.1 ∈ s.running ∧ .start e.1 ∈ s.log ∧ e.1 ∉ s.complete ∧ e.2 = c.stamp e.1)
  liveKey : ∀ t ∈ s.live, t ∈ s.stamps.map Prod.fst
  liveNodup : s.live.Nodup
  runDec : ∀ t ∈ s.running, t ∈ c.setscene → t ∈ s.scCovered ∨ t ∈ s.scNot
  op : ∀ post t pre, s.log = post ++ .start t :: pre → .done t ∉ post → .fail t ∉ post →
    (t, c.stamp t) ∈ s.stamps
  runNodup : s.running.Nodup
  compRun : ∀ t ∈ s.complete, t ∈ s.running
  excl : ∀ e ∈ s.stamps, ∀ e' ∈ s.stamps, e.1 ∉ s.live → e'.1 ∉ s.live → e.2 = e'.2 → e = e'

/-- The counts, which need that no task is refused (`BB_SETSCENE_ENFORCE`). -/
structure InvC (c : Cfg T P N) (s : St T P) : Prop where
  total : s.log.countP isBegin = s.log.countP isEnd + s.stamps.length
  active : s.active + s.live.length = s.stamps.length
  bound : s.stamps.length ≤ c.threads
  part : ∀ p : T → Bool, s.log.countP (begins p) =
    s.log.countP (ends p) + s.stamps.countP fun e => e.1 ∉ s.live && p e.1
  names : ∀ n k, c.nameLimit n = some k →
    (s.stamps.countP fun e => e.1 ∉ s.live && c.name e.1 = n) ≤ max k 1

/-- All invariants. -/
structure Good (c : Cfg T P N) (s : St T P) : Prop where
  inv : Inv c s
  invS : InvS c s
  invC : c.allowed = none → InvC c s

theorem split_quiet {l log post pre : List (Ev T)} {t : T} (hl : ∀ e ∈ l, ∀ t, e ≠ .start t)
    (h : l ++ log = post ++ .start t :: pre) :
    ∃ post', post = l ++ post' ∧ log = post' ++ .start t :: pre := by
  induction l generalizing post with
  | nil => exact ⟨post, rfl, h⟩
  | cons a l ih =>
    cases post with
    | nil =>
      rw [List.cons_append, List.nil_append] at h
      exact absurd (List.cons.inj h).1 (hl a (by simp) t)
    | cons b post =>
      rw [List.cons_append, List.cons_append] at h
      obtain ⟨h1, h2⟩ := List.cons.inj h
      obtain ⟨post', h3, h4⟩ := ih (fun e he => hl e (List.mem_cons_of_mem _ he)) h2
      exact ⟨post', by rw [h1, h3]; rfl, h4⟩

theorem InvS.frame {c : Cfg T P N} {s s' : St T P} (h : InvS c s) (f : Frame2 s s') : InvS c s' := by
  obtain ⟨l, hl, hq⟩ := f.log
  refine ⟨?_, ?_, ?_, ?_, ?_, ?_, ?_, ?_, ?_⟩
  · rw [f.stamps]; exact h.nodup
  · intro e he
    rw [f.stamps] at he
    rw [f.live, f.running, f.complete, hl]
    rcases h.key e he with hh | ⟨h1, h2, h3, h4, h5⟩
    · exact Or.inl hh
    · exact Or.inr ⟨h1, h2, List.mem_append_right _ h3, h4, h5⟩
  · rw [f.live, f.stamps]; exact h.liveKey
  · rw [f.live]; exact h.liveNodup
  · rw [f.running]
    exact fun t ht hS => (h.runDec t ht hS).imp (f.scCovered t) (f.scNot t)
  · intro post t pre heq h1 h2
    rw [hl] at heq
    obtain ⟨post', e1, e2⟩ := split_quiet (fun e he x => by
      obtain ⟨y, hy⟩ := hq e he
      rcases hy with rfl | rfl | rfl | rfl <;> exact fun hh => (by cases hh)) heq
    rw [f.stamps]
    refine h.op post' t pre e2 (fun hh => h1 ?_) (fun hh => h2 ?_)
    · rw [e1]; exact List.mem_append_right _ hh
    · rw [e1]; exact List.mem_append_right _ hh
  · rw [f.running]; exact h.runNodup
  · rw [f.complete, f.running]; exact h.compRun
  · rw [f.stamps, f.live]; exact h.excl

theorem InvC.frame {c : Cfg T P N} {s s' : St T P} (h : InvC c s) (f : Frame2 s s') : InvC c s' := by
  obtain ⟨l, hl, hq⟩ := f.log
  have hz := quiet_counts hq
  refine ⟨?_, ?_, ?_, ?_, ?_⟩
  · rw [hl, f.stamps, List.countP_append, List.countP_append, (hz fun _ => true).1,
      (hz fun _ => true).2.1, Nat.zero_add, Nat.zero_add]
    exact h.total
  · rw [f.active, f.live, f.stamps]; exact h.active
  · rw [f.stamps]; exact h.bound
  · intro p
    rw [hl, f.stamps, f.live, List.countP_append, List.countP_append, (hz p).2.2.1, (hz p).2.2.2,
      Nat.zero_add, Nat.zero_add]
    exact h.part p
  · rw [f.stamps, f.live]; exact h.names

/-- Fields that the invariants of tasks in flight do not depend on. -/
theorem Good.frame {c : Cfg T P N} {s s' : St T P} (h : Good c s) (f : Frame2 s s')
    (hi : Inv c s') : Good c s' :=
  ⟨hi, h.invS.frame f, fun ha => (h.invC ha).frame f⟩

theorem good_failOutright {c : Cfg T P N} (ok : c.Ok) (env : Env T) {t : T} {s : St T P}
    (h : Good c s) (hS : t ∈ c.setscene) (hr : t ∉ s.sqRunning) (hd : ∀ e ∈ s.deferred, e.1 ≠ t) :
    Good c (failOutright c env t s) :=
  h.frame (frame_failOutright c env t s) (inv_failOutright ok env h.inv.toInv0 hS hr hd)

theorem good_sqSkip {c : Cfg T P N} (ok : c.Ok) (env : Env T) {t : T} {s : St T P} {e : Ev T}
    (h : Good c s) (hS : t ∈ c.setscene) (hn : t ∉ s.scNot) (hl : t ∉ s.live)
    (he : e = .spresent t ∨ e = .snoexec t ∨
      (e = .sunneeded t ∧ t ∉ c.sc.unskippable ∧ t ∉ c.targets ∧
        ∀ a ∈ c.sc.revdeps t, a ∈ s.scCovered)) :
    Good c (sqSkip c env e t s) := by
  refine h.frame (frame_sqSkip c env ⟨t, ?_⟩ t s) (inv_sqSkip ok env h.inv.toInv0 hS hn hl he)
  rcases he with he | he | ⟨he, _⟩
  · exact Or.inr (Or.inl he)
  · exact Or.inr (Or.inr (Or.inl he))
  · exact Or.inr (Or.inr (Or.inr he))

theorem good_updateHoldoff {c : Cfg T P N} {s : St T P} (h : Good c s) :
    Good c (updateHoldoff c s) ∧ HoldOk c (updateHoldoff c s) :=
  ⟨h.frame (frame_updateHoldoff c s) (inv_updateHoldoff h.inv).1, (inv_updateHoldoff h.inv).2⟩

/-- A task becomes complete: `s` is the state after the event was recorded. -/
theorem good_completeOutright {c : Cfg T P N} (ok : c.Ok) (env : Env T) {s : St T P} (h : Good c s)
    {t : T} (ht : .done t ∈ s.log ∨ .noexec t ∈ s.log ∨ .existing t ∈ s.log ∨ .covered t ∈ s.log)
    (hk : t ∉ s.stamps.map Prod.fst) : Good c (completeOutright c env t s) := by
  have h1 : InvS c { s with complete := union s.complete [t] } := by
    refine ⟨h.invS.nodup, ?_, h.invS.liveKey, h.invS.liveNodup, h.invS.runDec, h.invS.op,
      h.invS.runNodup, ?_, h.invS.excl⟩
    · intro e he
      rcases h.invS.key e he with hh | ⟨h1, h2, h3, h4, h5⟩
      · exact Or.inl hh
      · refine Or.inr ⟨h1, h2, h3, fun hc => ?_, h5⟩
        rcases mem_union.1 hc with hc | hc
        · exact h4 hc
        · have : e.1 = t := by simpa using hc
          exact hk (this ▸ List.mem_map.2 ⟨e, he, rfl⟩)
    · intro x hx
      rcases mem_union.1 hx with hx | hx
      · exact h.invS.compRun x hx
      · have : x = t := by simpa using hx
        subst this; exact h.inv.crun x ht
  refine ⟨inv_completeOutright ok env h.inv ht, h1.frame (frame_completeOutright c env t s),
    fun ha => ?_⟩
  have h2 := h.invC ha
  have h3 : InvC c { s with complete := union s.complete [t] } :=
    ⟨h2.total, h2.active, h2.bound, h2.part, h2.names⟩
  exact h3.frame (frame_completeOutright c env t s)

theorem good_mode {c : Cfg T P N} {s : St T P} (h : Good c s) (m : Mode) :
    Good c { s with mode := m } :=
  ⟨inv_mode h.inv m, ⟨h.invS.nodup, h.invS.key, h.invS.liveKey, h.invS.liveNodup, h.invS.runDec,
    h.invS.op, h.invS.runNodup, h.invS.compRun, h.invS.excl⟩, fun ha => ⟨(h.invC ha).total, (h.invC ha).active,
    (h.invC ha).bound, (h.invC ha).part, (h.invC ha).names⟩⟩

theorem good_sqdone {c : Cfg T P N} {s : St T P} (h : Good c s) (q : Bool) :
    Good c { s with sqdone := q } :=
  ⟨h.inv.other s.active s.stamps s.failed s.sqBuildable s.outright s.hardNeeded s.hardDeferred q
      s.mode s.deferred (keep _),
    ⟨h.invS.nodup, h.invS.key, h.invS.liveKey, h.invS.liveNodup, h.invS.runDec,
    h.invS.op, h.invS.runNodup, h.invS.compRun, h.invS.excl⟩, fun ha => ⟨(h.invC ha).total, (h.invC ha).active,
    (h.invC ha).bound, (h.invC ha).part, (h.invC ha).names⟩⟩

/-- Entries of `sq_deferred` and of the tables of hard dependencies change. -/
theorem good_tables {c : Cfg T P N} {s : St T P} (h : Good c s) (b o hn hd : List T)
    (D : List (T × T)) (hD : ∀ e ∈ D, e ∈ s.deferred) :
    Good c { s with sqBuildable := b, outright := o, hardNeeded := hn, hardDeferred := hd,
                    deferred := D } :=
  ⟨h.inv.other s.active s.stamps s.failed b o hn hd s.sqdone s.mode D fun e he => ⟨e, hD e he, rfl⟩,
    ⟨h.invS.nodup, h.invS.key, h.invS.liveKey, h.invS.liveNodup, h.invS.runDec,
    h.invS.op, h.invS.runNodup, h.invS.compRun, h.invS.excl⟩, fun ha => ⟨(h.invC ha).total, (h.invC ha).active,
    (h.invC ha).bound, (h.invC ha).part, (h.invC ha).names⟩⟩

/-! ### Tasks that are not given to a worker -/

/-- A task is taken as running without a worker. -/
theorem good_quietRun {c : Cfg T P N} {s : St T P} (h : Good c s) {t : T} (e : Ev T)
    (hr : t ∉ s.running) (hdec : t ∈ c.setscene → t ∈ s.scCovered ∨ t ∈ s.scNot)
    (he : e = .noexec t ∨ e = .existing t ∨ (e = .covered t ∧ CovOk c s t)) :
    Good c { s with running := union s.running [t], log := e :: s.log } := by
  have hl : t ∉ s.live := by
    intro hl
    obtain ⟨_, h1, h2, h3, _⟩ := h.inv.live t hl
    rcases hdec h3 with hh | hh
    · exact h1 hh
    · exact h2 hh
  have hne : ∀ x, e ≠ .start x := by
    intro x; rcases he with rfl | rfl | ⟨rfl, _⟩ <;> exact fun hh => (by cases hh)
  have hc : isBegin e = false ∧ isEnd e = false ∧ ∀ p, begins p e = false ∧ ends p e = false := by
    rcases he with rfl | rfl | ⟨rfl, _⟩ <;> simp [isBegin, isEnd, begins, ends]
  refine ⟨inv_event h.inv (t := t) e _ (fun x hx => mem_union.2 (Or.inl hx))
    (mem_union.2 (Or.inr (by simp))) ?_, ?_, fun ha => ?_⟩
  · rcases he with he | he | he
    · exact Or.inr (Or.inl he)
    · exact Or.inr (Or.inr (Or.inl he))
    · exact Or.inr (Or.inr (Or.inr (Or.inl he)))
  · refine ⟨h.invS.nodup, ?_, h.invS.liveKey, h.invS.liveNodup, ?_, ?_, ?_, ?_, h.invS.excl⟩
    · intro e' he'
      rcases h.invS.key e' he' with ⟨h1, h2, h3⟩ | ⟨h1, h2, h3, h4, h5⟩
      · refine Or.inl ⟨h1, fun hh => ?_, h3⟩
        rcases mem_union.1 hh with hh | hh
        · exact h2 hh
        · have : e'.1 = t := by simpa using hh
          exact hl (this ▸ h1)
      · exact Or.inr ⟨h1, mem_union.2 (Or.inl h2), List.mem_cons_of_mem _ h3, h4, h5⟩
    · intro x hx hS
      rcases mem_union.1 hx with hx | hx
      · exact h.invS.runDec x hx hS
      · have : x = t := by simpa using hx
        subst this; exact hdec hS
    · intro post x pre heq h1 h2
      obtain ⟨post', e1, e2⟩ := split_quiet (l := [e]) (by simpa using hne) heq
      refine h.invS.op post' x pre e2 (fun hh => h1 ?_) (fun hh => h2 ?_)
      · rw [e1]; exact List.mem_append_right _ hh
      · rw [e1]; exact List.mem_append_right _ hh
    · unfold union
      rw [List.filter_eq_self.2 (by simpa using hr)]
      refine List.nodup_append.2 ⟨h.invS.runNodup, by simp, ?_⟩
      intro a ha b hb hab
      have : b = t := by simpa using hb
      subst this; subst hab; exact hr ha
    · exact fun x hx => mem_union.2 (Or.inl (h.invS.compRun x hx))
  · have h2 := h.invC ha
    refine ⟨?_, h2.active, h2.bound, ?_, h2.names⟩
    · show List.countP isBegin (e :: s.log) = List.countP isEnd (e :: s.log) + _
      rw [List.countP_cons_of_neg (by simp [hc.1]), List.countP_cons_of_neg (by simp [hc.2.1])]
      exact h2.total
    · intro p
      show List.countP (begins p) (e :: s.log) = List.countP (ends p) (e :: s.log) + _
      rw [List.countP_cons_of_neg (by simp [(hc.2.2 p).1]),
        List.countP_cons_of_neg (by simp [(hc.2.2 p).2])]
      exact h2.part p

theorem good_active {c : Cfg T P N} {s : St T P} (h : Good c s) {a : Int} (ha : a = s.active) :
    Good c { s with active := a } := by
  subst ha; exact h

/-! ### A task is given to a worker -/

theorem countP_snoc {α : Type} (p : α → Bool) (l : List α) (x : α) :
    (l ++ [x]).countP p = l.countP p + if p x then 1 else 0 := by
  rw [List.countP_append]; simp [List.countP_cons]

theorem inflight_le {c : Cfg T P N} {s : St T P} (h : InvS c s) (n : N) :
    (s.stamps.countP fun e => e.1 ∉ s.live && c.name e.1 = n) ≤ sameName c s n := by
  unfold sameName
  rw [List.countP_eq_length_filter, ← List.length_map (f := Prod.fst)]
  refine nodup_length_le ?_ ?_
  · exact (List.filter_sublist.map _).nodup h.nodup
  · intro x hx
    obtain ⟨e, he, rfl⟩ := List.mem_map.1 hx
    obtain ⟨h1, h2⟩ := List.mem_filter.1 he
    simp only [Bool.and_eq_true, decide_eq_true_eq] at h2
    rcases h.key e h1 with ⟨hh, _⟩ | ⟨_, h4, _, h5, _⟩
    · exact absurd hh h2.1
    · exact List.mem_filter.2 ⟨h4, by
        simp only [Bool.and_eq_true, decide_eq_true_eq]; exact ⟨h5, h2.2⟩⟩

/-- A task that the scheduler proposes is given to a worker. -/
theorem good_start {c : Cfg T P N} (ok : c.Ok) {s : St T P} (h : Good c s) (hk : HoldOk c s) {t : T}
    (hn : NextOk c s t) (hc : t ∉ s.covered) :
    Good c { s with
      stamps := s.stamps ++ [(t, c.stamp t)], running := union s.running [t]
      active := s.active + 1, log := .start t :: s.log } := by
  have hnc : t ∈ s.notcovered := hn.cov.resolve_left hc
  have hsn := notcovered_scene ok h.inv.toInv0 hk hnc
  have hdeps := deps_produced ok h.inv.toInv0 hk hc hnc (h.inv.bld t (Or.inr hn.sched)) hsn
  have hl : t ∉ s.live := by
    intro hl
    obtain ⟨_, _, h2, h3, _⟩ := h.inv.live t hl
    exact h2 (hsn h3)
  have htk : t ∉ s.stamps.map Prod.fst := by
    intro hh
    obtain ⟨e, he, rfl⟩ := List.mem_map.1 hh
    rcases h.invS.key e he with hh | hh
    · exact hl hh.1
    · exact hn.running hh.2.1
  have hcomp : t ∉ s.complete := fun hh => hn.running (h.invS.compRun t hh)
  have hi := h.inv
  have hev : ∀ e : Ev T, e ∈ s.log → e ∈ Ev.start t :: s.log := fun e he => List.mem_cons_of_mem _ he
  refine ⟨?_, ?_, fun ha => ?_⟩
  · exact {
      bld := hi.bld
      comp := fun x hx => by
        rcases hi.comp x hx with hh | hh | hh | hh
        · exact Or.inl (hev _ hh)
        · exact Or.inr (Or.inl (hev _ hh))
        · exact Or.inr (Or.inr (Or.inl (hev _ hh)))
        · exact Or.inr (Or.inr (Or.inr (hev _ hh)))
      cov := fun d hd => hi.cov d (by simpa using hd)
      sc := fun x hx => by
        rcases hi.sc x hx with hh | hh | hh | hh
        · exact Or.inl (hev _ hh)
        · exact Or.inr (Or.inl (hev _ hh))
        · exact Or.inr (Or.inr (Or.inl (hev _ hh)))
        · exact Or.inr (Or.inr (Or.inr (hev _ hh)))
      unn := fun d hd => hi.unn d (by simpa using hd)
      disj := hi.disj
      dec := hi.dec
      live := hi.live
      defr := hi.defr
      ord := by
        intro post x pre heq
        cases post with
        | nil =>
          rw [List.nil_append] at heq
          obtain ⟨h1, h2⟩ := List.cons.inj heq
          cases h1
          change s.log = pre at h2
          subst h2
          refine ⟨hdeps, fun hh => hn.running (hi.ran t hh).1, ?_, ?_, ?_, ?_⟩ <;>
          · intro hh
            refine hn.running (hi.crun t ?_)
            simp [hh]
        | cons a post => exact hi.ord post x pre (List.cons.inj heq).2
      ran := by
        intro x hx
        rcases List.mem_cons.1 hx with hx | hx
        · cases hx
          exact ⟨mem_union.2 (Or.inr (by simp)), hsn⟩
        · exact ⟨mem_union.2 (Or.inl (hi.ran x hx).1), (hi.ran x hx).2⟩
      crun := fun x hx => mem_union.2 (Or.inl (hi.crun x (by simpa using hx)))
      rest := fun x hx => hi.rest x (by simpa using hx)
      hold := fun hn => ⟨(hi.hold hn).covered, (hi.hold hn).notcovered, (hi.hold hn).holdoff⟩ }
  · refine ⟨?_, ?_, ?_, h.invS.liveNodup, ?_, ?_, ?_, ?_, ?_⟩
    · show ((s.stamps ++ [(t, c.stamp t)]).map Prod.fst).Nodup
      rw [List.map_append]
      refine List.nodup_append.2 ⟨h.invS.nodup, by simp, ?_⟩
      intro a ha b hb hab
      have : b = t := by simpa using hb
      subst this; subst hab; exact htk ha
    · intro e he
      rcases List.mem_append.1 he with he | he
      · rcases h.invS.key e he with ⟨h1, h2, h3⟩ | ⟨h1, h2, h3, h4, h5⟩
        · refine Or.inl ⟨h1, fun hh => ?_, h3⟩
          rcases mem_union.1 hh with hh | hh
          · exact h2 hh
          · have : e.1 = t := by simpa using hh
            exact hl (this ▸ h1)
        · exact Or.inr ⟨h1, mem_union.2 (Or.inl h2), hev _ h3, h4, h5⟩
      · have : e = (t, c.stamp t) := by simpa using he
        subst this
        exact Or.inr ⟨hl, mem_union.2 (Or.inr (by simp)), by simp, hcomp, rfl⟩
    · intro x hx
      show x ∈ (s.stamps ++ [(t, c.stamp t)]).map Prod.fst
      rw [List.map_append]
      exact List.mem_append_left _ (h.invS.liveKey x hx)
    · intro x hx hS
      rcases mem_union.1 hx with hx | hx
      · exact h.invS.runDec x hx hS
      · have : x = t := by simpa using hx
        subst this; exact Or.inr (hsn hS)
    · intro post x pre heq h1 h2
      cases post with
      | nil =>
        rw [List.nil_append] at heq
        obtain ⟨h1, h2⟩ := List.cons.inj heq
        cases h1
        exact List.mem_append_right _ (by simp)
      | cons a post =>
        exact List.mem_append_left _ (h.invS.op post x pre (List.cons.inj heq).2
          (fun hh => h1 (List.mem_cons_of_mem _ hh)) (fun hh => h2 (List.mem_cons_of_mem _ hh)))
    · show (union s.running [t]).Nodup
      unfold union
      rw [List.filter_eq_self.2 (by simpa using hn.running)]
      refine List.nodup_append.2 ⟨h.invS.runNodup, by simp, ?_⟩
      intro a ha b hb hab
      have : b = t := by simpa using hb
      subst this; subst hab; exact hn.running ha
    · exact fun x hx => mem_union.2 (Or.inl (h.invS.compRun x hx))
    · have hno : ∀ e ∈ s.stamps, e.2 ≠ c.stamp t := fun e he hx =>
        hn.stamp (List.mem_map.2 ⟨e, he, hx⟩)
      intro e he e' he' h1 h2 heq
      rcases List.mem_append.1 he with he | he <;> rcases List.mem_append.1 he' with he' | he'
      · exact h.invS.excl e he e' he' h1 h2 heq
      · have : e' = (t, c.stamp t) := by simpa using he'
        subst this; exact absurd heq (hno e he)
      · have : e = (t, c.stamp t) := by simpa using he
        subst this; exact absurd heq.symm (hno e' he')
      · have h3 : e = (t, c.stamp t) := by simpa using he
        have h4 : e' = (t, c.stamp t) := by simpa using he'
        rw [h3, h4]
  · have h2 := h.invC ha
    have hcan := hn.can
    unfold canStart at hcan
    have hcan' := of_decide_eq_true hcan
    have hact := h2.active
    refine ⟨?_, ?_, ?_, ?_, ?_⟩
    · show List.countP isBegin (Ev.start t :: s.log) = List.countP isEnd (Ev.start t :: s.log) +
        (s.stamps ++ [(t, c.stamp t)]).length
      rw [List.countP_cons_of_pos (by simp [isBegin]), List.countP_cons_of_neg (by simp [isEnd]),
        h2.total, List.length_append]
      simp only [List.length_cons, List.length_nil]
      omega
    · show s.active + 1 + (s.live.length : Int) = ((s.stamps ++ [(t, c.stamp t)]).length : Nat)
      rw [List.length_append]
      simp only [List.length_cons, List.length_nil]
      omega
    · show (s.stamps ++ [(t, c.stamp t)]).length ≤ _
      rw [List.length_append]
      simp only [List.length_cons, List.length_nil]
      omega
    · intro p
      show List.countP (begins p) (Ev.start t :: s.log) = List.countP (ends p) (Ev.start t :: s.log) +
        ((s.stamps ++ [(t, c.stamp t)]).countP fun e => e.1 ∉ s.live && p e.1)
      rw [countP_snoc, List.countP_cons_of_neg (p := ends p) (by simp [ends])]
      have := h2.part p
      by_cases hp : p t = true
      · rw [List.countP_cons_of_pos (by simp [begins, hp]), if_pos (by simp [hl, hp])]
        omega
      · rw [List.countP_cons_of_neg (by simp [begins, hp]), if_neg (by simp [hp])]
        omega
    · intro n k hnk
      show ((s.stamps ++ [(t, c.stamp t)]).countP fun e => e.1 ∉ s.live && c.name e.1 = n) ≤ _
      rw [countP_snoc]
      have h3 := h2.names n k hnk
      by_cases hname : c.name t = n
      · subst hname
        have h4 := inflight_le h.invS (c.name t)
        have hlim := hn.limit
        unfold limited at hlim
        rw [hnk] at hlim
        simp only [Bool.and_eq_false_iff, decide_eq_false_iff_not] at hlim
        rw [if_pos (by simp [hl])]
        rcases hlim with hlim | hlim <;> omega
      · rw [if_neg (by simp [hname])]
        omega

/-- A setscene task is given to a worker. -/
theorem good_sstart {c : Cfg T P N} (ok : c.Ok) {s : St T P} (h : Good c s) {t : T}
    (hS : t ∈ c.setscene) (hr : t ∉ s.sqRunning) (hcan : canStart c s = true)
    (hhard : ∀ x ∈ c.hardRev t, x ∈ s.scCovered ∨ x ∈ s.scNot) (hd : ∀ e ∈ s.deferred, e.1 ≠ t) :
    Good c { s with
      stamps := s.stamps ++ [(t, c.sstamp t)], sqRunning := union s.sqRunning [t]
      live := union s.live [t], log := .sstart t :: s.log } := by
  have hi := h.inv
  have h1 : t ∉ s.scCovered := fun hx => hr (hi.dec t (Or.inl hx)).1
  have h2 : t ∉ s.scNot := fun hx => hr (hi.dec t (Or.inr hx)).1
  have hl : t ∉ s.live := fun hx => hr (hi.live t hx).1
  have hrun : t ∉ s.running := fun hx => (h.invS.runDec t hx hS).elim h1 h2
  have htk : t ∉ s.stamps.map Prod.fst := by
    intro hh
    obtain ⟨e, he, rfl⟩ := List.mem_map.1 hh
    rcases h.invS.key e he with hh | hh
    · exact hl hh.1
    · exact hrun hh.2.1
  have hul : union s.live [t] = s.live ++ [t] := by
    unfold union
    rw [List.filter_eq_self.2 (by simpa using hl)]
  have hev : ∀ e : Ev T, e ∈ s.log → e ∈ Ev.sstart t :: s.log := fun e he =>
    List.mem_cons_of_mem _ he
  refine ⟨?_, ?_, fun ha => ?_⟩
  · exact {
      bld := hi.bld
      comp := fun x hx => by
        rcases hi.comp x hx with hh | hh | hh | hh
        · exact Or.inl (hev _ hh)
        · exact Or.inr (Or.inl (hev _ hh))
        · exact Or.inr (Or.inr (Or.inl (hev _ hh)))
        · exact Or.inr (Or.inr (Or.inr (hev _ hh)))
      cov := fun d hd => hi.cov d (by simpa using hd)
      sc := fun x hx => by
        rcases hi.sc x hx with hh | hh | hh | hh
        · exact Or.inl (hev _ hh)
        · exact Or.inr (Or.inl (hev _ hh))
        · exact Or.inr (Or.inr (Or.inl (hev _ hh)))
        · exact Or.inr (Or.inr (Or.inr (hev _ hh)))
      unn := fun d hd => hi.unn d (by simpa using hd)
      disj := hi.disj
      dec := fun d hd => ⟨mem_union.2 (Or.inl (hi.dec d hd).1), (hi.dec d hd).2⟩
      live := by
        intro d hd
        rcases mem_union.1 hd with hd | hd
        · exact ⟨mem_union.2 (Or.inl (hi.live d hd).1), (hi.live d hd).2⟩
        · have : d = t := by simpa using hd
          subst this
          exact ⟨mem_union.2 (Or.inr (by simp)), h1, h2, hS, hhard⟩
      defr := by
        intro e he
        obtain ⟨a1, a2, a3⟩ := hi.defr e he
        refine ⟨a1, fun hh => ?_, a3⟩
        rcases mem_union.1 hh with hh | hh
        · exact a2 hh
        · exact hd e he (by simpa using hh)
      ord := ord_cons (fun x => fun hh => (by cases hh)) hi.ord
      ran := fun x hx => hi.ran x (by simpa using hx)
      crun := fun x hx => hi.crun x (by simpa using hx)
      rest := fun x hx => hi.rest x (by simpa using hx)
      hold := fun hn => ⟨(hi.hold hn).covered, (hi.hold hn).notcovered, (hi.hold hn).holdoff⟩ }
  · refine ⟨?_, ?_, ?_, ?_, h.invS.runDec, ?_, h.invS.runNodup, h.invS.compRun,
      fun e he e' he' h3 h4 => ?_⟩
    · show ((s.stamps ++ [(t, c.sstamp t)]).map Prod.fst).Nodup
      rw [List.map_append]
      refine List.nodup_append.2 ⟨h.invS.nodup, by simp, ?_⟩
      intro a ha b hb hab
      have : b = t := by simpa using hb
      subst this; subst hab; exact htk ha
    · intro e he
      rcases List.mem_append.1 he with he | he
      · rcases h.invS.key e he with ⟨h1, h2, h3⟩ | ⟨h1, h2, h3, h4, h5⟩
        · exact Or.inl ⟨mem_union.2 (Or.inl h1), h2, h3⟩
        · refine Or.inr ⟨fun hh => ?_, h2, hev _ h3, h4, h5⟩
          rcases mem_union.1 hh with hh | hh
          · exact h1 hh
          · have : e.1 = t := by simpa using hh
            exact hrun (this ▸ h2)
      · have : e = (t, c.sstamp t) := by simpa using he
        subst this
        exact Or.inl ⟨mem_union.2 (Or.inr (by simp)), hrun, rfl⟩
    · intro x hx
      show x ∈ (s.stamps ++ [(t, c.sstamp t)]).map Prod.fst
      rw [List.map_append]
      rcases mem_union.1 hx with hx | hx
      · exact List.mem_append_left _ (h.invS.liveKey x hx)
      · have : x = t := by simpa using hx
        subst this
        exact List.mem_append_right _ (by simp)
    · show (union s.live [t]).Nodup
      rw [hul]
      refine List.nodup_append.2 ⟨h.invS.liveNodup, by simp, ?_⟩
      intro a ha b hb hab
      have : b = t := by simpa using hb
      subst this; subst hab; exact hl ha
    · intro post x pre heq h1 h2
      obtain ⟨post', e1, e2⟩ := split_quiet (l := [Ev.sstart t]) (by simp) heq
      refine List.mem_append_left _ (h.invS.op post' x pre e2 (fun hh => h1 ?_) (fun hh => h2 ?_))
      · rw [e1]; exact List.mem_append_right _ hh
      · rw [e1]; exact List.mem_append_right _ hh
    · have old : ∀ e ∈ s.stamps ++ [(t, c.sstamp t)], e.1 ∉ union s.live [t] →
          e ∈ s.stamps ∧ e.1 ∉ s.live := by
        intro e he h3
        refine ⟨?_, fun hx => h3 (mem_union.2 (Or.inl hx))⟩
        rcases List.mem_append.1 he with he | he
        · exact he
        · have : e = (t, c.sstamp t) := by simpa using he
          subst this
          exact absurd (mem_union.2 (Or.inr (by simp))) h3
      obtain ⟨a1, a2⟩ := old e he h3
      obtain ⟨b1, b2⟩ := old e' he' h4
      exact h.invS.excl e a1 e' b1 a2 b2
  · have h2 := h.invC ha
    unfold canStart at hcan
    have hcan' := of_decide_eq_true hcan
    have hact := h2.active
    have hcongr : ∀ q : T × P → Bool, (s.stamps.countP fun e => e.1 ∉ union s.live [t] && q e) =
        s.stamps.countP fun e => e.1 ∉ s.live && q e := by
      intro q
      refine List.countP_congr fun e he => ?_
      have hne : e.1 ≠ t := fun hh => htk (hh ▸ List.mem_map.2 ⟨e, he, rfl⟩)
      simp only [Bool.and_eq_true, decide_eq_true_eq, mem_union, List.mem_singleton]
      simp [hne]
    refine ⟨?_, ?_, ?_, ?_, ?_⟩
    · show List.countP isBegin (Ev.sstart t :: s.log) = List.countP isEnd (Ev.sstart t :: s.log) +
        (s.stamps ++ [(t, c.sstamp t)]).length
      rw [List.countP_cons_of_pos (by simp [isBegin]), List.countP_cons_of_neg (by simp [isEnd]),
        h2.total, List.length_append]
      simp only [List.length_cons, List.length_nil]
      omega
    · show s.active + ((union s.live [t]).length : Nat) = ((s.stamps ++ [(t, c.sstamp t)]).length : Nat)
      rw [hul, List.length_append, List.length_append]
      simp only [List.length_cons, List.length_nil]
      omega
    · show (s.stamps ++ [(t, c.sstamp t)]).length ≤ _
      rw [List.length_append]
      simp only [List.length_cons, List.length_nil]
      omega
    · intro p
      show List.countP (begins p) (Ev.sstart t :: s.log) = List.countP (ends p) (Ev.sstart t :: s.log) +
        (s.stamps ++ [(t, c.sstamp t)]).countP fun e => e.1 ∉ union s.live [t] && p e.1
      rw [countP_snoc, List.countP_cons_of_neg (p := ends p) (by simp [ends]),
        List.countP_cons_of_neg (by simp [begins]), hcongr (fun e => p e.1),
        if_neg (by simp [mem_union])]
      exact h2.part p
    · intro n k hnk
      show ((s.stamps ++ [(t, c.sstamp t)]).countP fun e =>
        e.1 ∉ union s.live [t] && c.name e.1 = n) ≤ _
      rw [countP_snoc, hcongr (fun e => c.name e.1 = n), if_neg (by simp [mem_union])]
      exact h2.names n k hnk

end Bb.Rq
