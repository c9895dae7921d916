import Verif.Bb.RqExecSpec
import Verif.Bb.RqSceneProps
/-!
# Lemmas about the execution of tasks: the invariant
-/

namespace Bb.Rq
open Spec

set_option linter.unusedSectionVars false

variable {T P N : Type} [DecidableEq T] [DecidableEq P] [DecidableEq N]

/-- What the build relies on: the graph is well formed, the setscene tasks are tasks, the graph of
setscene tasks is the one that `build_scenequeue_data` computes, the two tables of hard dependencies
fit, and setscene tasks that are deferred have no hard dependencies. -/
structure Cfg.Ok (c : Cfg T P N) : Prop where
  graph : c.g.Ok
  sub : ∀ s ∈ c.setscene, s ∈ c.g.tasks
  scene : scene c.g c.setscene c.targets = some c.sc
  hard : ∀ t, ∀ d ∈ c.hard t, d ∈ c.setscene ∧ t ∈ c.hardRev d
  deferred : ∀ e ∈ c.deferred, e.1 ∈ c.setscene ∧ c.hardRev e.1 = []

/-- The facts about the graph of setscene tasks that are used. -/
structure Closed (c : Cfg T P N) : Prop where
  covNot : ∀ s ∈ c.setscene, ∀ x ∈ c.sc.cov s, x ∉ c.setscene
  covFirst : ∀ s ∈ c.setscene, ∀ d ∈ c.g.deps s, d ∉ c.setscene → d ∈ c.sc.cov s
  covFlow : ∀ s ∈ c.setscene, ∀ x ∈ c.sc.cov s, ∀ d ∈ c.g.deps x, d ∉ c.setscene → d ∈ c.sc.cov s
  revFirst : ∀ s ∈ c.setscene, ∀ d ∈ c.g.deps s, d ∈ c.setscene → s ∈ c.sc.revdeps d
  revFlow : ∀ s ∈ c.setscene, ∀ x ∈ c.sc.cov s, ∀ d ∈ c.g.deps x, d ∈ c.setscene →
    s ∈ c.sc.revdeps d
  unskip : ∀ x ∈ c.sc.unskippable, x ∉ c.setscene → ∀ d ∈ c.g.deps x, d ∈ c.sc.unskippable
  cant : ∀ x ∈ c.sc.cantskip, x ∉ c.setscene ∧ x ∈ c.sc.unskippable
  target : ∀ x ∈ c.targets, x ∉ c.setscene → x ∈ c.g.tasks → x ∈ c.sc.unskippable

theorem Cfg.Ok.closed {c : Cfg T P N} (ok : c.Ok) : Closed c := by
  have hc := fun s hs x => cov_exact ok.graph ok.sub ok.scene (s := s) hs x
  have hr := fun d hd s => revdeps_exact ok.graph ok.sub ok.scene (d := d) hd s
  have hu := fun x => unskippable_exact ok.graph ok.scene x
  have hcs : c.sc.cantskip = cantskip c.g c.setscene c.targets := by
    obtain ⟨_, h⟩ := scene_some ok.scene
    rw [h]
  exact {
    covNot := fun s hs x hx => ((hc s hs x).1 hx).1
    covFirst := fun s hs d hd hd' => (hc s hs d).2 ⟨hd', .one hd⟩
    covFlow := fun s hs x hx d hd hd' =>
      (hc s hs d).2 ⟨hd', .more ((hc s hs x).1 hx).2 ((hc s hs x).1 hx).1 hd⟩
    revFirst := fun s hs d hd hd' => (hr d hd' s).2 ⟨hs, .one hd⟩
    revFlow := fun s hs x hx d hd hd' =>
      (hr d hd' s).2 ⟨hs, .more ((hc s hs x).1 hx).2 ((hc s hs x).1 hx).1 hd⟩
    unskip := by
      intro x hx hxS d hd
      obtain ⟨r, hr, hh⟩ := (hu x).1 hx
      refine (hu d).2 ⟨r, hr, Or.inr ?_⟩
      rcases hh with rfl | ⟨h1, h2⟩
      · exact ⟨hxS, .one hd⟩
      · exact ⟨h1, .more h2 hxS hd⟩
    cant := by
      intro x hx
      rw [hcs] at hx
      unfold cantskip at hx
      have hx' := List.mem_filter.1 hx
      have h2 := of_decide_eq_true hx'.2
      exact ⟨h2.1, (hu x).2 ⟨x, ⟨h2.2, Or.inr ⟨hx'.1, h2.1⟩⟩, Or.inl rfl⟩⟩
    target := fun x hx hxS hxt => (hu x).2 ⟨x, ⟨hxt, Or.inr ⟨hx, hxS⟩⟩, Or.inl rfl⟩ }

/-! ### The invariant -/

/-- Task `d` may be skipped as covered: it was restored, or all that need it were. -/
def CovOk (c : Cfg T P N) (s : St T P) (d : T) : Prop :=
  (d ∈ c.setscene → d ∈ s.scCovered) ∧
  (d ∉ c.setscene → d ∉ c.sc.unskippable ∧
    ∀ a ∈ c.setscene, d ∈ c.sc.cov a → a ∈ s.scCovered)

/-- The claim about a moment at which task `t` is started. -/
structure StartOk (c : Cfg T P N) (pre : List (Ev T)) (t : T) : Prop where
  deps : ∀ d ∈ c.g.deps t, Produced pre d
  once : .start t ∉ pre
  fresh : .done t ∉ pre ∧ .noexec t ∉ pre ∧ .existing t ∉ pre ∧ .covered t ∉ pre

/-- `tasks_covered`, `tasks_notcovered` and `holdoff_tasks` are up to date. -/
structure HoldOk (c : Cfg T P N) (s : St T P) : Prop where
  covered : s.covered = newCovered c s
  notcovered : s.notcovered = newNotcovered c s
  holdoff : ∀ a ∈ c.setscene, a ∉ s.scCovered → a ∉ s.scNot →
    a ∈ s.holdoff ∧ ∀ d ∈ c.sc.cov a, d ∉ s.complete → d ∈ s.holdoff

/-- The invariant, except for `HoldOk`. -/
structure Inv0 (c : Cfg T P N) (s : St T P) : Prop where
  bld : ∀ t, t ∈ s.buildable ∨ t ∈ s.sched → ∀ d ∈ c.g.deps t, d ∈ s.complete
  comp : ∀ t ∈ s.complete, .done t ∈ s.log ∨ .noexec t ∈ s.log ∨ .existing t ∈ s.log ∨
    .covered t ∈ s.log
  cov : ∀ d, .covered d ∈ s.log → CovOk c s d
  sc : ∀ d ∈ s.scCovered, .sdone d ∈ s.log ∨ .spresent d ∈ s.log ∨ .snoexec d ∈ s.log ∨
    .sunneeded d ∈ s.log
  unn : ∀ d, .sunneeded d ∈ s.log → d ∉ c.sc.unskippable ∧ d ∉ c.targets ∧
    ∀ a ∈ c.sc.revdeps d, a ∈ s.scCovered
  disj : ∀ d ∈ s.scCovered, d ∉ s.scNot
  dec : ∀ d, d ∈ s.scCovered ∨ d ∈ s.scNot → d ∈ s.sqRunning ∧ d ∈ c.setscene
  live : ∀ d ∈ s.live, d ∈ s.sqRunning ∧ d ∉ s.scCovered ∧ d ∉ s.scNot ∧ d ∈ c.setscene ∧
    ∀ h ∈ c.hardRev d, h ∈ s.scCovered ∨ h ∈ s.scNot
  defr : ∀ e ∈ s.deferred, e.1 ∈ c.setscene ∧ e.1 ∉ s.live ∧ e.1 ∉ s.scNot ∧ c.hardRev e.1 = []
  ord : ∀ post t pre, s.log = post ++ .start t :: pre → StartOk c pre t
  ran : ∀ t, .start t ∈ s.log → t ∈ s.running ∧ (t ∈ c.setscene → t ∈ s.scNot)
  crun : ∀ t, .done t ∈ s.log ∨ .noexec t ∈ s.log ∨ .existing t ∈ s.log ∨ .covered t ∈ s.log →
    t ∈ s.running
  rest : ∀ t, .sdone t ∈ s.log → t ∈ s.scCovered

/-- The invariant. -/
structure Inv (c : Cfg T P N) (s : St T P) : Prop extends Inv0 c s where
  hold : s.needUpdate = false → HoldOk c s

/-- What the functions for setscene tasks leave alone. -/
structure Frame (s s' : St T P) : Prop where
  buildable : s'.buildable = s.buildable
  sched : s'.sched = s.sched
  running : s'.running = s.running
  complete : s'.complete = s.complete
  failed : s'.failed = s.failed
  active : s'.active = s.active
  stamps : s'.stamps = s.stamps
  live : s'.live = s.live
  deferred : s'.deferred = s.deferred
  sqdone : s'.sqdone = s.sqdone
  mode : s'.mode = s.mode
  log : ∃ l, s'.log = l ++ s.log ∧ ∀ e ∈ l, ∃ t, e = .smissing t
  scCovered : s'.scCovered = s.scCovered
  scNot : ∀ x ∈ s.scNot, x ∈ s'.scNot
  sqRunning : ∀ x ∈ s.sqRunning, x ∈ s'.sqRunning
  hardNeeded : s'.hardNeeded = s.hardNeeded

theorem Frame.refl (s : St T P) : Frame s s :=
  ⟨rfl, rfl, rfl, rfl, rfl, rfl, rfl, rfl, rfl, rfl, rfl, ⟨[], rfl, by simp⟩, rfl, fun _ h => h,
    fun _ h => h, rfl⟩

theorem Frame.trans {a b d : St T P} (h : Frame a b) (h' : Frame b d) : Frame a d := by
  obtain ⟨l, hl, hl'⟩ := h.log
  obtain ⟨m, hm, hm'⟩ := h'.log
  refine ⟨h'.buildable.trans h.buildable, h'.sched.trans h.sched, h'.running.trans h.running,
    h'.complete.trans h.complete, h'.failed.trans h.failed, h'.active.trans h.active,
    h'.stamps.trans h.stamps, h'.live.trans h.live, h'.deferred.trans h.deferred,
    h'.sqdone.trans h.sqdone, h'.mode.trans h.mode, ⟨m ++ l, by rw [hm, hl, List.append_assoc], ?_⟩,
    h'.scCovered.trans h.scCovered, fun x hx => h'.scNot x (h.scNot x hx),
    fun x hx => h'.sqRunning x (h.sqRunning x hx), h'.hardNeeded.trans h.hardNeeded⟩
  intro e he
  rcases List.mem_append.1 he with he | he
  · exact hm' e he
  · exact hl' e he

/-- New events that are not starts. -/
theorem ord_cons {c : Cfg T P N} {log : List (Ev T)} {e : Ev T} (he : ∀ t, e ≠ .start t)
    (h : ∀ post t pre, log = post ++ .start t :: pre → StartOk c pre t) :
    ∀ post t pre, e :: log = post ++ .start t :: pre → StartOk c pre t := by
  intro post t pre heq
  cases post with
  | nil =>
    rw [List.nil_append] at heq
    exact absurd (List.cons.inj heq).1 (he t)
  | cons a post => exact h post t pre (List.cons.inj heq).2

theorem inv_finishCounters {c : Cfg T P N} {s : St T P} (h : Inv0 c s) (t : T) :
    Inv c (finishCounters c t s) where
  bld := h.bld
  comp := h.comp
  cov := h.cov
  sc := h.sc
  unn := h.unn
  disj := h.disj
  dec := h.dec
  live := h.live
  defr := h.defr
  ord := h.ord
  ran := h.ran
  crun := h.crun
  rest := h.rest
  hold := fun hn => absurd hn (by simp [finishCounters])

theorem frame_finishCounters (c : Cfg T P N) (s : St T P) (t : T) :
    Frame s (finishCounters c t s) :=
  ⟨rfl, rfl, rfl, rfl, rfl, rfl, rfl, rfl, rfl, rfl, rfl, ⟨[], rfl, by simp⟩, rfl, fun _ h => h,
    fun _ h => h, rfl⟩

theorem frame_markMissing (s : St T P) (t : T) : Frame s (markMissing t s) :=
  ⟨rfl, rfl, rfl, rfl, rfl, rfl, rfl, rfl, rfl, rfl, rfl, ⟨[.smissing t], rfl, by simp⟩, rfl,
    fun _ h => mem_union.2 (Or.inl h), fun _ h => mem_union.2 (Or.inl h), rfl⟩

/-- A setscene task that is not decided yet is entered as not restored; `e` is the event. -/
theorem inv0_not {c : Cfg T P N} {s : St T P} (h : Inv0 c s) {t : T} (hS : t ∈ c.setscene)
    (h1 : t ∉ s.scCovered) (h4 : ∀ e ∈ s.deferred, e.1 ≠ t)
    (e : Ev T) (he : e = .smissing t ∨ e = .sfail t) (r b : List T)
    (hr : ∀ x, x ∈ r ↔ x ∈ s.sqRunning ∨ x = t)
    (L : List T) (hL : ∀ x ∈ L, x ∈ s.live ∧ x ≠ t) :
    Inv0 c { s with sqRunning := r, sqBuildable := b, scNot := union s.scNot [t], log := e :: s.log,
                    live := L } where
  bld := h.bld
  comp x hx := by
    have := h.comp x hx
    simp only [List.mem_cons]
    rcases he with rfl | rfl <;> simp <;> exact this
  cov d hd := by
    have : Ev.covered d ∈ s.log := by
      rcases List.mem_cons.1 hd with hd | hd
      · rcases he with rfl | rfl <;> cases hd
      · exact hd
    exact h.cov d this
  sc d hd := by
    have := h.sc d hd
    simp only [List.mem_cons]
    rcases he with rfl | rfl <;> simp <;> exact this
  unn d hd := by
    have : Ev.sunneeded d ∈ s.log := by
      rcases List.mem_cons.1 hd with hd | hd
      · rcases he with rfl | rfl <;> cases hd
      · exact hd
    exact h.unn d this
  disj d hd hn := by
    rcases mem_union.1 hn with hn | hn
    · exact h.disj d hd hn
    · have : d = t := by simpa using hn
      subst this; exact h1 hd
  dec d hd := by
    rcases hd with hd | hd
    · have := h.dec d (Or.inl hd)
      exact ⟨(hr d).2 (Or.inl this.1), this.2⟩
    · rcases mem_union.1 hd with hd | hd
      · have := h.dec d (Or.inr hd)
        exact ⟨(hr d).2 (Or.inl this.1), this.2⟩
      · have : d = t := by simpa using hd
        subst this; exact ⟨(hr d).2 (Or.inr rfl), hS⟩
  live d hd := by
    obtain ⟨hd, hne⟩ := hL d hd
    obtain ⟨a1, a2, a3, a4, a5⟩ := h.live d hd
    refine ⟨(hr d).2 (Or.inl a1), a2, fun hn => ?_, a4, fun x hx => ?_⟩
    · rcases mem_union.1 hn with hn | hn
      · exact a3 hn
      · exact hne (by simpa using hn)
    · exact (a5 x hx).imp id fun hh => mem_union.2 (Or.inl hh)
  defr e' he' := by
    obtain ⟨a1, a2, a3, a4⟩ := h.defr e' he'
    refine ⟨a1, fun hl => a2 (hL _ hl).1, fun hn => ?_, a4⟩
    rcases mem_union.1 hn with hn | hn
    · exact a3 hn
    · exact h4 e' he' (by simpa using hn)
  ord := by
    refine ord_cons (fun x => ?_) h.ord
    rcases he with rfl | rfl <;> exact fun hh => (by cases hh)
  ran x hx := by
    have : Ev.start x ∈ s.log := by
      rcases List.mem_cons.1 hx with hd | hd
      · rcases he with rfl | rfl <;> cases hd
      · exact hd
    obtain ⟨a1, a2⟩ := h.ran x this
    exact ⟨a1, fun hh => mem_union.2 (Or.inl (a2 hh))⟩
  crun x hx := by
    refine h.crun x ?_
    simp only [List.mem_cons] at hx
    rcases he with rfl | rfl <;> simpa using hx
  rest x hx := by
    refine h.rest x ?_
    rcases List.mem_cons.1 hx with hd | hd
    · rcases he with rfl | rfl <;> cases hd
    · exact hd

/-- A setscene task is entered as restored; `e` tells how. -/
theorem inv0_covered {c : Cfg T P N} {s : St T P} (h : Inv0 c s) {t : T} (hS : t ∈ c.setscene)
    (h1 : t ∉ s.scNot) (e : Ev T)
    (he : e = .sdone t ∨ e = .spresent t ∨ e = .snoexec t ∨
      (e = .sunneeded t ∧ t ∉ c.sc.unskippable ∧ t ∉ c.targets ∧
        ∀ a ∈ c.sc.revdeps t, a ∈ s.scCovered))
    (r b : List T) (hr : ∀ x, x ∈ r ↔ x ∈ s.sqRunning ∨ x = t)
    (L : List T) (hL : ∀ x ∈ L, x ∈ s.live ∧ x ≠ t) :
    Inv0 c { s with sqRunning := r, sqBuildable := b, scCovered := union s.scCovered [t],
                    log := e :: s.log, live := L } where
  bld := h.bld
  comp x hx := by
    have := h.comp x hx
    simp only [List.mem_cons]
    rcases he with rfl | rfl | rfl | ⟨rfl, _⟩ <;> simp <;> exact this
  cov d hd := by
    have : Ev.covered d ∈ s.log := by
      rcases List.mem_cons.1 hd with hd | hd
      · rcases he with rfl | rfl | rfl | ⟨rfl, _⟩ <;> cases hd
      · exact hd
    obtain ⟨a1, a2⟩ := h.cov d this
    exact ⟨fun hh => mem_union.2 (Or.inl (a1 hh)), fun hh => ⟨(a2 hh).1, fun a ha hda =>
      mem_union.2 (Or.inl ((a2 hh).2 a ha hda))⟩⟩
  sc d hd := by
    rcases mem_union.1 hd with hd | hd
    · have := h.sc d hd
      simp only [List.mem_cons]
      rcases this with hh | hh | hh | hh <;> simp [hh]
    · have : d = t := by simpa using hd
      subst this
      simp only [List.mem_cons]
      rcases he with rfl | rfl | rfl | ⟨rfl, _⟩ <;> simp
  unn d hd := by
    rcases List.mem_cons.1 hd with hd | hd
    · rcases he with rfl | rfl | rfl | ⟨rfl, h5, h6, h7⟩
      · cases hd
      · cases hd
      · cases hd
      · cases hd
        exact ⟨h5, h6, fun a ha => mem_union.2 (Or.inl (h7 a ha))⟩
    · obtain ⟨a1, a2, a3⟩ := h.unn d hd
      exact ⟨a1, a2, fun a ha => mem_union.2 (Or.inl (a3 a ha))⟩
  disj d hd hn := by
    rcases mem_union.1 hd with hd | hd
    · exact h.disj d hd hn
    · have : d = t := by simpa using hd
      subst this; exact h1 hn
  dec d hd := by
    rcases hd with hd | hd
    · rcases mem_union.1 hd with hd | hd
      · have := h.dec d (Or.inl hd)
        exact ⟨(hr d).2 (Or.inl this.1), this.2⟩
      · have : d = t := by simpa using hd
        subst this; exact ⟨(hr d).2 (Or.inr rfl), hS⟩
    · have := h.dec d (Or.inr hd)
      exact ⟨(hr d).2 (Or.inl this.1), this.2⟩
  live d hd := by
    obtain ⟨hd, hne⟩ := hL d hd
    obtain ⟨a1, a2, a3, a4, a5⟩ := h.live d hd
    refine ⟨(hr d).2 (Or.inl a1), fun hn => ?_, a3, a4, fun x hx => ?_⟩
    · rcases mem_union.1 hn with hn | hn
      · exact a2 hn
      · exact hne (by simpa using hn)
    · exact (a5 x hx).imp (fun hh => mem_union.2 (Or.inl hh)) id
  defr e' he' := by
    obtain ⟨a1, a2, a3, a4⟩ := h.defr e' he'
    exact ⟨a1, fun hl => a2 (hL _ hl).1, a3, a4⟩
  ord := by
    refine ord_cons (fun x => ?_) h.ord
    rcases he with rfl | rfl | rfl | ⟨rfl, _⟩ <;> exact fun hh => (by cases hh)
  ran x hx := by
    have : Ev.start x ∈ s.log := by
      rcases List.mem_cons.1 hx with hd | hd
      · rcases he with rfl | rfl | rfl | ⟨rfl, _⟩ <;> cases hd
      · exact hd
    exact h.ran x this
  crun x hx := by
    refine h.crun x ?_
    simp only [List.mem_cons] at hx
    rcases he with rfl | rfl | rfl | ⟨rfl, _⟩ <;> simpa using hx
  rest x hx := by
    rcases List.mem_cons.1 hx with hd | hd
    · rcases he with rfl | rfl | rfl | ⟨rfl, _⟩
      · cases hd; exact mem_union.2 (Or.inr (by simp))
      all_goals cases hd
    · exact mem_union.2 (Or.inl (h.rest x hd))

/-! ### `scenequeue_updatecounters` -/

theorem updateCounters_frame (c : Cfg T P N) (env : Env T) : ∀ (fuel : Nat) (t : T) (fail : Bool)
    (s : St T P), Frame s (updateCounters c env fuel t fail s)
  | 0, t, fail, s => by unfold updateCounters; exact frame_finishCounters c s t
  | fuel + 1, t, fail, s => by
    unfold updateCounters
    cases fail with
    | false => exact frame_finishCounters c s t
    | true =>
      rw [if_pos rfl]
      refine Frame.trans ?_ (frame_finishCounters c _ t)
      generalize c.hard t = l
      induction l generalizing s with
      | nil => exact Frame.refl s
      | cons d l ih =>
        rw [List.foldl_cons]
        refine Frame.trans ?_ (ih _)
        by_cases hc : d ∈ s.scCovered ∨ d ∈ s.scNot ∨ present c env d = true
        · rw [if_pos hc]; exact Frame.refl s
        · rw [if_neg hc]
          exact (frame_markMissing s d).trans (updateCounters_frame c env fuel d true _)

theorem updateCounters_needUpdate (c : Cfg T P N) (env : Env T) (fuel : Nat) (t : T) (fail : Bool)
    (s : St T P) : (updateCounters c env fuel t fail s).needUpdate = true := by
  cases fuel <;> rfl

theorem inv_updateCounters {c : Cfg T P N} (ok : c.Ok) (env : Env T) : ∀ (fuel : Nat) (t : T)
    (fail : Bool) (s : St T P), Inv0 c s → (fail = true → ∀ d ∈ c.hard t, d ∉ s.live) →
    Inv c (updateCounters c env fuel t fail s)
  | 0, t, fail, s, h, _ => by unfold updateCounters; exact inv_finishCounters h t
  | fuel + 1, t, fail, s, h, hl => by
    unfold updateCounters
    cases fail with
    | false => exact inv_finishCounters h t
    | true =>
      rw [if_pos rfl]
      refine inv_finishCounters ?_ t
      have hl' := hl rfl
      have hh := ok.hard t
      clear hl
      revert hl' hh
      generalize c.hard t = l
      induction l generalizing s with
      | nil => exact fun _ _ => h
      | cons d l ih =>
        intro hl hh
        rw [List.foldl_cons]
        by_cases hc : d ∈ s.scCovered ∨ d ∈ s.scNot ∨ present c env d = true
        · rw [if_pos hc]
          exact ih s h (fun x hx => hl x (List.mem_cons_of_mem _ hx))
            (fun x hx => hh x (List.mem_cons_of_mem _ hx))
        · rw [if_neg hc]
          have hd := hl d (by simp)
          have hd2 := hh d (by simp)
          have h1 : d ∉ s.scCovered := fun hx => hc (Or.inl hx)
          have h2 : d ∉ s.scNot := fun hx => hc (Or.inr (Or.inl hx))
          have hm : Inv0 c (markMissing d s) := by
            refine inv0_not h hd2.1 h1 ?_ _ (Or.inl rfl) _ _ (fun x => ?_) s.live fun x hx => ⟨hx, ?_⟩
            · intro e he hde
              have := (h.defr e he).2.2.2
              rw [hde] at this
              have h9 := hd2.2
              rw [this] at h9
              cases h9
            · rw [mem_union]; simp
            · rintro rfl; exact hd hx
          have hu := inv_updateCounters ok env fuel d true _ hm (fun _ x hx hxl => by
            rcases (h.live x hxl).2.2.2.2 d (ok.hard d x hx).2 with hh | hh
            · exact h1 hh
            · exact h2 hh)
          have hfl : (updateCounters c env fuel d true (markMissing d s)).live = s.live :=
            (updateCounters_frame c env fuel d true _).live
          refine ih _ hu.toInv0 (fun x hx => ?_) (fun x hx => hh x (List.mem_cons_of_mem _ hx))
          rw [hfl]
          exact hl x (List.mem_cons_of_mem _ hx)

theorem inv_failOutright {c : Cfg T P N} (ok : c.Ok) (env : Env T) {t : T} {s : St T P}
    (h : Inv0 c s) (hS : t ∈ c.setscene) (hr : t ∉ s.sqRunning) (hd : ∀ e ∈ s.deferred, e.1 ≠ t) :
    Inv c (failOutright c env t s) := by
  have h1 : t ∉ s.scCovered := fun hx => hr (h.dec t (Or.inl hx)).1
  have h2 : t ∉ s.scNot := fun hx => hr (h.dec t (Or.inr hx)).1
  refine inv_updateCounters ok env _ t true _ ?_ ?_
  · refine inv0_not h hS h1 hd _ (Or.inl rfl) _ _ (fun x => ?_) s.live fun x hx => ⟨hx, ?_⟩
    · rw [mem_union]; simp
    · rintro rfl; exact hr (h.live x hx).1
  · intro _ x hx hxl
    rcases (h.live x hxl).2.2.2.2 t (ok.hard t x hx).2 with hh | hh
    · exact h1 hh
    · exact h2 hh

theorem inv_sqSkip {c : Cfg T P N} (ok : c.Ok) (env : Env T) {t : T} {s : St T P} {e : Ev T}
    (h : Inv0 c s) (hS : t ∈ c.setscene) (hn : t ∉ s.scNot) (hl : t ∉ s.live)
    (he : e = .spresent t ∨ e = .snoexec t ∨
      (e = .sunneeded t ∧ t ∉ c.sc.unskippable ∧ t ∉ c.targets ∧
        ∀ a ∈ c.sc.revdeps t, a ∈ s.scCovered)) :
    Inv c (sqSkip c env e t s) := by
  refine inv_updateCounters ok env _ t false _ ?_ (fun hh => (by cases hh))
  refine inv0_covered h hS hn _ (Or.inr he) _ _ (fun x => ?_) s.live fun x hx => ⟨hx, ?_⟩
  · rw [mem_union]; simp
  · rintro rfl; exact hl hx

end Bb.Rq
