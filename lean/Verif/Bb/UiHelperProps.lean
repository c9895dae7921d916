import Verif.Bb.UiHelperModel
/-!
# Properties of what the user interface knows about running tasks
-/

namespace Bb.UiHelper

namespace Spec

/-- A running task. -/
structure Task where
  tid : Tid
  pid : Pid
  progress : Option Int
deriving DecidableEq

/-- The task that is meant by a process: the one that was started last. -/
def meant (l : List Task) (p : Pid) : Option Task := (l.filter (·.pid = p)).getLast?

/-- Which tasks run after an event. -/
def step (l : List Task) : Ev → List Task
  | .started t p => l ++ [⟨t, p, none⟩]
  | .ended t _ _ => l.filter (·.tid ≠ t)
  | .progress p v => l.map fun x => if (meant l p).map (·.tid) = some x.tid then { x with progress := some v } else x
  | .other => l

/-- What can happen: a task is not started while it runs, and it ends after it was started.  Of tasks with the same process, which there may be
since events of different workers come in any order, the first ends first. -/
def proper (l : List Task) : List Ev → Prop
  | [] => True
  | .started t p :: es => (∀ x ∈ l, x.tid ≠ t) ∧ p > 0 ∧ proper (step l (.started t p)) es
  | .ended t p k :: es => ((l.filter (·.pid = p)).head?.map (·.tid) = some t) ∧ proper (step l (.ended t p k)) es
  | e :: es => proper (step l e) es

/-- The tasks that failed. -/
def failures : List Ev → List Tid
  | [] => []
  | .ended t _ .failed :: es => t :: failures es
  | _ :: es => failures es

end Spec

open Spec

theorem dget_append {α β : Type} [DecidableEq α] (d : List (α × β)) (k k' : α) (v : β) (h : d.any (·.1 = k) = false) :
    dget (d ++ [(k, v)]) k' = if k' = k then some v else dget d k' := by
  induction d with
  | nil =>
    by_cases hk : k' = k
    · simp [dget, hk]
    · simp [dget, hk, Ne.symm hk]
  | cons e d ih =>
    simp only [List.any_cons, Bool.or_eq_false_iff, decide_eq_false_iff_not] at h
    have ih := ih h.2
    by_cases he : e.1 = k'
    · have : k' ≠ k := fun hk => h.1 (he.trans hk)
      simp [dget, he, this]
    · simp only [dget, List.cons_append, List.find?_cons, he, decide_false] at ih ⊢
      exact ih

theorem dget_map {α β : Type} [DecidableEq α] (d : List (α × β)) (k k' : α) (v : β) (h : d.any (·.1 = k) = true) :
    dget (d.map fun e => if e.1 = k then (k, v) else e) k' = if k' = k then some v else dget d k' := by
  induction d with
  | nil => simp at h
  | cons e d ih =>
    by_cases he : e.1 = k
    · by_cases hk : k' = k
      · simp [dget, he, hk]
      · have h1 : ¬ e.1 = k' := fun h => hk (h.symm.trans he)
        by_cases ha : d.any (·.1 = k) = true
        · have ih := ih ha
          simp only [dget, List.map_cons, he, if_true, List.find?_cons, Ne.symm hk, decide_false, h1, hk, if_false] at ih ⊢
          exact ih
        · have hid : d.map (fun e => if e.1 = k then (k, v) else e) = d := by
            conv => rhs; rw [← List.map_id d]
            apply List.map_congr_left
            intro x hx
            rw [if_neg]
            · rfl
            · intro hxk
              exact ha (List.any_eq_true.mpr ⟨x, hx, by simpa using hxk⟩)
          simp only [List.map_cons, hid, he, if_true]
          simp [dget, h1, hk, Ne.symm hk, he]
    · have ha : d.any (·.1 = k) = true := by simpa [he] using h
      have ih := ih ha
      by_cases hek : e.1 = k'
      · have : ¬ k' = k := fun h => he (hek.trans h)
        simp [dget, he, hek, this]
      · simp only [dget, List.map_cons, he, if_false, List.find?_cons, hek, decide_false] at ih ⊢
        exact ih

theorem dget_dset {α β : Type} [DecidableEq α] (d : List (α × β)) (k k' : α) (v : β) :
    dget (dset d k v) k' = if k' = k then some v else dget d k' := by
  unfold dset
  split
  · rename_i h; exact dget_map d k k' v h
  · rename_i h; exact dget_append d k k' v (by cases hb : d.any (·.1 = k) <;> simp_all)

theorem dget_filter {α β : Type} [DecidableEq α] (d : List (α × β)) (k k' : α) :
    dget (d.filter (·.1 ≠ k)) k' = if k' = k then none else dget d k' := by
  induction d with
  | nil => simp [dget]
  | cons e d ih =>
    by_cases he : e.1 = k
    · rw [List.filter_cons, if_neg (by simpa using he), ih]
      by_cases hk : k' = k
      · simp [hk]
      · have : ¬ e.1 = k' := fun h => hk (h.symm.trans he)
        simp [dget, hk, this]
    · rw [List.filter_cons, if_pos (by simpa using he)]
      by_cases hek : e.1 = k'
      · have : ¬ k' = k := fun h => he (hek.trans h)
        simp [dget, hek, this]
      · simp only [dget, List.find?_cons, hek, decide_false] at ih ⊢
        exact ih

/-- The helper knows the tasks that run. -/
structure R (l : List Task) (s : S) : Prop where
  running : s.running = l.map fun x => (x.tid, ⟨x.pid, x.progress⟩)
  pids : s.pids = l.map (·.tid)
  pidmap : ∀ p, dget s.pidmap p = (meant l p).map (·.tid)

theorem meant_mem {l : List Task} {p : Pid} {x : Task} (h : meant l p = some x) : x ∈ l ∧ x.pid = p := by
  have := List.mem_of_getLast? h
  simpa using this

theorem dget_running (l : List Task) (hn : (l.map (·.tid)).Nodup) (x : Task) (hx : x ∈ l) :
    dget (l.map fun x => (x.tid, (⟨x.pid, x.progress⟩ : Info))) x.tid = some ⟨x.pid, x.progress⟩ := by
  induction l with
  | nil => cases hx
  | cons y l ih =>
    simp only [List.map_cons, List.nodup_cons] at hn
    rcases List.mem_cons.mp hx with rfl | hx
    · simp [dget]
    · have : ¬ y.tid = x.tid := fun h => hn.1 (List.mem_map.mpr ⟨x, hx, h.symm⟩)
      have ih := ih hn.2 hx
      simp only [dget, List.map_cons, List.find?_cons, this, decide_false] at ih ⊢
      exact ih

theorem erase_eq_filter (l : List Task) (hn : (l.map (·.tid)).Nodup) (t : Tid) :
    (l.map (·.tid)).erase t = (l.filter (·.tid ≠ t)).map (·.tid) := by
  induction l with
  | nil => rfl
  | cons y l ih =>
    simp only [List.map_cons, List.nodup_cons] at hn
    by_cases h : y.tid = t
    · have h2 : l.filter (·.tid ≠ t) = l := by
        rw [List.filter_eq_self]
        intro a ha
        simp only [ne_eq, decide_not, Bool.not_eq_eq_eq_not, Bool.not_true, decide_eq_false_iff_not]
        intro hat
        exact hn.1 (List.mem_map.mpr ⟨a, ha, hat.trans h.symm⟩)
      rw [List.filter_cons, if_neg (by simpa using h), h2, List.map_cons, h, List.erase_cons_head]
    · rw [List.filter_cons, if_pos (by simpa using h), List.map_cons, List.map_cons, List.erase_cons_tail (by simpa using h), ih hn.2]

theorem r_started {l : List Task} {s : S} (h : R l s) (t : Tid) (p : Pid) (hn : ∀ x ∈ l, x.tid ≠ t) :
    ∃ s', handle s (.started t p) = some s' ∧ R (step l (.started t p)) s' ∧ s'.failed = s.failed := by
  refine ⟨_, rfl, ⟨?_, ?_, ?_⟩, rfl⟩
  · simp only [step, h.running, dset, List.map_append]
    rw [if_neg]
    · rfl
    · simp only [List.any_map, List.any_eq_true, Function.comp, decide_eq_true_eq, not_exists, not_and]
      exact hn
  · simp only [step, h.pids, List.map_append]
    rfl
  · intro p'
    simp only [step, dget_dset, h.pidmap, meant, List.filter_append]
    by_cases hp : p' = p
    · simp [hp]
    · simp [hp, Ne.symm hp]

theorem r_removed {l : List Task} {s : S} (h : R l s) (hn : (l.map (·.tid)).Nodup) (t : Tid) (p : Pid)
    (hf : (l.filter (·.pid = p)).head?.map (·.tid) = some t) :
    ∃ s', removetid s p t = some s' ∧ R (l.filter (·.tid ≠ t)) s' ∧ s'.failed = s.failed := by
  obtain ⟨x, hx, rfl⟩ : ∃ x, (l.filter (·.pid = p)).head? = some x ∧ x.tid = t := by
    simpa using hf
  obtain ⟨rest, hr⟩ : ∃ rest, l.filter (·.pid = p) = x :: rest := by
    cases hl : l.filter (·.pid = p) with
    | nil => rw [hl] at hx; cases hx
    | cons a b => rw [hl] at hx; cases hx; exact ⟨b, rfl⟩
  have hxm : x ∈ l ∧ x.pid = p := by
    have : x ∈ l.filter (·.pid = p) := by rw [hr]; simp
    simpa using this
  have hin : x.tid ∈ s.pids := by rw [h.pids]; exact List.mem_map.mpr ⟨x, hxm.1, rfl⟩
  have hdel : ddel s.running x.tid = some ((l.filter (·.tid ≠ x.tid)).map fun x => (x.tid, ⟨x.pid, x.progress⟩)) := by
    unfold ddel
    rw [h.running, if_pos, List.filter_map]
    · rfl
    · simp only [List.any_map, List.any_eq_true, Function.comp, decide_eq_true_eq]
      exact ⟨x, hxm.1, rfl⟩
  have hpids : s.pids.erase x.tid = (l.filter (·.tid ≠ x.tid)).map (·.tid) := by rw [h.pids, erase_eq_filter l hn]
  have hsub : ((x :: rest).map (·.tid)).Nodup := by
    rw [← hr]
    exact (List.filter_sublist.map _).nodup hn
  simp only [List.map_cons, List.nodup_cons] at hsub
  have hrest : rest.filter (·.tid ≠ x.tid) = rest := by
    rw [List.filter_eq_self]
    intro a ha
    simp only [ne_eq, decide_not, Bool.not_eq_eq_eq_not, Bool.not_true, decide_eq_false_iff_not]
    exact fun hat => hsub.1 (List.mem_map.mpr ⟨a, ha, hat⟩)
  have hcomm : ∀ p', (l.filter (·.tid ≠ x.tid)).filter (·.pid = p') = (l.filter (·.pid = p')).filter (·.tid ≠ x.tid) := by
    intro p'
    simp only [List.filter_filter]
    congr 1
    funext a
    exact Bool.and_comm _ _
  have hsame : (l.filter (·.tid ≠ x.tid)).filter (·.pid = p) = rest := by
    rw [hcomm, hr, List.filter_cons, if_neg (by simp), hrest]
  have hother : ∀ p', p' ≠ p → (l.filter (·.tid ≠ x.tid)).filter (·.pid = p') = l.filter (·.pid = p') := by
    intro p' hp'
    rw [hcomm, List.filter_eq_self]
    intro a ha
    simp only [List.mem_filter, decide_eq_true_eq] at ha
    simp only [ne_eq, decide_not, Bool.not_eq_eq_eq_not, Bool.not_true, decide_eq_false_iff_not]
    intro hat
    have : a = x := by
      have h1 := dget_running l hn a ha.1
      have h2 := dget_running l hn x hxm.1
      rw [hat, h2] at h1
      have h3 := Option.some.inj h1
      have hpid : x.pid = a.pid := congrArg Info.pid h3
      exact absurd (hpid.symm.trans hxm.2) (by rw [ha.2]; exact hp')
    exact hp' (by rw [← ha.2, this, hxm.2])
  unfold removetid
  rw [if_pos hin, hdel]
  simp only [h.pidmap, meant, hr]
  cases hrl : rest.getLast? with
  | none =>
    have hre : rest = [] := by simpa using hrl
    rw [hre]
    simp only [List.getLast?_singleton, Option.map_some, if_true]
    refine ⟨_, rfl, ⟨rfl, hpids, ?_⟩, rfl⟩
    intro p'
    simp only [dget_filter, h.pidmap, meant]
    by_cases hp' : p' = p
    · rw [hp', hsame, hre]; simp
    · rw [if_neg hp', hother p' hp']
  | some y =>
    have hy : (x :: rest).getLast? = some y := by
      cases rest with
      | nil => cases hrl
      | cons a b => rw [List.getLast?_cons_cons]; exact hrl
    have hyt : y.tid ≠ x.tid := fun hyt => hsub.1 (List.mem_map.mpr ⟨y, List.mem_of_getLast? hrl, hyt⟩)
    rw [hy]
    simp only [Option.map_some, hyt, if_false]
    refine ⟨_, rfl, ⟨rfl, hpids, ?_⟩, rfl⟩
    intro p'
    simp only [h.pidmap, meant]
    by_cases hp' : p' = p
    · rw [hp', hsame, hr, hy, hrl]
    · rw [hother p' hp']

theorem r_progress {l : List Task} {s : S} (h : R l s) (hn : (l.map (·.tid)).Nodup) (hz : ∀ x ∈ l, x.pid > 0) (p : Pid) (v : Int) :
    ∃ s', handle s (.progress p v) = some s' ∧ R (step l (.progress p v)) s' ∧ s'.failed = s.failed := by
  have hk : ∀ (q : Pid), (l.map fun x => if (meant l p).map (·.tid) = some x.tid then { x with progress := some v } else x).filter (·.pid = q) =
      (l.filter (·.pid = q)).map fun x => if (meant l p).map (·.tid) = some x.tid then { x with progress := some v } else x := by
    intro q
    rw [List.filter_map]
    congr 2
    funext x
    simp only [Function.comp]
    split <;> rfl
  have htid : ∀ (o : Option Task), (o.map fun x => if (meant l p).map (·.tid) = some x.tid then { x with progress := some v } else x).map (·.tid) =
      o.map (·.tid) := by
    intro o
    cases o with
    | none => rfl
    | some x =>
      simp only [Option.map_some, Option.some.injEq]
      split <;> rfl
  have hpm : ∀ q, (meant (step l (.progress p v)) q).map (·.tid) = (meant l q).map (·.tid) := by
    intro q
    have : meant (step l (.progress p v)) q = (meant l q).map fun x => if (meant l p).map (·.tid) = some x.tid then { x with progress := some v } else x := by
      unfold step
      unfold meant
      have := hk q
      unfold meant at this
      rw [this, List.getLast?_map]
    rw [this, htid]
  have hpids : (step l (.progress p v)).map (·.tid) = l.map (·.tid) := by
    simp only [step, List.map_map]
    apply List.map_congr_left
    intro x _
    simp only [Function.comp]
    split <;> rfl
  have hnone : meant l p = none → step l (.progress p v) = l := by
    intro hm
    simp only [step, hm, Option.map_none]
    conv => rhs; rw [← List.map_id l]
    apply List.map_congr_left
    intro x _
    rfl
  simp only [handle]
  cases hm : meant l p with
  | none =>
    rw [hnone hm, h.pidmap, hm]
    split
    · exact ⟨s, rfl, h, rfl⟩
    · exact ⟨s, rfl, h, rfl⟩
  | some x =>
    obtain ⟨hx, hxp⟩ := meant_mem hm
    rw [if_pos (by rw [← hxp]; exact hz x hx), h.pidmap, hm]
    simp only [Option.map_some, h.running, dget_running l hn x hx]
    refine ⟨_, rfl, ⟨?_, ?_, ?_⟩, rfl⟩
    · simp only [dset]
      rw [if_pos]
      · simp only [step, hm, Option.map_some, List.map_map]
        apply List.map_congr_left
        intro y hy
        simp only [Function.comp, Option.some.injEq]
        by_cases hyx : y.tid = x.tid
        · have h1 := dget_running l hn y hy
          rw [hyx, dget_running l hn x hx] at h1
          have hpid : x.pid = y.pid := congrArg Info.pid (Option.some.inj h1)
          simp [hyx, hpid]
        · simp [hyx, Ne.symm hyx]
      · simp only [List.any_map, List.any_eq_true, Function.comp, decide_eq_true_eq]
        exact ⟨x, hx, rfl⟩
    · exact h.pids.trans hpids.symm
    · intro q
      rw [hpm]
      exact h.pidmap q

theorem handleAll_r (es : List Ev) : ∀ (l : List Task) (s : S), R l s → (l.map (·.tid)).Nodup → (∀ x ∈ l, x.pid > 0) → proper l es →
    ∃ s', handleAll s es = some s' ∧ R (es.foldl step l) s' ∧ s'.failed = s.failed ++ failures es := by
  induction es with
  | nil => intro l s h _ _ _; exact ⟨s, rfl, h, by simp [failures]⟩
  | cons e es ih =>
    intro l s h hn hz hp
    have next : ∀ s', handle s e = some s' → R (step l e) s' → ((step l e).map (·.tid)).Nodup → (∀ x ∈ step l e, x.pid > 0) → proper (step l e) es →
        s'.failed ++ failures es = s.failed ++ failures (e :: es) →
        ∃ s', handleAll s (e :: es) = some s' ∧ R ((e :: es).foldl step l) s' ∧ s'.failed = s.failed ++ failures (e :: es) := by
      intro s' h1 h2 h3 h4 h5 h6
      obtain ⟨s2, k1, k2, k3⟩ := ih _ s' h2 h3 h4 h5
      exact ⟨s2, by simp only [handleAll, h1, Option.bind_some]; exact k1, k2, k3.trans h6⟩
    cases e with
    | started t p =>
      obtain ⟨h1, h2, h3⟩ := hp
      obtain ⟨s', k1, k2, k3⟩ := r_started h t p h1
      refine next s' k1 k2 ?_ ?_ h3 (by rw [k3]; rfl)
      · simp only [step, List.map_append, List.nodup_append]
        refine ⟨hn, by simp, ?_⟩
        intro a ha b hb
        simp only [List.map_cons, List.map_nil, List.mem_singleton] at hb
        obtain ⟨x, hx, rfl⟩ := List.mem_map.mp ha
        rw [hb]
        exact h1 x hx
      · intro x hx
        rcases List.mem_append.mp hx with hx | hx
        · exact hz x hx
        · rw [List.mem_singleton.mp hx]; exact h2
    | ended t p k =>
      obtain ⟨h1, h2⟩ := hp
      obtain ⟨s', k1, k2, k3⟩ := r_removed h hn t p h1
      have hn' : ((l.filter (·.tid ≠ t)).map (·.tid)).Nodup := (List.filter_sublist.map _).nodup hn
      have hz' : ∀ x ∈ l.filter (·.tid ≠ t), x.pid > 0 := fun x hx => hz x (List.mem_filter.mp hx).1
      cases k with
      | succeeded => exact next s' k1 k2 hn' hz' h2 (by rw [k3]; rfl)
      | silent => exact next s' k1 k2 hn' hz' h2 (by rw [k3]; rfl)
      | failed =>
        refine next { s' with failed := s'.failed ++ [t] } (by simp only [handle, k1, Option.map_some]) ⟨k2.running, k2.pids, k2.pidmap⟩ hn' hz' h2 ?_
        simp [failures, k3]
    | progress p v =>
      obtain ⟨s', k1, k2, k3⟩ := r_progress h hn hz p v
      refine next s' k1 k2 ?_ ?_ hp (by rw [k3]; rfl)
      · have : (step l (.progress p v)).map (·.tid) = l.map (·.tid) := by rw [← k2.pids]; obtain ⟨-, h2, -⟩ := h; rw [← h2]
                                                                          revert k1
                                                                          simp only [handle]
                                                                          split
                                                                          · split
                                                                            · intro h; cases h; rfl
                                                                            · split
                                                                              · intro h; cases h
                                                                              · intro h; cases h; rfl
                                                                          · intro h; cases h; rfl
        rw [this]
        exact hn
      · intro x hx
        simp only [step, List.mem_map] at hx
        obtain ⟨y, hy, rfl⟩ := hx
        split
        · exact hz y hy
        · exact hz y hy
    | other => exact next s rfl h hn hz hp rfl

/-- C248. The user interface shows the tasks that run, in the order in which they were started and with their progress, and lists those that
failed.  No event makes it fail. -/
theorem shown_partial (es : List Ev) (h : proper [] es) : ∃ s, handleAll {} es = some s ∧
    s.running = (es.foldl step []).map (fun x => (x.tid, ⟨x.pid, x.progress⟩)) ∧ s.pids = (es.foldl step []).map (·.tid) ∧ s.failed = failures es := by
  obtain ⟨s, h1, h2, h3⟩ := handleAll_r es [] {} ⟨rfl, rfl, fun _ => rfl⟩ (by simp) (by simp) h
  exact ⟨s, h1, h2.running, h2.pids, h3⟩

/-- Three tasks, the third with the process of the first, whose end is told later. -/
def demo : List Ev := [.started 1 10, .started 2 20, .progress 20 50, .started 3 10, .ended 1 10 .failed, .progress 10 7, .other]

example : proper [] demo := by
  simp only [demo, proper, step, meant]
  decide

example : handleAll {} demo = some { running := [(2, ⟨20, some 50⟩), (3, ⟨10, some 7⟩)], pids := [2, 3], failed := [1], pidmap := [(10, 3), (20, 2)] } := by
  decide

/-- When all have ended nothing is shown. -/
theorem nothing_left (es : List Ev) (h : proper [] es) (he : es.foldl step [] = []) : ∃ s, handleAll {} es = some s ∧ s.running = [] ∧ s.pids = [] := by
  obtain ⟨s, h1, h2, h3, -⟩ := shown_partial es h
  exact ⟨s, h1, by rw [h2, he]; rfl, by rw [h3, he]; rfl⟩

example : (demo ++ [Ev.ended 3 10 .succeeded, .ended 2 20 .silent]).foldl step [] = [] := by decide

/-! What is missing from C248: the end of a task may come after the start and the end of another one with the same process. -/

/-- Each task is started and ends once, and the user interface fails. -/
theorem reused_fails : handleAll {} [.started 1 10, .started 2 10, .ended 2 10 .succeeded, .ended 1 10 .succeeded] = none := by decide

/-- And the progress of the first is taken as that of the second. -/
theorem reused_progress : (handleAll {} [.started 1 10, .started 2 10, .progress 10 5]).map (·.running) = some [(1, ⟨10, none⟩), (2, ⟨10, some 5⟩)] := by
  decide

/-- The user interface that came while a task was running fails when it ends. -/
theorem observer_fails (t p : Nat) (k : Kind) : handleAll {} [.ended t p k] = none := by
  cases k <;> rfl

end Bb.UiHelper
