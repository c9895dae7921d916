import Verif.Bb.TaskRunModel

/-
Running a task (C173, C175, C176).
-/

namespace Bb.TaskRun
open Py

/-! ### C173 -/

/-- The functions that were called. -/
def called (evs : List Ev) : List Str := evs.filterMap fun e => match e with
  | .call f => some f
  | _ => none

/-- No function of a list fails, after others. -/
def AllGood (j : Job) (done fs : List Str) : Prop := ∀ a f b, fs = a ++ f :: b → j.call (done ++ a) f = none

/-- The first function that fails. -/
def FirstBad (j : Job) (done fs a : List Str) (f : Str) (e : Exc) : Prop :=
  (∃ b, fs = a ++ f :: b) ∧ AllGood j done a ∧ j.call (done ++ a) f = some e

theorem calls_good {j : Job} : ∀ {fs done : List Str}, AllGood j done fs → calls j done fs = (fs.map .call, none)
  | [], _, _ => rfl
  | f :: fs, done, h => by
    have h1 : j.call done f = none := by have := h [] f fs rfl; rwa [List.append_nil] at this
    have h2 : AllGood j (done ++ [f]) fs := fun a g b e => by
      have := h (f :: a) g b (by rw [e]; rfl)
      rwa [List.append_cons] at this
    unfold calls
    rw [h1]
    dsimp only
    rw [calls_good h2]
    rfl

theorem calls_bad {j : Job} {e : Exc} {f : Str} : ∀ {fs done a : List Str}, FirstBad j done fs a f e → calls j done fs = ((a ++ [f]).map .call, some e)
  | fs, done, [], ⟨⟨b, hb⟩, _, h⟩ => by
    rw [List.append_nil] at h
    rw [hb, List.nil_append]
    unfold calls
    rw [h]
    rfl
  | fs, done, x :: a, ⟨⟨b, hb⟩, hg, h⟩ => by
    have h1 : j.call done x = none := by have := hg [] x a rfl; rwa [List.append_nil] at this
    have h2 : AllGood j (done ++ [x]) a := fun a' g b e => by
      have := hg (x :: a') g b (by rw [e]; rfl)
      rwa [List.append_cons] at this
    rw [hb, List.cons_append]
    unfold calls
    rw [h1]
    dsimp only
    rw [calls_bad (a := a) (e := e) (f := f) ⟨⟨b, rfl⟩, h2, by rw [← List.append_cons]; exact h⟩]
    rfl

theorem good_or_bad (j : Job) : ∀ (fs done : List Str), AllGood j done fs ∨ ∃ a f e, FirstBad j done fs a f e
  | [], done => .inl fun a f b e => by cases a <;> cases e
  | f :: fs, done => by
    cases h : j.call done f with
    | some e => exact .inr ⟨[], f, e, ⟨fs, rfl⟩, fun a f b e => (by cases a <;> cases e), by rw [List.append_nil]; exact h⟩
    | none =>
      rcases good_or_bad j fs (done ++ [f]) with hg | ⟨a, g, e, ⟨b, hb⟩, hg, hc⟩
      · refine .inl fun a g b e => ?_
        cases a with
        | nil => obtain ⟨rfl, _⟩ := List.cons.inj e; rw [List.append_nil]; exact h
        | cons x a =>
          obtain ⟨rfl, e2⟩ := List.cons.inj e
          rw [List.append_cons]; exact hg a g b e2
      · refine .inr ⟨f :: a, g, e, ⟨b, by rw [hb]; rfl⟩, fun a' g b e => ?_, by rw [List.append_cons]; exact hc⟩
        cases a' with
        | nil => obtain ⟨rfl, _⟩ := List.cons.inj e; rw [List.append_nil]; exact h
        | cons x a' =>
          obtain ⟨rfl, e2⟩ := List.cons.inj e
          rw [List.append_cons]; exact hg a' g b e2

/-- Nothing goes wrong but in functions. -/
structure Calm (j : Job) : Prop where
  isTask : j.isTask = true
  hasT : j.hasT = true
  dry : j.dryRun = false
  handler : ∀ e, j.handler e = none
  stamp1 : j.stamp1 = none
  stamp2 : j.stamp2 = none
  fakeroot : j.fakeroot ≠ some false

theorem child_calm {j : Job} (h : Calm j) : child j = ((execTask j).1, match (execTask j).2 with | .ok n => n | .error _ => 1) := by
  unfold child
  rw [h.dry, if_neg Bool.false_ne_true]
  cases hf : j.fakeroot with
  | none => dsimp only; split <;> (rename_i he; rw [he])
  | some b =>
    cases b with
    | true => dsimp only; split <;> (rename_i he; rw [he])
    | false => exact absurd hf h.fakeroot

/-- C173, where it holds: if nothing goes wrong but in functions, and no function fails, then all functions are called in their order, success
is told, the file is made unless the task is without one, and the process ends with 0. -/
theorem success_partial {j : Job} (h : Calm j) (hg : AllGood j [] (functions j)) :
    child j = (.started :: (functions j).map .call ++ .succeeded :: (if j.nostamp || j.selfstamp then [] else [.stamp]), 0) := by
  have e : execTask1 j = (.started :: (functions j).map .call ++ .succeeded :: (if j.nostamp || j.selfstamp then [] else [.stamp]), .ok 0) := by
    unfold execTask1 body after
    rw [h.isTask, h.hasT, h.handler, h.handler, calls_good hg, h.stamp1, h.stamp2]
    cases j.nostamp || j.selfstamp <;> rfl
  rw [child_calm h]
  unfold execTask
  rw [e]

/-- C173, where it holds: and if one fails, it is the last one that is called, the failure is told once, there is no file, and the process ends
with 1. -/
theorem failure_partial {j : Job} (h : Calm j) {a : List Str} {f : Str} {e : Exc} (hb : FirstBad j [] (functions j) a f e) :
    child j = (.started :: (a ++ [f]).map .call ++ [if j.quiet then .silent else .failed (j.logged || j.verbose || e == .handled)], 1) := by
  have e : execTask1 j = (.started :: (a ++ [f]).map .call ++ [if j.quiet then .silent else .failed (j.logged || j.verbose || e == .handled)], .ok 1) := by
    have hf : fireAndFail j (failure j e) = ([failure j e], .ok 1) := by unfold fireAndFail; rw [h.handler]
    have hbody : body j = (.started :: (a ++ [f]).map .call, some e) := by unfold body; rw [h.handler, calls_bad hb]
    unfold execTask1
    rw [h.isTask, h.hasT, hbody]
    dsimp only
    rw [hf]
    rfl
  rw [child_calm h]
  unfold execTask
  rw [e]

theorem called_append (a b : List Ev) : called (a ++ b) = called a ++ called b := List.filterMap_append

theorem called_map (fs : List Str) : called (fs.map .call) = fs := by
  induction fs with
  | nil => rfl
  | cons f fs ih => show f :: called (fs.map .call) = _; rw [ih]

theorem fail_events (j : Job) (ev : Ev) : (fireAndFail j ev).1 = [] ∨ (fireAndFail j ev).1 = [ev] := by
  unfold fireAndFail
  split
  · exact .inl rfl
  · exact .inr rfl

theorem fail_code (j : Job) (ev : Ev) : (fireAndFail j ev).2 ≠ .ok 0 := by
  unfold fireAndFail
  split
  · exact fun h => nomatch h
  · exact fun h => nomatch h

theorem after_events (j : Job) : ((after j).1 = [] ∨ (after j).1 = [.succeeded] ∨ ((after j).1 = [.succeeded, .stamp] ∧ j.nostamp = false ∧ j.selfstamp = false)) ∧
    ((after j).2 = .ok 0 → .succeeded ∈ (after j).1 ∧ (.stamp ∈ (after j).1 ∨ j.nostamp = true ∨ j.selfstamp = true)) := by
  unfold after
  split
  · exact ⟨.inl rfl, fun h => nomatch h⟩
  · split
    · rename_i hn
      exact ⟨.inr (.inl rfl), fun _ => ⟨List.mem_cons_self, .inr (Bool.or_eq_true _ _ ▸ hn)⟩⟩
    · rename_i hn
      have hn := Bool.or_eq_false_iff.1 (Bool.eq_false_iff.2 hn)
      split
      · exact ⟨.inr (.inl rfl), fun h => nomatch h⟩
      · split
        · exact ⟨.inr (.inr ⟨rfl, hn⟩), fun h => nomatch h⟩
        · exact ⟨.inr (.inr ⟨rfl, hn⟩), fun _ => ⟨List.mem_cons_self, .inl (List.mem_cons_of_mem _ List.mem_cons_self)⟩⟩

/-- All ways that a task can go. -/
theorem ways (j : Job) :
    ((execTask1 j).1 = [] ∧ (execTask1 j).2 ≠ .ok 0) ∨
    ((execTask1 j).1 = [.invalid] ∧ (execTask1 j).2 = .ok 1) ∨
    (∃ e, (∃ d, (execTask1 j).1 = d ++ [failure j e] ∧ called d = [] ∧ ∀ x ∈ d, x = .started) ∧ (execTask1 j).2 = .ok 1) ∨
    (∃ a f e, FirstBad j [] (functions j) a f e ∧ ((execTask1 j).1 = .started :: (a ++ [f]).map .call ∨ (execTask1 j).1 = .started :: (a ++ [f]).map .call ++ [failure j e]) ∧ (execTask1 j).2 ≠ .ok 0) ∨
    (AllGood j [] (functions j) ∧ (execTask1 j).1 = .started :: (functions j).map .call ++ (after j).1 ∧ (execTask1 j).2 = (after j).2) := by
  unfold execTask1
  by_cases h1 : j.isTask = true
  · by_cases h2 : j.hasT = true
    · rw [h1, h2, Bool.not_true, if_neg Bool.false_ne_true, if_neg Bool.false_ne_true]
      unfold body
      cases h3 : j.handler .started with
      | some e =>
        dsimp only
        rw [List.nil_append]
        unfold fireAndFail
        split
        · exact .inl ⟨rfl, fun h => nomatch h⟩
        · exact .inr (.inr (.inl ⟨e, ⟨[], rfl, rfl, fun x hx => nomatch hx⟩, rfl⟩))
      | none =>
        dsimp only
        rcases good_or_bad j (functions j) [] with hg | ⟨a, f, e, hb⟩
        · rw [calls_good hg]
          exact .inr (.inr (.inr (.inr ⟨hg, rfl, rfl⟩)))
        · rw [calls_bad hb]
          dsimp only
          refine .inr (.inr (.inr (.inl ⟨a, f, e, hb, ?_, fail_code _ _⟩)))
          rcases fail_events j (failure j e) with h | h
          · rw [h, List.append_nil]; exact .inl rfl
          · rw [h]; exact .inr rfl
    · rw [h1, Bool.eq_false_iff.2 h2]
      exact .inl ⟨rfl, fun h => nomatch h⟩
  · rw [Bool.eq_false_iff.2 h1, Bool.not_false, if_pos rfl]
    unfold fireAndFail
    split
    · exact .inl ⟨rfl, fun h => nomatch h⟩
    · exact .inr (.inl ⟨rfl, rfl⟩)

theorem child_of (j : Job) (hd : j.dryRun = false) : (child j).1 = (execTask1 j).1 ∧ ((child j).2 = 0 → (execTask1 j).2 = .ok 0) := by
  have e : (execTask j).1 = (execTask1 j).1 ∧ ∀ n, (execTask j).2 = .ok n → (execTask1 j).2 = .ok n ∨ n = 1 := by
    unfold execTask
    split
    · rename_i n h; exact ⟨rfl, fun m hm => .inl (by cases hm; exact h)⟩
    · exact ⟨rfl, fun m hm => nomatch hm⟩
    · split
      · exact ⟨rfl, fun m hm => .inr (by cases hm; rfl)⟩
      · exact ⟨rfl, fun m hm => nomatch hm⟩
  unfold child
  rw [hd, if_neg Bool.false_ne_true]
  split
  · exact ⟨e.1, fun h => nomatch h⟩
  · split
    · rename_i n h
      refine ⟨e.1, fun hn => ?_⟩
      have hn : n = 0 := hn
      subst hn
      exact (e.2 0 h).resolve_right (by decide)
    · exact ⟨e.1, fun h => nomatch h⟩

theorem failure_ne (j : Job) (e : Exc) : failure j e ≠ .stamp ∧ failure j e ≠ .succeeded := by
  unfold failure
  split
  · exact ⟨fun h => (nomatch h), fun h => nomatch h⟩
  · exact ⟨fun h => (nomatch h), fun h => nomatch h⟩

theorem not_call {e : Ev} {fs : List Str} (he : ∀ f, e ≠ .call f) : e ∉ fs.map .call := fun hm => by
  obtain ⟨f, _, h⟩ := List.mem_map.1 hm
  exact he f h.symm

theorem mem_ran {e : Ev} {fs : List Str} {d : List Ev} (hs : e ≠ .started) (hc : ∀ f, e ≠ .call f) (h : e ∈ .started :: fs.map .call ++ d) : e ∈ d := by
  rcases List.mem_append.1 h with h | h
  · rcases List.mem_cons.1 h with h | h
    · exact absurd h hs
    · exact absurd h (not_call hc)
  · exact h

theorem called_started (fs : List Str) (d : List Ev) (hd : called d = []) : called (.started :: fs.map .call ++ d) = fs := by
  rw [called_append, hd, List.append_nil]
  exact called_map fs

/-- C173: whatever goes wrong, a task that gets its file or is told to have succeeded has called all of its functions in their order, and none of
them failed. -/
theorem all_ran {j : Job} (h : .stamp ∈ (child j).1 ∨ .succeeded ∈ (child j).1) : called (child j).1 = functions j ∧ AllGood j [] (functions j) := by
  by_cases hd : j.dryRun = true
  · unfold child at h
    rw [hd, if_pos rfl] at h
    rcases h with h | h <;> cases h
  · rw [(child_of j (Bool.eq_false_iff.2 hd)).1] at h ⊢
    rcases ways j with ⟨e, _⟩ | ⟨e, _⟩ | ⟨x, ⟨d, e, _, hx⟩, _⟩ | ⟨a, f, x, _, e | e, _⟩ | ⟨hg, e, _⟩
    · rw [e] at h; rcases h with h | h <;> cases h
    · rw [e] at h; rcases h with h | h <;> exact absurd (List.mem_singleton.1 h) (by decide)
    · rw [e] at h
      rcases h with h | h
      · rcases List.mem_append.1 h with h | h
        · exact absurd (hx _ h) (by decide)
        · exact absurd (List.mem_singleton.1 h).symm (failure_ne j x).1
      · rcases List.mem_append.1 h with h | h
        · exact absurd (hx _ h) (by decide)
        · exact absurd (List.mem_singleton.1 h).symm (failure_ne j x).2
    · rw [e, ← List.append_nil (Ev.started :: _)] at h
      rcases h with h | h
      · cases mem_ran (e := .stamp) (fun h => nomatch h) (fun f h => nomatch h) h
      · cases mem_ran (e := .succeeded) (fun h => nomatch h) (fun f h => nomatch h) h
    · rw [e] at h
      rcases h with h | h
      · exact absurd (List.mem_singleton.1 (mem_ran (e := .stamp) (fun h => nomatch h) (fun f h => nomatch h) h)).symm (failure_ne j x).1
      · exact absurd (List.mem_singleton.1 (mem_ran (e := .succeeded) (fun h => nomatch h) (fun f h => nomatch h) h)).symm (failure_ne j x).2
    · refine ⟨?_, hg⟩
      rw [e]
      refine called_started _ _ ?_
      rcases (after_events j).1 with h | h | ⟨h, _⟩ <;> rw [h] <;> rfl

/-- C173: and a process that ends with 0 has, told that it succeeded, and made the file unless the task is without one. -/
theorem zero_means {j : Job} (hd : j.dryRun = false) (h : (child j).2 = 0) :
    called (child j).1 = functions j ∧ AllGood j [] (functions j) ∧ .succeeded ∈ (child j).1 ∧ (.stamp ∈ (child j).1 ∨ j.nostamp = true ∨ j.selfstamp = true) := by
  obtain ⟨e1, e2⟩ := child_of j hd
  have h := e2 h
  rcases ways j with ⟨_, hn⟩ | ⟨_, hn⟩ | ⟨_, _, hn⟩ | ⟨_, _, _, _, _, hn⟩ | ⟨_, e, hn⟩
  · exact absurd h hn
  · rw [h] at hn; cases hn
  · rw [h] at hn; cases hn
  · exact absurd h hn
  · obtain ⟨hs, hst⟩ := (after_events j).2 (hn ▸ h)
    have hs2 : .succeeded ∈ (child j).1 := by rw [e1, e]; exact List.mem_append_right _ hs
    obtain ⟨a, b⟩ := all_ran (.inr hs2)
    refine ⟨a, b, hs2, hst.imp (fun h => ?_) id⟩
    rw [e1, e]; exact List.mem_append_right _ h

/-- C173: functions are called in their order, and none after one that failed. -/
theorem order (j : Job) : called (child j).1 <+: functions j := by
  by_cases hd : j.dryRun = true
  · unfold child
    rw [hd, if_pos rfl]
    exact List.nil_prefix
  · rw [(child_of j (Bool.eq_false_iff.2 hd)).1]
    have hf : ∀ e, called [failure j e] = [] := fun e => by unfold failure; split <;> rfl
    rcases ways j with ⟨e, _⟩ | ⟨e, _⟩ | ⟨x, ⟨d, e, hx, _⟩, _⟩ | ⟨a, f, x, ⟨⟨b, hb⟩, _⟩, e | e, _⟩ | ⟨hg, e, _⟩
    · rw [e]; exact List.nil_prefix
    · rw [e]; exact List.nil_prefix
    · rw [e, called_append, hx, hf]; exact List.nil_prefix
    · rw [e, ← List.append_nil (Ev.started :: _), called_started _ _ rfl, hb]
      exact ⟨b, by rw [List.append_assoc]; rfl⟩
    · rw [e, called_started _ _ (hf x), hb]
      exact ⟨b, by rw [List.append_assoc]; rfl⟩
    · rw [e, called_started]
      · exact List.prefix_refl _
      · rcases (after_events j).1 with h | h | ⟨h, _⟩ <;> rw [h] <;> rfl

def sampleJob : Job := { task := "do_x".toList, pre := "a b".toList, post := "c".toList, call := fun _ _ => none }

def sampleBad : Job := { sampleJob with call := fun done f => if done = ["a".toList] ∧ f = "b".toList then some .other else none }

example : child sampleJob = ([.started, .call "a".toList, .call "b".toList, .call "do_x".toList, .call "c".toList, .succeeded, .stamp], 0) := by decide

example : child sampleBad = ([.started, .call "a".toList, .call "b".toList, .failed false], 1) := by decide

example : Calm sampleBad := ⟨rfl, rfl, rfl, fun _ => rfl, rfl, rfl, by decide⟩

/-- Against C173: a task may be told to have succeeded although it ends with 1, and no failure is told. -/
theorem success_told : child { sampleJob with stamp1 := some .other } = ([.started, .call "a".toList, .call "b".toList, .call "do_x".toList, .call "c".toList, .succeeded], 1) := by decide

/-- Against C173: a task may end with 1 and have its file, so that it counts as run in the next build. -/
theorem failed_with_file : (child { sampleJob with fakeroot := some false }).2 = 1 ∧ Ev.stamp ∈ (child { sampleJob with fakeroot := some false }).1 := by decide

/-- Against C173: a failure may not be told at all. -/
theorem not_told : child { sampleJob with hasT := false } = ([], 1) ∧
    child { sampleBad with handler := fun e => if e = .failed false then some .other else none } = ([.started, .call "a".toList, .call "b".toList], 1) := by decide

/-! ### C175 -/

theorem set_fold (l : List (Str × Str)) : ∀ (e : Env) (k : Str), (l.foldl (fun e x => e.set x.1 x.2) e).lookup k = (l.reverse.lookup k).or (e.lookup k) := by
  induction l with
  | nil => exact fun e k => rfl
  | cons x l ih =>
    intro e k
    rw [List.foldl_cons, ih, Dict.lookup_set, List.reverse_cons, List.lookup_append, Option.or_assoc]
    congr 1
    obtain ⟨a, b⟩ := x
    rw [List.lookup_cons]
    by_cases h : k = a
    · subst h
      rw [if_pos rfl, beq_self_eq_true]; rfl
    · rw [if_neg h, beq_eq_false_iff_ne.2 h]; rfl

theorem del_fold (ks : List Str) : ∀ (e : Env) (k : Str), (ks.foldl Dict.del e).lookup k = if k ∈ ks then none else e.lookup k := by
  induction ks with
  | nil => exact fun e k => rfl
  | cons x ks ih =>
    intro e k
    rw [List.foldl_cons, ih, Dict.lookup_del]
    by_cases h : k ∈ ks
    · rw [if_pos h, if_pos (List.mem_cons_of_mem _ h)]
    · rw [if_neg h]
      by_cases hx : k = x
      · rw [if_pos hx, if_pos (hx ▸ List.mem_cons_self)]
      · rw [if_neg hx, if_neg fun hm => (List.mem_cons.1 hm).elim hx h]

theorem lookup_not_key {α : Type} : ∀ {e : Dict α} {k : Str}, k ∉ e.map (·.1) → e.lookup k = none
  | [], _, _ => rfl
  | (a, b) :: e, k, h => by
    rw [List.lookup_cons, beq_eq_false_iff_ne.2 fun he => h (List.mem_cons.2 (.inl he))]
    exact lookup_not_key fun hm => h (List.mem_cons_of_mem _ hm)

theorem emptied_lookup (e : Env) (k : Str) : (emptied e).lookup k = none := by
  unfold emptied
  rw [del_fold]
  split
  · rfl
  · rename_i h; exact lookup_not_key h

/-- A value of a list of settings: the last one. -/
def lastOf (l : List (Str × Str)) (k : Str) : Option Str := l.reverse.lookup k

theorem keys_set {α : Type} {d : Dict α} {k : Str} {v : α} (h : (d.map (·.1)).Nodup) : ((d.set k v).map (·.1)).Nodup := by
  unfold Dict.set
  split
  · rw [List.map_map]
    have : d.map ((fun e => e.1) ∘ fun e => if e.1 = k then (k, v) else e) = d.map (·.1) := List.map_congr_left fun e _ => by
      show (if e.1 = k then (k, v) else e).1 = e.1
      split
      · rename_i h; exact h.symm
      · rfl
    rw [this]; exact h
  · rename_i hn
    rw [List.map_append]
    refine List.nodup_append.2 ⟨h, List.nodup_cons.2 ⟨List.not_mem_nil, List.nodup_nil⟩, fun a ha b hb e => ?_⟩
    rw [List.mem_singleton.1 hb] at e
    subst e
    obtain ⟨x, hx, e⟩ := List.mem_map.1 ha
    apply hn
    clear hn h ha hb
    induction d with
    | nil => cases hx
    | cons y d ih =>
      obtain ⟨y1, y2⟩ := y
      rw [List.lookup_cons]
      cases hk : a == y1 with
      | true => rfl
      | false =>
        rcases List.mem_cons.1 hx with rfl | hx
        · rw [← e] at hk; rw [beq_self_eq_true] at hk; cases hk
        · exact ih hx

theorem keys_fold (l : List (Str × Str)) : ∀ {d : Env}, (d.map (·.1)).Nodup → ((l.foldl (fun e x => e.set x.1 x.2) d).map (·.1)).Nodup := by
  induction l with
  | nil => exact fun h => h
  | cons x l ih => exact fun h => ih (keys_set h)

theorem lookup_reverse : ∀ {d : Env}, (d.map (·.1)).Nodup → ∀ k, d.reverse.lookup k = d.lookup k
  | [], _, _ => rfl
  | (a, b) :: d, h, k => by
    obtain ⟨h1, h2⟩ := List.nodup_cons.1 h
    rw [List.reverse_cons, List.lookup_append, lookup_reverse h2, List.lookup_cons, List.lookup_cons, List.lookup_nil]
    by_cases hk : k = a
    · subst hk
      rw [beq_self_eq_true, lookup_not_key h1]; rfl
    · rw [beq_eq_false_iff_ne.2 hk]
      show (d.lookup k).or none = d.lookup k
      rw [Option.or_none]

theorem export_fold {f : Str → Option Str} (ws : List Str) : ∀ (e : Env) (k : Str),
    (ws.foldl (exportOne f) e).lookup k = if k ∈ ws then (f k).or (e.lookup k) else e.lookup k := by
  induction ws with
  | nil => exact fun e k => rfl
  | cons w ws ih =>
    intro e k
    rw [List.foldl_cons, ih]
    have h1 : (exportOne f e w).lookup k = if k = w then (f k).or (e.lookup k) else e.lookup k := by
      unfold exportOne
      cases hf : f w with
      | none =>
        dsimp only
        split
        · rename_i h; rw [h, hf]; rfl
        · rfl
      | some v =>
        dsimp only
        rw [Dict.lookup_set]
        split
        · rename_i h; rw [h, hf]; rfl
        · rfl
    rw [h1]
    by_cases hk : k ∈ ws
    · rw [if_pos hk, if_pos (List.mem_cons_of_mem _ hk)]
      split
      · rw [← Option.or_assoc, Option.or_self]
      · rfl
    · rw [if_neg hk]
      by_cases hw : k = w
      · rw [if_pos hw, if_pos (hw ▸ List.mem_cons_self)]
      · rw [if_neg hw, if_neg fun hm => (List.mem_cons.1 hm).elim hw hk]

/-- C175: the environment of a task is what the recipe exports, with the settings of fakeroot above it; variables in the flag of the task
come above what is exported and have values of fakeroot too.  Nothing of the environment in which the build was started is in it. -/
theorem environment (host : Env) (vars fake : List (Str × Str)) (value : Str → Option Str) (exports k : Str) :
    (childEnv host vars fake value exports).lookup k = (lastOf fake k).or ((if k ∈ words exports then value k else none).or (lastOf vars k)) := by
  unfold childEnv lastOf
  dsimp only
  have hf : ∀ k, (fake.foldl (fun e x => Dict.set e x.1 x.2) ([] : Env)).lookup k = fake.reverse.lookup k := fun k => by
    rw [set_fold]; exact Option.or_none
  rw [export_fold]
  generalize hfe : fake.foldl (fun e x => Dict.set e x.1 x.2) ([] : Env) = fe at hf
  have hnd : (fe.map (·.1)).Nodup := by
    rw [← hfe]
    exact keys_fold fake (d := []) List.nodup_nil
  rw [set_fold fe, lookup_reverse hnd, set_fold vars, emptied_lookup, Option.or_none, hf]
  cases h1 : fake.reverse.lookup k with
  | some v => split <;> rfl
  | none =>
    split
    · rfl
    · rfl

example : childEnv [("SSH_AGENT".toList, "x".toList), ("PATH".toList, "/home/u/bin".toList)] [("PATH".toList, "/bin".toList), ("A".toList, "1".toList)] [("A".toList, "2".toList)]
    (fun k => if k = "B".toList then some "3".toList else none) "B C".toList = [("PATH".toList, "/bin".toList), ("A".toList, "2".toList), ("B".toList, "3".toList)] := by decide

theorem prepared_fold : ∀ (fake : List (Str × Str)) (e : Env) (b : Dict (Option Str)), (fake.map (·.1)).Nodup → (∀ x ∈ fake, x.1 ∉ b.map (·.1)) →
    (∀ k, (fake.foldl (fun s x => (s.1.set x.1 x.2, s.2.set x.1 (s.1.lookup x.1))) (e, b)).1.lookup k = (fake.lookup k).or (e.lookup k)) ∧
    (fake.foldl (fun s x => (s.1.set x.1 x.2, s.2.set x.1 (s.1.lookup x.1))) (e, b)).2 = b ++ fake.map fun x => (x.1, e.lookup x.1)
  | [], e, b, _, _ => ⟨fun k => rfl, (List.append_nil b).symm⟩
  | (x, v) :: fake, e, b, hn, hb => by
    obtain ⟨hx, hn⟩ := List.nodup_cons.1 hn
    have hset : b.set x (e.lookup x) = b ++ [(x, e.lookup x)] := by
      unfold Dict.set
      rw [lookup_not_key (hb (x, v) List.mem_cons_self)]
      rfl
    rw [List.foldl_cons]
    dsimp only
    rw [hset]
    obtain ⟨h1, h2⟩ := prepared_fold fake (e.set x v) (b ++ [(x, e.lookup x)]) hn (fun y hy hm => by
      rw [List.map_append] at hm
      rcases List.mem_append.1 hm with hm | hm
      · exact hb y (List.mem_cons_of_mem _ hy) hm
      · exact hx (List.mem_map.2 ⟨y, hy, List.mem_singleton.1 hm⟩))
    constructor
    · intro k
      rw [h1, Dict.lookup_set, List.lookup_cons]
      by_cases hk : k = x
      · subst hk
        rw [if_pos rfl, beq_self_eq_true, lookup_not_key hx]; rfl
      · rw [if_neg hk, beq_eq_false_iff_ne.2 hk]
    · rw [h2, List.append_assoc, List.map_cons]
      congr 1
      rw [List.singleton_append]
      congr 1
      refine List.map_congr_left fun y hy => ?_
      rw [Dict.lookup_set, if_neg fun e => hx (List.mem_map.2 ⟨y, hy, e⟩)]

theorem restored_fold (g : Str → Option Str) : ∀ (fake : List (Str × Str)) (e : Env) (k : Str),
    ((fake.map fun x => (x.1, g x.1)).foldl restoreOne e).lookup k =
      if k ∈ fake.map (·.1) then g k else e.lookup k
  | [], e, k => rfl
  | (x, v) :: fake, e, k => by
    rw [List.map_cons, List.foldl_cons, restored_fold g fake, List.map_cons]
    by_cases hk : k ∈ fake.map (·.1)
    · rw [if_pos hk, if_pos (List.mem_cons_of_mem _ hk)]
    · rw [if_neg hk]
      have : (restoreOne e (x, g x)).lookup k = if k = x then g k else e.lookup k := by
        unfold restoreOne
        dsimp only
        cases hg : g x with
        | none => dsimp only; rw [Dict.lookup_del]; split
                  · rename_i h; rw [h, hg]
                  · rfl
        | some w => dsimp only; rw [Dict.lookup_set]; split
                    · rename_i h; rw [h, hg]
                    · rfl
      dsimp only
      rw [this]
      by_cases hx : k = x
      · rw [if_pos hx, if_pos (hx ▸ List.mem_cons_self)]
      · rw [if_neg hx, if_neg fun hm => (List.mem_cons.1 hm).elim hx hk]

/-- C175, where it holds: the environment of the worker is after a task as it was before it, if no name is given twice. -/
theorem worker_restored_partial (env : Env) {fake : List (Str × Str)} (hn : (fake.map (·.1)).Nodup) (k : Str) : (restored (prepared env fake)).lookup k = env.lookup k := by
  obtain ⟨h1, h2⟩ := prepared_fold fake env [] hn (fun _ _ h => nomatch h)
  have e : restored (prepared env fake) = (fake.map fun x => (x.1, env.lookup x.1)).foldl restoreOne (prepared env fake).1 := by
    unfold restored
    have h2 : (prepared env fake).2 = [] ++ fake.map fun x => (x.1, env.lookup x.1) := h2
    rw [h2, List.nil_append]
  have h1 : (prepared env fake).1.lookup k = (fake.lookup k).or (env.lookup k) := h1 k
  rw [e, restored_fold (fun k => env.lookup k), h1]
  split
  · rfl
  · rename_i h
    rw [lookup_not_key h]; rfl

example : restored (prepared [("A".toList, "0".toList)] [("A".toList, "1".toList), ("B".toList, "2".toList)]) = [("A".toList, "0".toList)] := by decide

/-- Against C175: a name that is given twice stays in the environment of the worker. -/
theorem worker_not_restored : restored (prepared [] [("A".toList, "1".toList), ("A".toList, "2".toList)]) = [("A".toList, "1".toList)] := by decide

/-- C175: a setting is cut at its first `=`. -/
theorem setting_cut {k v : Str} (hk : '=' ∉ k) : setting (k ++ '=' :: v) = some (k, v) := by
  unfold setting
  rw [splitOn_append, splitOn_clean _ _ hk]
  have hj := join_splitOn '=' v
  cases hs : splitOn '=' v with
  | nil => exact absurd hs (splitOnGo_ne_nil _ _ _)
  | cons a as => rw [hs] at hj; show some (k, join ['='] (a :: as)) = _; rw [hj]

/-- Against C175: a setting without `=` kills the worker. -/
theorem setting_none : settings "A=1 B".toList = none := by decide

/-! ### C176 -/

theorem cut_at {c : Char} {a b : Str} (ha : c ∉ a) : (a ++ c :: b).takeWhile (· ≠ c) = a ∧ (a ++ c :: b).dropWhile (· ≠ c) = c :: b := by
  have hp : ∀ x ∈ a, (decide (x ≠ c)) = true := fun x hx => decide_eq_true fun e => ha (e ▸ hx)
  rw [List.takeWhile_append_of_pos hp, List.dropWhile_append_of_pos hp]
  constructor
  · rw [List.takeWhile_cons_of_neg (by simp), List.append_nil]
  · rw [List.dropWhile_cons_of_neg (by simp)]

theorem cut_none {c : Char} : ∀ {a : Str}, c ∉ a → a.dropWhile (· ≠ c) = []
  | [], _ => rfl
  | x :: a, h => by
    have hx : decide (x ≠ c) = true := decide_eq_true fun he => h (List.mem_cons.2 (.inl he.symm))
    rw [List.dropWhile_cons_of_pos (p := fun x => decide (x ≠ c)) hx]
    exact cut_none fun hm => h (List.mem_cons_of_mem _ hm)

theorem first_cut {c : Char} : ∀ (s : Str), c ∉ s ∨ ∃ a b, c ∉ a ∧ s = a ++ c :: b
  | [] => .inl List.not_mem_nil
  | x :: s => by
    by_cases hx : x = c
    · exact .inr ⟨[], s, List.not_mem_nil, by rw [hx]; rfl⟩
    · rcases first_cut (c := c) s with h | ⟨a, b, ha, rfl⟩
      · exact .inl fun hm => (List.mem_cons.1 hm).elim (fun e => hx e.symm) h
      · exact .inr ⟨x :: a, b, fun hm => (List.mem_cons.1 hm).elim (fun e => hx e.symm) ha, rfl⟩

/-- What is said of a list of messages, and whether all of them could be read. -/
def said : List Str → List Msg × Bool
  | [] => ([], true)
  | m :: ms => match message m with
    | none => ([], false)
    | some x => (x :: (said ms).1, (said ms).2)

theorem loop_clean {n : Nat} {s : Str} (h : '\x00' ∉ s) : loop n s = ([], some s) := by
  cases n with
  | zero => rfl
  | succ n => unfold loop; rw [cut_none h]

theorem loop_said : ∀ (ms : List Str) (last : Str) (n : Nat), (∀ m ∈ ms, '\x00' ∉ m) → '\x00' ∉ last → (ms.flatMap fun m => m ++ ['\x00']).length + last.length ≤ n →
    loop n ((ms.flatMap fun m => m ++ ['\x00']) ++ last) = ((said ms).1, if (said ms).2 then some last else none)
  | [], last, n, _, hl, _ => loop_clean hl
  | m :: ms, last, n, hm, hl, hn => by
    have h1 := hm m List.mem_cons_self
    have e : ((m :: ms).flatMap fun m => m ++ ['\x00']) ++ last = m ++ '\x00' :: ((ms.flatMap fun m => m ++ ['\x00']) ++ last) := by
      simp only [List.flatMap_cons, List.append_assoc, List.cons_append, List.nil_append]
    rw [List.flatMap_cons, List.length_append, List.length_append, List.length_singleton] at hn
    cases n with
    | zero => omega
    | succ n =>
      rw [e]
      obtain ⟨t, d⟩ := cut_at (b := (ms.flatMap fun m => m ++ ['\x00']) ++ last) h1
      unfold loop said
      rw [t, d]
      dsimp only
      cases hmsg : message m with
      | none => rfl
      | some x =>
        dsimp only
        rw [loop_said ms last n (fun y hy => hm y (List.mem_cons_of_mem _ hy)) hl (by omega)]

/-- Every text is a list of messages and a rest. -/
theorem parts : ∀ (n : Nat) (s : Str), s.length ≤ n → ∃ (ms : List Str) (last : Str), s = (ms.flatMap fun m => m ++ ['\x00']) ++ last ∧ (∀ m ∈ ms, '\x00' ∉ m) ∧ '\x00' ∉ last
  | n, s, hn => by
    rcases first_cut (c := '\x00') s with h | ⟨a, b, ha, rfl⟩
    · exact ⟨[], s, rfl, ⟨fun m hm => (nomatch hm), h⟩⟩
    · cases n with
      | zero => rw [List.length_append, List.length_cons] at hn; omega
      | succ n =>
        obtain ⟨ms, last, hb, h1, h2⟩ := parts n b (by rw [List.length_append, List.length_cons] at hn; omega)
        refine ⟨a :: ms, last, ?_, fun m hm => ?_, h2⟩
        · rw [List.flatMap_cons, hb]; simp only [List.append_assoc, List.cons_append, List.nil_append]
        · rcases List.mem_cons.1 hm with rfl | hm
          · exact ha
          · exact h1 m hm

theorem said_append (a b : List Str) : said (a ++ b) = if (said a).2 then ((said a).1 ++ (said b).1, (said b).2) else said a := by
  induction a with
  | nil => rfl
  | cons m a ih =>
    rw [List.cons_append]
    have key : ∀ l, said (m :: l) = match message m with
      | none => ([], false)
      | some x => (x :: (said l).1, (said l).2) := fun l => rfl
    rw [key, key]
    cases message m with
    | none => rfl
    | some x =>
      dsimp only
      rw [ih]
      split <;> rfl

theorem feed_said : ∀ (ds : List Str) (buf : Str), '\x00' ∉ buf → ∀ (ms : List Str) (last : Str), buf ++ ds.flatten = (ms.flatMap fun m => m ++ ['\x00']) ++ last →
    (∀ m ∈ ms, '\x00' ∉ m) → '\x00' ∉ last → feed buf ds = ((said ms).1, if (said ms).2 then some last else none)
  | [], buf, hb, ms, last, e, hm, hl => by
    have h1 := loop_clean (n := (buf ++ ([] : List Str).flatten).length) hb
    have h2 := loop_said ms last (buf ++ ([] : List Str).flatten).length hm hl (by rw [e, List.length_append]; exact Nat.le_refl _)
    rw [← e, show buf ++ ([] : List Str).flatten = buf from List.append_nil buf] at h2
    rw [show buf ++ ([] : List Str).flatten = buf from List.append_nil buf, h2] at h1
    rw [h1]
    rfl
  | d :: ds, buf, hb, ms, last, e, hm, hl => by
    obtain ⟨ms1, l1, e1, hm1, hl1⟩ := parts _ (buf ++ d) (Nat.le_refl _)
    obtain ⟨ms2, l2, e2, hm2, hl2⟩ := parts _ (l1 ++ ds.flatten) (Nat.le_refl _)
    have hsame : ∀ (a b : List Str) (x y : Str), (∀ m ∈ a, '\x00' ∉ m) → (∀ m ∈ b, '\x00' ∉ m) → '\x00' ∉ x → '\x00' ∉ y →
        (a.flatMap fun m => m ++ ['\x00']) ++ x = (b.flatMap fun m => m ++ ['\x00']) ++ y → a = b ∧ x = y := by
      have key : ∀ (a : List Str) (x : Str), (∀ m ∈ a, '\x00' ∉ m) → '\x00' ∉ x → splitOn '\x00' ((a.flatMap fun m => m ++ ['\x00']) ++ x) = a ++ [x] := by
        intro a x ha hx
        induction a with
        | nil => exact splitOn_clean _ _ hx
        | cons m a ih =>
          have e : ((m :: a).flatMap fun m => m ++ ['\x00']) ++ x = m ++ '\x00' :: ((a.flatMap fun m => m ++ ['\x00']) ++ x) := by
            simp only [List.flatMap_cons, List.append_assoc, List.cons_append, List.nil_append]
          rw [e, splitOn_append, splitOn_clean _ _ (ha m List.mem_cons_self), ih fun y hy => ha y (List.mem_cons_of_mem _ hy)]
          rfl
      intro a b x y ha hb hx hy e
      have e := congrArg (splitOn '\x00') e
      rw [key a x ha hx, key b y hb hy] at e
      obtain ⟨h1, h2⟩ := List.append_inj' e rfl
      exact ⟨h1, (List.cons.inj h2).1⟩
    have hall : ms1 ++ ms2 = ms ∧ l2 = last := by
      refine hsame _ _ _ _ (fun m h => (List.mem_append.1 h).elim (hm1 m) (hm2 m)) hm hl2 hl ?_
      rw [← e, List.flatten_cons, ← List.append_assoc, e1, List.flatMap_append, List.append_assoc, ← e2, List.append_assoc]
    obtain ⟨rfl, rfl⟩ := hall
    have hr : readFifo buf d = ((said ms1).1, if (said ms1).2 then some l1 else none) := by
      unfold readFifo
      have := loop_said ms1 l1 (buf ++ d).length hm1 hl1 (by rw [e1, List.length_append]; exact Nat.le_refl _)
      rw [← e1] at this
      exact this
    unfold feed
    rw [hr, said_append]
    cases h : (said ms1).2 with
    | false =>
      dsimp only
      rw [if_neg Bool.false_ne_true, if_neg Bool.false_ne_true]
      dsimp only
      rw [h, if_neg Bool.false_ne_true]
    | true =>
      dsimp only
      rw [if_pos rfl, if_pos rfl]
      dsimp only
      rw [feed_said ds l1 hl1 ms2 l2 e2 hm2 hl2]

/-- C176: what a script says arrives message by message, in its order, in whatever pieces it is read; a message that is not complete yet
waits, and nothing arrives after a message that cannot be read. -/
theorem pieces {ds ms : List Str} {last : Str} (h : ds.flatten = (ms.flatMap fun m => m ++ ['\x00']) ++ last) (hm : ∀ m ∈ ms, '\x00' ∉ m) (hl : '\x00' ∉ last) :
    feed [] ds = ((said ms).1, if (said ms).2 then some last else none) :=
  feed_said ds [] List.not_mem_nil ms last (by rw [List.nil_append]; exact h) hm hl

/-- C176: so pieces do not matter. -/
theorem pieces_do_not_matter {a b : List Str} (h : a.flatten = b.flatten) : feed [] a = feed [] b := by
  obtain ⟨ms, last, e, hm, hl⟩ := parts _ a.flatten (Nat.le_refl _)
  rw [pieces e hm hl, pieces (h ▸ e) hm hl]

theorem cut1_at {a b : Str} (ha : ' ' ∉ a) : cut1 (a ++ ' ' :: b) = (a, some b) := by
  obtain ⟨t, d⟩ := cut_at (b := b) ha
  unfold cut1
  rw [t, d]

/-- C176: a message has its text, whatever is in it. -/
theorem texts (s : Str) : message ("bbplain ".toList ++ s) = some (.plain s) ∧ message ("bbnote ".toList ++ s) = some (.note s) ∧ message ("bbverbnote ".toList ++ s) = some (.verbnote s) ∧
    message ("bbwarn ".toList ++ s) = some (.warn s) ∧ message ("bberror ".toList ++ s) = some (.error s false) ∧ message ("bbfatal ".toList ++ s) = some (.error s false) ∧
    message ("bbfatal_log ".toList ++ s) = some (.error s true) := by
  refine ⟨?_, ?_, ?_, ?_, ?_, ?_, ?_⟩
  · have h : cut1 ("bbplain ".toList ++ s) = ("bbplain".toList, some s) := cut1_at (a := "bbplain".toList) (by decide)
    unfold message; rw [h]; rfl
  · have h : cut1 ("bbnote ".toList ++ s) = ("bbnote".toList, some s) := cut1_at (a := "bbnote".toList) (by decide)
    unfold message; rw [h]; rfl
  · have h : cut1 ("bbverbnote ".toList ++ s) = ("bbverbnote".toList, some s) := cut1_at (a := "bbverbnote".toList) (by decide)
    unfold message; rw [h]; rfl
  · have h : cut1 ("bbwarn ".toList ++ s) = ("bbwarn".toList, some s) := cut1_at (a := "bbwarn".toList) (by decide)
    unfold message; rw [h]; rfl
  · have h : cut1 ("bberror ".toList ++ s) = ("bberror".toList, some s) := cut1_at (a := "bberror".toList) (by decide)
    unfold message; rw [h]; rfl
  · have h : cut1 ("bbfatal ".toList ++ s) = ("bbfatal".toList, some s) := cut1_at (a := "bbfatal".toList) (by decide)
    unfold message; rw [h]; rfl
  · have h : cut1 ("bbfatal_log ".toList ++ s) = ("bbfatal_log".toList, some s) := cut1_at (a := "bbfatal_log".toList) (by decide)
    unfold message; rw [h]; rfl

/-- C176: and one for debugging has its level. -/
theorem debug_text (n : Nat) (s : Str) : message ("bbdebug ".toList ++ (dec n ++ ' ' :: s)) = some (.debug n s) := by
  have hd : ∀ c ∈ dec n, c.isDigit = true := fun c hc => dec_digits hc
  have h1 : cut1 ("bbdebug ".toList ++ (dec n ++ ' ' :: s)) = ("bbdebug".toList, some (dec n ++ ' ' :: s)) := cut1_at (a := "bbdebug".toList) (by decide)
  have h2 : cut1 (dec n ++ ' ' :: s) = (dec n, some s) := cut1_at fun hm => absurd (hd _ hm) (by decide)
  have h3 : digits (dec n) = some n := by
    unfold digits
    rw [if_pos ⟨dec_ne_nil n, List.all_eq_true.2 hd⟩, decVal_dec]
  unfold message
  rw [h1]
  dsimp only [Option.getD]
  rw [h2, h3]
  rfl

/-- Against C176: a message for debugging without a text is an exception, and messages after it are lost. -/
theorem debug_lost : feed [] ["bbdebug 2\x00bberror x\x00".toList] = ([], none) := by decide +kernel

example : feed [] ["bbno".toList, "te a b\x00bbwa".toList, "rn c\x00bb".toList] = ([.note "a b".toList, .warn "c".toList], some "bb".toList) := by decide +kernel

end Bb.TaskRun
