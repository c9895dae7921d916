import Verif.Bb.HashModel

/-
Hash equivalence (C180, C181, C182).
-/

namespace Bb.Hash
open Py

/-! ### Tables -/

/-- A task has a unified hash. -/
def HasU (db : Db) (m t u : Str) : Prop := ∃ k, ⟨m, t, u, k⟩ ∈ db.unis

theorem getUni_some {db : Db} {m t u : Str} (h : getUni db m t = some u) : HasU db m t u := by
  unfold getUni at h
  cases hf : db.unis.find? fun y => decide (y.method = m) && decide (y.task = t) with
  | none => rw [hf] at h; cases h
  | some y =>
    rw [hf] at h
    injection h with h
    have hp := List.find?_some (p := fun y : Uni => decide (y.method = m) && decide (y.task = t)) hf
    rw [Bool.and_eq_true, decide_eq_true_iff, decide_eq_true_iff] at hp
    refine ⟨y.mark, ?_⟩
    rw [← hp.1, ← hp.2, ← h]
    exact List.mem_of_find?_eq_some hf

theorem getUni_none {db : Db} {m t : Str} (h : getUni db m t = none) (u : Str) : ¬ HasU db m t u := fun ⟨k, hk⟩ => by
  unfold getUni at h
  rw [Option.map_eq_none_iff, List.find?_eq_none] at h
  refine h _ hk ?_
  rw [Bool.and_eq_true, decide_eq_true_iff, decide_eq_true_iff]
  exact ⟨rfl, rfl⟩

theorem any_iff {db : Db} {m t : Str} : (db.unis.any fun y => decide (y.method = m) && decide (y.task = t)) = true ↔ ∃ u, HasU db m t u := by
  rw [List.any_eq_true]
  constructor
  · rintro ⟨y, hy, h⟩
    rw [Bool.and_eq_true, decide_eq_true_iff, decide_eq_true_iff] at h
    refine ⟨y.uni, y.mark, ?_⟩
    rw [← h.1, ← h.2]; exact hy
  · rintro ⟨u, k, hk⟩
    refine ⟨_, hk, ?_⟩
    rw [Bool.and_eq_true, decide_eq_true_iff, decide_eq_true_iff]
    exact ⟨rfl, rfl⟩

theorem insertUni_has {db : Db} {m t u : Str} {m' t' u' : Str} : HasU (insertUni db m t u) m' t' u' ↔ HasU db m' t' u' ∨ (m' = m ∧ t' = t ∧ u' = u ∧ ∀ v, ¬ HasU db m t v) := by
  unfold insertUni
  split
  · rename_i h
    obtain ⟨v, hv⟩ := any_iff.1 h
    exact ⟨.inl, fun h => h.resolve_right fun ⟨_, _, _, hn⟩ => hn v hv⟩
  · rename_i h
    have hn : ∀ v, ¬ HasU db m t v := fun v hv => h (any_iff.2 ⟨v, hv⟩)
    constructor
    · rintro ⟨k, hk⟩
      rcases List.mem_append.1 hk with hk | hk
      · exact .inl ⟨k, hk⟩
      · injection List.mem_singleton.1 hk with e1 e2 e3 e4
        exact .inr ⟨e1, e2, e3, hn⟩
    · rintro (⟨k, hk⟩ | ⟨rfl, rfl, rfl, _⟩)
      · exact ⟨k, List.mem_append_left _ hk⟩
      · exact ⟨_, List.mem_append_right _ (List.mem_singleton.2 rfl)⟩

theorem insertOut_unis (db : Db) (x : Out) : (insertOut db x).unis = db.unis := by
  unfold insertOut; split <;> rfl

theorem insertOut_mark (db : Db) (x : Out) : (insertOut db x).mark = db.mark := by
  unfold insertOut; split <;> rfl

theorem insertOut_getUni (db : Db) (x : Out) (m t : Str) : getUni (insertOut db x) m t = getUni db m t := by
  unfold getUni; rw [insertOut_unis]

theorem insertOut_has (db : Db) (x : Out) (m t u : Str) : HasU (insertOut db x) m t u ↔ HasU db m t u := by
  unfold HasU; rw [insertOut_unis]

theorem insertOut_mem {db : Db} {x y : Out} (h : y ∈ (insertOut db x).outs) : y ∈ db.outs ∨ y = x := by
  unfold insertOut at h
  split at h
  · exact .inl h
  · rcases List.mem_append.1 h with h | h
    · exact .inl h
    · exact .inr (List.mem_singleton.1 h)

theorem insertOut_old {db : Db} {x y : Out} (h : y ∈ db.outs) : y ∈ (insertOut db x).outs := by
  unfold insertOut
  split
  · exact h
  · exact List.mem_append_left _ h

theorem insertOut_new (db : Db) (x : Out) : ∃ y ∈ (insertOut db x).outs, y.method = x.method ∧ y.task = x.task ∧ y.out = x.out := by
  unfold insertOut
  split
  · rename_i h
    unfold hasOut at h
    rw [List.any_eq_true] at h
    obtain ⟨y, hy, h⟩ := h
    rw [Bool.and_eq_true, Bool.and_eq_true, decide_eq_true_iff, decide_eq_true_iff, decide_eq_true_iff] at h
    exact ⟨y, hy, h.1.1, h.1.2, h.2⟩
  · exact ⟨x, List.mem_append_right _ (List.mem_singleton.2 rfl), rfl, rfl, rfl⟩

/-- What is asked for after an insertion. -/
theorem getUni_insert (db : Db) (m t u m' t' : Str) : getUni (insertUni db m t u) m' t' = if m' = m ∧ t' = t then some ((getUni db m t).getD u) else getUni db m' t' := by
  unfold insertUni
  split
  · rename_i h
    obtain ⟨v, hv⟩ := any_iff.1 h
    split
    · rename_i e
      obtain ⟨rfl, rfl⟩ := e
      cases hg : getUni db m' t' with
      | none => exact absurd hv (getUni_none hg v)
      | some w => rfl
    · rfl
  · rename_i h
    have hn : getUni db m t = none := by
      cases hg : getUni db m t with
      | none => rfl
      | some w => exact absurd (any_iff.2 ⟨w, getUni_some hg⟩) h
    show ((db.unis ++ [(⟨m, t, u, db.mark.getD []⟩ : Uni)]).find? fun y => decide (y.method = m') && decide (y.task = t')).map (·.uni) = _
    rw [List.find?_append]
    split
    · rename_i e
      obtain ⟨rfl, rfl⟩ := e
      rw [hn]
      unfold getUni at hn
      rw [Option.map_eq_none_iff] at hn
      rw [hn, Option.none_or, List.find?_cons_of_pos (by rw [decide_eq_true rfl, decide_eq_true rfl]; rfl)]
      rfl
    · rename_i e
      rw [List.find?_cons_of_neg (fun hh => e (by
        rw [Bool.and_eq_true, decide_eq_true_iff, decide_eq_true_iff] at hh
        exact ⟨hh.1.symm, hh.2.symm⟩)), List.find?_nil, Option.or_none]
      rfl

theorem oldest_mem : ∀ {l : List (Nat × Str)} {x : Nat × Str}, oldest l = some x → x ∈ l
  | y :: ys, x, h => by
    unfold oldest at h
    split at h
    · cases h; exact List.mem_cons_self
    · rename_i z hz
      split at h
      · cases h; exact List.mem_cons_of_mem _ (oldest_mem hz)
      · cases h; exact List.mem_cons_self

theorem oldest_none : ∀ {l : List (Nat × Str)}, oldest l = none → l = []
  | [], _ => rfl
  | y :: ys, h => by
    unfold oldest at h
    split at h
    · cases h
    · split at h <;> cases h

/-- Nothing is older than the oldest. -/
theorem oldest_le : ∀ {l : List (Nat × Str)} {x y : Nat × Str}, oldest l = some x → y ∈ l → x.1 ≤ y.1
  | z :: zs, x, y, h, hy => by
    unfold oldest at h
    split at h
    · rename_i hn
      rw [oldest_none hn] at hy
      cases h
      rw [List.mem_singleton.1 hy]; exact Nat.le_refl _
    · rename_i w hw
      have hz : y ∈ zs → w.1 ≤ y.1 := fun hy => oldest_le hw hy
      split at h
      · cases h
        rcases List.mem_cons.1 hy with rfl | hy
        · omega
        · exact hz hy
      · cases h
        rcases List.mem_cons.1 hy with rfl | hy
        · exact Nat.le_refl _
        · have := hz hy; omega

theorem find_out_some {db : Db} {p : Out → Bool} {u : Str} (h : (oldest ((db.outs.filter p).filterMap (joined db))).map (·.2) = some u) :
    ∃ x ∈ db.outs, p x = true ∧ getUni db x.method x.task = some u := by
  rw [Option.map_eq_some_iff] at h
  obtain ⟨z, hz, rfl⟩ := h
  obtain ⟨x, hx, hj⟩ := List.mem_filterMap.1 (oldest_mem hz)
  obtain ⟨hx, hp⟩ := List.mem_filter.1 hx
  refine ⟨x, hx, hp, ?_⟩
  unfold joined at hj
  rw [Option.map_eq_some_iff] at hj
  obtain ⟨v, hv, rfl⟩ := hj
  exact hv

theorem find_out_none {db : Db} {p : Out → Bool} (h : (oldest ((db.outs.filter p).filterMap (joined db))).map (·.2) = none) {x : Out} (hx : x ∈ db.outs) (hp : p x = true) : getUni db x.method x.task = none := by
  rw [Option.map_eq_none_iff] at h
  have h2 := oldest_none h
  rw [List.filterMap_eq_nil_iff] at h2
  have h3 := h2 x (List.mem_filter.2 ⟨hx, hp⟩)
  unfold joined at h3
  rw [Option.map_eq_none_iff] at h3
  exact h3

theorem equivalent_some {db : Db} {m o t u : Str} (h : equivalent db m o t = some u) : ∃ x ∈ db.outs, x.method = m ∧ x.out = o ∧ x.task ≠ t ∧ HasU db m x.task u := by
  obtain ⟨x, hx, hp, hu⟩ := find_out_some h
  rw [Bool.and_eq_true, Bool.and_eq_true, decide_eq_true_iff, decide_eq_true_iff, decide_eq_true_iff] at hp
  refine ⟨x, hx, hp.1.1, hp.1.2, hp.2, ?_⟩
  rw [← hp.1.1]; exact getUni_some hu

theorem equivalent_none {db : Db} {m o t : Str} (h : equivalent db m o t = none) {x : Out} (hx : x ∈ db.outs) (h1 : x.method = m) (h2 : x.out = o) (h3 : x.task ≠ t) (u : Str) : ¬ HasU db m x.task u := by
  have := find_out_none h hx (by rw [Bool.and_eq_true, Bool.and_eq_true, decide_eq_true_iff, decide_eq_true_iff, decide_eq_true_iff]; exact ⟨⟨h1, h2⟩, h3⟩)
  rw [h1] at this
  exact getUni_none this u

/-- C181: of several tasks with the same output, the one whose output is known for longest is taken. -/
theorem oldest_taken {db : Db} {m o t u : Str} (h : equivalent db m o t = some u) : ∃ x ∈ db.outs, x.method = m ∧ x.out = o ∧ x.task ≠ t ∧ getUni db m x.task = some u ∧
    ∀ y ∈ db.outs, y.method = m → y.out = o → y.task ≠ t → (∃ v, getUni db m y.task = some v) → x.created ≤ y.created := by
  unfold equivalent at h
  rw [Option.map_eq_some_iff] at h
  obtain ⟨z, hz, rfl⟩ := h
  obtain ⟨x, hx, hj⟩ := List.mem_filterMap.1 (oldest_mem hz)
  obtain ⟨hx, hp⟩ := List.mem_filter.1 hx
  rw [Bool.and_eq_true, Bool.and_eq_true, decide_eq_true_iff, decide_eq_true_iff, decide_eq_true_iff] at hp
  unfold joined at hj
  rw [Option.map_eq_some_iff] at hj
  obtain ⟨v, hv, rfl⟩ := hj
  refine ⟨x, hx, hp.1.1, hp.1.2, hp.2, by rw [← hp.1.1]; exact hv, fun y hy e1 e2 e3 hw => ?_⟩
  obtain ⟨w, hw⟩ := hw
  refine oldest_le (y := (y.created, w)) hz (List.mem_filterMap.2 ⟨y, List.mem_filter.2 ⟨hy, ?_⟩, ?_⟩)
  · rw [Bool.and_eq_true, Bool.and_eq_true, decide_eq_true_iff, decide_eq_true_iff, decide_eq_true_iff]; exact ⟨⟨e1, e2⟩, e3⟩
  · unfold joined
    rw [e1, hw]; rfl

/-! ### C180 -/

theorem insertUni_keeps {db : Db} {m t u m' t' v : Str} (h : getUni db m t = some v) : getUni (insertUni db m' t' u) m t = some v := by
  rw [getUni_insert]
  split
  · rename_i e
    obtain ⟨rfl, rfl⟩ := e
    rw [h]; rfl
  · exact h

theorem step_keeps {always : Bool} {s : State} {m t u : Str} (h : getUni s.db m t = some u) (o : Op) : getUni (step always s o).db m t = some u := by
  cases o with
  | start id r now =>
    show getUni (startRep always s id r now).db m t = _
    have h1 : getUni (insertOut s.db (r.row now)) m t = some u := by rw [insertOut_getUni]; exact h
    unfold startRep
    split
    · split
      · exact insertUni_keeps h1
      · exact h1
    · exact h1
  | finish id up =>
    show getUni (finishRep s id up).db m t = _
    unfold finishRep
    split
    · exact h
    · exact insertUni_keeps h
  | equiv m' t' u' => exact insertUni_keeps h
  | backfill m' t' u' => exact insertUni_keeps h

/-- C180: as long as nothing is removed, the unified hash of a task never changes, whatever clients and upstream servers report, in whatever order their requests are served. -/
theorem stays {always : Bool} {m t u : Str} : ∀ (l : List Op) {s : State}, getUni s.db m t = some u → getUni (l.foldl (step always) s).db m t = some u
  | [], _, h => h
  | o :: l, _, h => stays l (step_keeps h o)

/-- C180: a report of an output that is new, or that is taken for new, is answered with what the task has from then on. -/
theorem answered {always : Bool} {db : Db} {r : Rep} (now : Nat) (h : fresh always db r = true) : getUni (report always db r now) r.method r.task = some (answer (report always db r now) r) := by
  have e : ∃ v, getUni (report always db r now) r.method r.task = some v := by
    unfold report
    rw [if_pos h, getUni_insert, if_pos ⟨rfl, rfl⟩]
    exact ⟨_, rfl⟩
  obtain ⟨v, hv⟩ := e
  unfold answer
  rw [hv]; rfl

/-- C180: that is what it had before, if it had one. -/
theorem answer_old {always : Bool} {db : Db} {r : Rep} {u : Str} (now : Nat) (h : getUni db r.method r.task = some u) : answer (report always db r now) r = u := by
  unfold answer report
  split
  · rw [insertUni_keeps (by rw [insertOut_getUni]; exact h)]; rfl
  · rw [insertOut_getUni, h]; rfl

/-- A report without an upstream server, in steps. -/
theorem report_steps (always : Bool) (s : State) (id : Nat) (r : Rep) (now : Nat) (hid : ∀ p ∈ s.pend, p.1 ≠ id) :
    (step always (step always s (.start id r now)) (.finish id none)).db = report always s.db r now := by
  have hn : s.pend.find? (fun p => p.1 == id) = none := List.find?_eq_none.2 fun p hp => by
    rw [beq_iff_eq]; exact hid p hp
  show (finishRep (startRep always s id r now) id none).db = _
  unfold startRep report
  split
  · cases he : equivalent (insertOut s.db (r.row now)) r.method r.out r.task with
    | some u =>
      dsimp only
      unfold finishRep
      rw [hn]; rfl
    | none =>
      dsimp only
      unfold finishRep
      have h2 : (s.pend ++ [(id, r)]).find? (fun p => p.1 == id) = some (id, r) := by
        rw [List.find?_append, hn, Option.none_or, List.find?_cons_of_pos (by rw [beq_iff_eq])]
      rw [h2]
  · unfold finishRep
    dsimp only
    rw [hn]

example : answer (report false ⟨[], [], none⟩ ⟨"m".toList, "t1".toList, "o".toList, "t1".toList, []⟩ 0) ⟨"m".toList, "t1".toList, "o".toList, "t1".toList, []⟩ = "t1".toList ∧
    answer (report false (report false ⟨[], [], none⟩ ⟨"m".toList, "t1".toList, "o".toList, "t1".toList, []⟩ 0) ⟨"m".toList, "t2".toList, "o".toList, "t2".toList, []⟩ 1)
      ⟨"m".toList, "t2".toList, "o".toList, "t2".toList, []⟩ = "t1".toList := by decide +kernel

/-- Against C180: if the row of the task was removed but its output is known, then the answer to a report is not kept, with a python for which an ignored row is not new. -/
theorem not_kept : let r : Rep := ⟨"m".toList, "t".toList, "o".toList, "t".toList, []⟩
    let db : Db := ⟨[r.row 0], [], none⟩
    answer (report false db r 1) r = "t".toList ∧ getUni (report false db r 1) "m".toList "t".toList = none := by decide +kernel

/-! ### C181 -/

section Equivalence

-- What each task gives, the hash it reports at first, and what an upstream server knows of outputs.
variable (out own up : Str → Str → Str)

/-- Tasks that give the same at all times. -/
def Honest (r : Rep) : Prop := r.out = out r.method r.task ∧ r.uni = own r.method r.task

/-- Hashes do not meet by accident. -/
structure Names : Prop where
  ofOwn : ∀ m t t', own m t = own m t' → out m t = out m t'
  ofUp : ∀ m o o', up m o = up m o' → o = o'
  apart : ∀ m t o, own m t ≠ up m o

/-- All that can happen with honest clients and an honest upstream server, in any order. -/
inductive Reach (always : Bool) : State → Prop
  | init : Reach always ⟨⟨[], [], none⟩, []⟩
  | start {s id r now} : Reach always s → Honest out own r → Reach always (step always s (.start id r now))
  | finish {s id a} : Reach always s → (∀ p ∈ s.pend, p.1 = id → a = none ∨ a = some (up p.2.method p.2.out)) → Reach always (step always s (.finish id a))
  | backfill {s m t} : Reach always s → Reach always (step always s (.backfill m t (up m (out m t))))

/-- Where a hash may come from. -/
def From (m t u : Str) : Prop := (∃ t', out m t' = out m t ∧ u = own m t') ∨ u = up m (out m t)

theorem from_same {m t t' u : Str} (h : From out own up m t u) (e : out m t = out m t') : From out own up m t' u := by
  rcases h with ⟨t2, e2, hu⟩ | hu
  · exact .inl ⟨t2, e2.trans e, hu⟩
  · exact .inr (by rw [← e]; exact hu)

theorem reach_from {always : Bool} {s : State} (h : Reach out own up always s) : (∀ x ∈ s.db.outs, x.out = out x.method x.task) ∧ (∀ m t u, HasU s.db m t u → From out own up m t u) ∧
    (∀ p ∈ s.pend, Honest out own p.2) := by
  induction h with
  | init => exact ⟨fun _ h => (nomatch h), fun _ _ _ ⟨_, h⟩ => (nomatch h), fun _ h => (nomatch h)⟩
  | @start s id r now hs hr ih =>
    obtain ⟨i1, i2, i3⟩ := ih
    have o1 : ∀ x ∈ (insertOut s.db (r.row now)).outs, x.out = out x.method x.task := fun x hx => by
      rcases insertOut_mem hx with hx | rfl
      · exact i1 x hx
      · exact hr.1
    have o2 : ∀ m t u, HasU (insertOut s.db (r.row now)) m t u → From out own up m t u := fun m t u h => i2 m t u ((insertOut_has _ _ _ _ _).1 h)
    show (∀ x ∈ (startRep always s id r now).db.outs, _) ∧ (∀ m t u, HasU (startRep always s id r now).db m t u → _) ∧ ∀ p ∈ (startRep always s id r now).pend, _
    unfold startRep
    split
    · split
      · rename_i u he
        refine ⟨fun x hx => ?_, fun m t v hv => ?_, i3⟩
        · have e : (insertUni (insertOut s.db (r.row now)) r.method r.task u).outs = (insertOut s.db (r.row now)).outs := by unfold insertUni; split <;> rfl
          dsimp only at hx
          rw [e] at hx
          exact o1 x hx
        · rcases insertUni_has.1 hv with hv | ⟨rfl, rfl, rfl, _⟩
          · exact o2 m t v hv
          · obtain ⟨x, hx, e1, e2, _, hu⟩ := equivalent_some he
            refine from_same out own up (o2 _ _ _ hu) ?_
            rw [← hr.1, ← e2, o1 x hx, e1]
      · refine ⟨o1, o2, fun p hp => ?_⟩
        rcases List.mem_append.1 hp with hp | hp
        · exact i3 p hp
        · rw [List.mem_singleton.1 hp]; exact hr
    · exact ⟨o1, o2, i3⟩
  | @finish s id a hs ha ih =>
    obtain ⟨i1, i2, i3⟩ := ih
    show (∀ x ∈ (finishRep s id a).db.outs, _) ∧ (∀ m t u, HasU (finishRep s id a).db m t u → _) ∧ ∀ p ∈ (finishRep s id a).pend, _
    unfold finishRep
    split
    · exact ⟨i1, i2, i3⟩
    · rename_i p hp
      have hm := List.mem_of_find?_eq_some hp
      have hid := List.find?_some hp
      rw [beq_iff_eq] at hid
      refine ⟨fun x hx => ?_, fun m t v hv => ?_, fun q hq => i3 q (List.mem_filter.1 hq).1⟩
      · have e : (insertUni s.db p.2.method p.2.task (a.getD p.2.uni)).outs = s.db.outs := by unfold insertUni; split <;> rfl
        dsimp only at hx
        rw [e] at hx
        exact i1 x hx
      · rcases insertUni_has.1 hv with hv | ⟨rfl, rfl, rfl, _⟩
        · exact i2 m t v hv
        · rcases ha p hm hid with rfl | rfl
          · exact .inl ⟨p.2.task, rfl, (i3 p hm).2⟩
          · refine .inr ?_
            show up p.2.method p.2.out = _
            rw [(i3 p hm).1]
  | @backfill s m t hs ih =>
    obtain ⟨i1, i2, i3⟩ := ih
    refine ⟨fun x hx => ?_, fun m' t' v hv => ?_, i3⟩
    · have e : (insertUni s.db m t (up m (out m t))).outs = s.db.outs := by unfold insertUni; split <;> rfl
      have hx : x ∈ (insertUni s.db m t (up m (out m t))).outs := hx
      rw [e] at hx
      exact i1 x hx
    · rcases insertUni_has.1 hv with hv | ⟨rfl, rfl, rfl, _⟩
      · exact i2 m' t' v hv
      · exact .inr rfl

/-- C181, where it holds: if tasks give the same at all times, then two tasks with the same unified hash give the same, in whatever order clients and the upstream server are served. -/
theorem same_hash_partial (hn : Names out own up) {always : Bool} {s : State} (h : Reach out own up always s) {m t t' u : Str} (h1 : getUni s.db m t = some u) (h2 : getUni s.db m t' = some u) :
    out m t = out m t' := by
  obtain ⟨_, hf, _⟩ := reach_from out own up h
  rcases hf m t u (getUni_some h1) with ⟨a, ea, ha⟩ | ha
  · rcases hf m t' u (getUni_some h2) with ⟨b, eb, hb⟩ | hb
    · rw [← ea, ← eb]; exact hn.ofOwn m a b (ha.symm.trans hb)
    · exact absurd (ha.symm.trans hb) (hn.apart m a _)
  · rcases hf m t' u (getUni_some h2) with ⟨b, eb, hb⟩ | hb
    · exact absurd (hb.symm.trans ha) (hn.apart m b _)
    · exact hn.ofUp m _ _ (ha.symm.trans hb)

/-- Requests that are served one after the other, without an upstream server: reports, collections, and cleaning. -/
inductive Sop where
  | report (r : Rep) (now : Nat)
  | mark (k : Str) (c : Cond)
  | sweep (k : Str)
  | clean (now : Nat) (age : Int)

def serial (always : Bool) (db : Db) : Sop → Db
  | .report r now => report always db r now
  | .mark k c => gcMark db k c
  | .sweep k => (gcSweep db k).getD db
  | .clean now age => cleanUnused db now age

/-- Tasks with a hash have an output; tasks with the same output have the same hash; hashes are those of such a task. -/
structure Inv (db : Db) : Prop where
  outs : ∀ x ∈ db.outs, x.out = out x.method x.task
  known : ∀ m t u, HasU db m t u → ∃ x ∈ db.outs, x.method = m ∧ x.task = t
  same : ∀ m t t' u u', HasU db m t u → HasU db m t' u' → out m t = out m t' → u = u'
  own : ∀ m t u, HasU db m t u → ∃ t', out m t' = out m t ∧ u = own m t'

theorem insertUni_outs (db : Db) (m t u : Str) : (insertUni db m t u).outs = db.outs := by unfold insertUni; split <;> rfl

theorem inv_report {always : Bool} {db : Db} (i : Inv out own db) {r : Rep} (hr : Honest out own r) (now : Nat) : Inv out own (report always db r now) := by
  have o1 : ∀ x ∈ (insertOut db (r.row now)).outs, x.out = out x.method x.task := fun x hx => by
    rcases insertOut_mem hx with hx | rfl
    · exact i.outs x hx
    · exact hr.1
  have o2 : Inv out own (insertOut db (r.row now)) := by
    refine ⟨o1, fun m t u h => ?_, fun m t t' u u' h h' => ?_, fun m t u h => ?_⟩
    · obtain ⟨x, hx, e⟩ := i.known m t u ((insertOut_has _ _ _ _ _).1 h)
      exact ⟨x, insertOut_old hx, e⟩
    · exact i.same m t t' u u' ((insertOut_has _ _ _ _ _).1 h) ((insertOut_has _ _ _ _ _).1 h')
    · exact i.own m t u ((insertOut_has _ _ _ _ _).1 h)
  unfold report
  split
  · -- the hash that is chosen is that of all others with this output
    have key : (∀ t' u', t' ≠ r.task → HasU (insertOut db (r.row now)) r.method t' u' → out r.method t' = out r.method r.task →
          u' = (equivalent (insertOut db (r.row now)) r.method r.out r.task).getD r.uni) ∧
        ∃ t', out r.method t' = out r.method r.task ∧ (equivalent (insertOut db (r.row now)) r.method r.out r.task).getD r.uni = own r.method t' := by
      cases he : equivalent (insertOut db (r.row now)) r.method r.out r.task with
      | some u =>
        obtain ⟨x, hx, e1, e2, _, hu⟩ := equivalent_some he
        have eo : out r.method x.task = out r.method r.task := by rw [← hr.1, ← e2, o1 x hx, e1]
        refine ⟨fun t' u' _ h e => o2.same _ _ _ _ _ h hu (e.trans eo.symm), ?_⟩
        obtain ⟨t', e3, e4⟩ := o2.own _ _ _ hu
        exact ⟨t', e3.trans eo, e4⟩
      | none =>
        refine ⟨fun t' u' hne h e => ?_, r.task, rfl, hr.2⟩
        obtain ⟨x, hx, e1, e2⟩ := o2.known _ _ _ h
        have : x.out = r.out := by rw [o1 x hx, e1, e2, e, hr.1]
        rw [← e2] at h hne
        exact absurd h (equivalent_none he hx e1 this hne u')
    generalize (equivalent (insertOut db (r.row now)) r.method r.out r.task).getD r.uni = w at key
    refine ⟨fun x hx => o1 x (by rw [insertUni_outs] at hx; exact hx), fun m t u h => ?_, fun m t t' u u' h h' e => ?_, fun m t u h => ?_⟩
    · rw [insertUni_outs]
      rcases insertUni_has.1 h with h | ⟨rfl, rfl, _, _⟩
      · exact o2.known m t u h
      · obtain ⟨y, hy, f1, f2, _⟩ := insertOut_new db (r.row now)
        exact ⟨y, hy, f1, f2⟩
    · rcases insertUni_has.1 h with h | ⟨rfl, rfl, rfl, hno⟩
      · rcases insertUni_has.1 h' with h' | ⟨rfl, rfl, rfl, hno⟩
        · exact o2.same m t t' u u' h h' e
        · rename_i hold
          exact key.1 t u (fun e2 => hno u (e2 ▸ hold)) hold e
      · rcases insertUni_has.1 h' with h' | ⟨_, _, rfl, _⟩
        · exact (key.1 t' u' (fun e2 => hno u' (e2 ▸ h')) h' e.symm).symm
        · rfl
    · rcases insertUni_has.1 h with h | ⟨rfl, rfl, rfl, _⟩
      · exact o2.own m t u h
      · exact key.2
  · exact o2

theorem inv_sub {db db' : Db} (i : Inv out own db) (h1 : db'.outs = db.outs) (h2 : ∀ m t u, HasU db' m t u → HasU db m t u) : Inv out own db' := by
  refine ⟨fun x hx => i.outs x (h1 ▸ hx), fun m t u h => ?_, fun m t t' u u' h h' => i.same m t t' u u' (h2 _ _ _ h) (h2 _ _ _ h'), fun m t u h => i.own m t u (h2 _ _ _ h)⟩
  rw [h1]; exact i.known m t u (h2 _ _ _ h)

theorem gcMark_has (db : Db) (k : Str) (c : Cond) (m t u : Str) : HasU (gcMark db k c) m t u ↔ HasU db m t u := by
  unfold gcMark HasU
  dsimp only
  split
  · exact Iff.rfl
  · constructor
    · rintro ⟨q, hq⟩
      obtain ⟨y, hy, e⟩ := List.mem_map.1 hq
      split at e
      · injection e with e1 e2 e3 e4
        refine ⟨y.mark, ?_⟩
        rw [← e1, ← e2, ← e3]; exact hy
      · rw [e] at hy; exact ⟨q, hy⟩
    · rintro ⟨q, hq⟩
      by_cases hm : Uni.meets ⟨m, t, u, q⟩ (where_ uniCols c) = true
      · exact ⟨k, List.mem_map.2 ⟨_, hq, by rw [if_pos hm]⟩⟩
      · exact ⟨q, List.mem_map.2 ⟨_, hq, by rw [if_neg hm]⟩⟩

theorem inv_serial {always : Bool} {db : Db} (i : Inv out own db) {o : Sop} (ho : ∀ r now, o = .report r now → Honest out own r) : Inv out own (serial always db o) := by
  cases o with
  | report r now => exact inv_report out own i (ho r now rfl) now
  | mark k c => exact inv_sub out own i rfl fun m t u h => (gcMark_has db k c m t u).1 h
  | sweep k =>
    show Inv out own ((gcSweep db k).getD db)
    unfold gcSweep
    split
    · exact i
    · split
      · exact i
      · exact inv_sub out own i rfl fun m t u ⟨q, hq⟩ => ⟨q, (List.mem_filter.1 hq).1⟩
  | clean now age =>
    refine ⟨fun x hx => i.outs x (List.mem_filter.1 hx).1, fun m t u h => ?_, i.same, i.own⟩
    obtain ⟨x, hx, e1, e2⟩ := i.known m t u h
    refine ⟨x, List.mem_filter.2 ⟨hx, ?_⟩, e1, e2⟩
    rw [show (db.unis.any fun y => decide (y.method = x.method) && decide (y.task = x.task)) = true from any_iff.2 ⟨u, by rw [e1, e2]; exact h⟩, Bool.not_true, Bool.and_false]
    rfl

theorem inv_history {always : Bool} : ∀ (l : List Sop) {db : Db}, Inv out own db → (∀ r now, Sop.report r now ∈ l → Honest out own r) → Inv out own (l.foldl (serial always) db)
  | [], _, i, _ => i
  | _ :: l, _, i, h => inv_history l (inv_serial out own i fun r now e => h r now (List.mem_cons.2 (.inl e.symm))) fun r now hm => h r now (List.mem_cons_of_mem _ hm)

/-- C181, where it holds: if tasks give the same at all times and requests are served one after the other, then two tasks have the same unified hash if and only if they give the same, also after
collections and cleaning. -/
theorem equivalence_partial (hown : ∀ m t t', own m t = own m t' → out m t = out m t') {always : Bool} {l : List Sop} (hl : ∀ r now, Sop.report r now ∈ l → Honest out own r) {m t t' u u' : Str}
    (h1 : getUni (l.foldl (serial always) ⟨[], [], none⟩) m t = some u) (h2 : getUni (l.foldl (serial always) ⟨[], [], none⟩) m t' = some u') : u = u' ↔ out m t = out m t' := by
  have i := inv_history out own (always := always) l (db := ⟨[], [], none⟩) ⟨fun _ h => (nomatch h), fun _ _ _ ⟨_, h⟩ => (nomatch h), fun _ _ _ _ _ ⟨_, h⟩ => (nomatch h), fun _ _ _ ⟨_, h⟩ => nomatch h⟩ hl
  constructor
  · rintro rfl
    obtain ⟨a, ea, ha⟩ := i.own m t u (getUni_some h1)
    obtain ⟨b, eb, hb⟩ := i.own m t' u (getUni_some h2)
    rw [← ea, ← eb]; exact hown m a b (ha.symm.trans hb)
  · exact i.same m t t' u u' (getUni_some h1) (getUni_some h2)

/-- C181: a server that is read only answers the same as one that is not, for tasks that are known. -/
theorem read_only {always : Bool} {l : List Sop} (hl : ∀ r now, Sop.report r now ∈ l → Honest out own r) {r : Rep} (hr : Honest out own r) {u : Str}
    (h : getUni (l.foldl (serial always) ⟨[], [], none⟩) r.method r.task = some u) : answerRo (l.foldl (serial always) ⟨[], [], none⟩) r = u := by
  have i := inv_history out own (always := always) l (db := ⟨[], [], none⟩) ⟨fun _ h => (nomatch h), fun _ _ _ ⟨_, h⟩ => (nomatch h), fun _ _ _ _ _ ⟨_, h⟩ => (nomatch h), fun _ _ _ ⟨_, h⟩ => nomatch h⟩ hl
  generalize l.foldl (serial always) ⟨[], [], none⟩ = db at h i
  unfold answerRo
  cases hb : byOut db r.method r.out with
  | some v =>
    obtain ⟨x, hx, hp, hu⟩ := find_out_some hb
    rw [Bool.and_eq_true, decide_eq_true_iff, decide_eq_true_iff] at hp
    rw [hp.1] at hu
    refine i.same r.method x.task r.task v u (getUni_some hu) (getUni_some h) ?_
    rw [← hr.1, ← hp.2, i.outs x hx, hp.1]
  | none =>
    obtain ⟨x, hx, e1, e2⟩ := i.known _ _ _ (getUni_some h)
    have := find_out_none hb hx (by rw [Bool.and_eq_true, decide_eq_true_iff, decide_eq_true_iff]; exact ⟨e1, by rw [i.outs x hx, e1, e2, hr.1]⟩)
    rw [e1, e2, h] at this
    cases this

end Equivalence

/-- An output of a task: its first letter, say. -/
def firstLetter (_ t : Str) : Str := t.take 1

theorem sample_names : Names firstLetter (fun _ t => 'x' :: t) (fun _ o => 'y' :: o) :=
  ⟨fun _ t t' h => by rw [(List.cons.inj h).2], fun _ _ _ h => (List.cons.inj h).2, fun _ _ _ h => absurd (List.cons.inj h).1 (by decide)⟩

example : let rep := fun t : Str => (⟨"m".toList, t, t.take 1, 'x' :: t, []⟩ : Rep)
    let db := [Sop.report (rep "a1".toList) 0, .report (rep "b1".toList) 1, .report (rep "a2".toList) 2, .mark "k".toList [("taskhash".toList, some "a1".toList)], .sweep "k".toList, .clean 5 0,
      .report (rep "a3".toList) 9].foldl (serial true) ⟨[], [], none⟩
    getUni db "m".toList "a1".toList = some "xa1".toList ∧ getUni db "m".toList "a3".toList = some "xa1".toList ∧ getUni db "m".toList "b1".toList = none := by decide +kernel

example : ∀ t, Honest firstLetter (fun _ t => 'x' :: t) ⟨"m".toList, t, t.take 1, 'x' :: t, []⟩ := fun _ => ⟨rfl, rfl⟩

/-- Against C181: if a task in between gives now this and now that, then two tasks that never gave the same have the same unified hash. -/
theorem chain : let rep := fun t o : Str => (⟨[], t, o, t, []⟩ : Rep)
    let db := [Sop.report (rep "t1".toList "a".toList) 0, .report (rep "t2".toList "a".toList) 1, .report (rep "t2".toList "b".toList) 2, .report (rep "t3".toList "b".toList) 3].foldl (serial false) ⟨[], [], none⟩
    getUni db [] "t1".toList = some "t1".toList ∧ getUni db [] "t3".toList = some "t1".toList := by decide +kernel

/-- Against C181: with an upstream server, two reports of the same output at the same time get different hashes, for ever. -/
theorem race : let rep := fun t : Str => (⟨[], t, "o".toList, t, []⟩ : Rep)
    let s := [Op.start 1 (rep "t1".toList) 0, .start 2 (rep "t2".toList) 1, .finish 1 none, .finish 2 none].foldl (step false) ⟨⟨[], [], none⟩, []⟩
    getUni s.db [] "t1".toList = some "t1".toList ∧ getUni s.db [] "t2".toList = some "t2".toList := by decide +kernel

/-! ### C182 -/

/-- A condition says something about unified hashes. -/
def Asks (c : Cond) : Prop := ∃ k v, (k = "method".toList ∨ k = "taskhash".toList ∨ k = "unihash".toList ∨ k = "gc_mark".toList) ∧ c.lookup k = some (some v)

/-- A row is as a condition says. -/
def Fits (y : Uni) (c : Cond) : Prop := (∀ v, c.lookup "method".toList = some (some v) → y.method = v) ∧ (∀ v, c.lookup "taskhash".toList = some (some v) → y.task = v) ∧
  (∀ v, c.lookup "unihash".toList = some (some v) → y.uni = v) ∧ ∀ v, c.lookup "gc_mark".toList = some (some v) → y.mark = v

theorem mem_where {cols : List Str} {c : Cond} {k v : Str} : (k, v) ∈ where_ cols c ↔ k ∈ cols ∧ c.lookup k = some (some v) := by
  unfold where_
  rw [List.mem_filterMap]
  constructor
  · rintro ⟨k', hk, e⟩
    split at e
    · rename_i w hw
      injection e with e
      injection e with e1 e2
      subst e1 e2
      exact ⟨hk, hw⟩
    · cases e
  · rintro ⟨hk, h⟩
    exact ⟨k, hk, by rw [h]⟩

theorem mem_uniCols {k : Str} : k ∈ uniCols ↔ k = "method".toList ∨ k = "taskhash".toList ∨ k = "unihash".toList ∨ k = "gc_mark".toList := by
  unfold uniCols
  rw [List.mem_cons, List.mem_cons, List.mem_cons, List.mem_singleton]

theorem where_asks {c : Cond} : where_ uniCols c ≠ [] ↔ Asks c := by
  constructor
  · intro h
    obtain ⟨⟨k, v⟩, hk⟩ := List.exists_mem_of_ne_nil _ h
    obtain ⟨h1, h2⟩ := mem_where.1 hk
    exact ⟨k, v, mem_uniCols.1 h1, h2⟩
  · rintro ⟨k, v, hk, h⟩ e
    have := mem_where.2 ⟨mem_uniCols.2 hk, h⟩
    rw [e] at this; cases this

theorem meets_iff {y : Uni} {c : Cond} : y.meets (where_ uniCols c) = true ↔ Fits y c := by
  have c1 : y.col "method".toList = some y.method := rfl
  have c2 : y.col "taskhash".toList = some y.task := rfl
  have c3 : y.col "unihash".toList = some y.uni := rfl
  have c4 : y.col "gc_mark".toList = some y.mark := rfl
  unfold Uni.meets
  rw [List.all_eq_true]
  constructor
  · intro h
    have key : ∀ k v, k ∈ uniCols → c.lookup k = some (some v) → y.col k = some v := fun k v hk hl => beq_iff_eq.1 (h (k, v) (mem_where.2 ⟨hk, hl⟩))
    refine ⟨fun v hl => ?_, fun v hl => ?_, fun v hl => ?_, fun v hl => ?_⟩
    · have := key _ v (mem_uniCols.2 (.inl rfl)) hl; rw [c1] at this; exact Option.some.inj this
    · have := key _ v (mem_uniCols.2 (.inr (.inl rfl))) hl; rw [c2] at this; exact Option.some.inj this
    · have := key _ v (mem_uniCols.2 (.inr (.inr (.inl rfl)))) hl; rw [c3] at this; exact Option.some.inj this
    · have := key _ v (mem_uniCols.2 (.inr (.inr (.inr rfl)))) hl; rw [c4] at this; exact Option.some.inj this
  · rintro ⟨h1, h2, h3, h4⟩ ⟨k, v⟩ hk
    obtain ⟨hk, hl⟩ := mem_where.1 hk
    rw [beq_iff_eq]
    rcases mem_uniCols.1 hk with rfl | rfl | rfl | rfl
    · rw [c1, h1 v hl]
    · rw [c2, h2 v hl]
    · rw [c3, h3 v hl]
    · rw [c4, h4 v hl]

/-- What may be asked for while rows are marked. -/
inductive Gop where
  | mark (c : Cond)
  | report (r : Rep) (now : Nat)
  | equiv (m t u : Str)

def during (always : Bool) (k : Str) (db : Db) : Gop → Db
  | .mark c => gcMark db k c
  | .report r now => report always db r now
  | .equiv m t u => insertUni db m t u

/-- Rows are only added, and have the mark then; what is there may get the mark. -/
def Marked (k : Str) (db db' : Db) : Prop := db'.mark = some k ∧ (∀ y ∈ db.unis, y ∈ db'.unis ∨ { y with mark := k } ∈ db'.unis) ∧
  ∀ y ∈ db'.unis, y ∈ db.unis ∨ y.mark = k

theorem marked_insert {k : Str} {db : Db} (h : db.mark = some k) (m t u : Str) : Marked k db (insertUni db m t u) := by
  unfold insertUni
  split
  · exact ⟨h, fun y hy => .inl hy, fun y hy => .inl hy⟩
  · refine ⟨h, fun y hy => .inl (List.mem_append_left _ hy), fun y hy => ?_⟩
    rcases List.mem_append.1 hy with hy | hy
    · exact .inl hy
    · rw [List.mem_singleton.1 hy, h]; exact .inr rfl

theorem marked_mark (k : Str) (db : Db) (c : Cond) : Marked k db (gcMark db k c) := by
  unfold gcMark
  refine ⟨rfl, fun y hy => ?_, fun y hy => ?_⟩
  · dsimp only
    split
    · exact .inl hy
    · by_cases hm : y.meets (where_ uniCols c) = true
      · exact .inr (List.mem_map.2 ⟨y, hy, by rw [if_pos hm]⟩)
      · exact .inl (List.mem_map.2 ⟨y, hy, by rw [if_neg hm]⟩)
  · dsimp only at hy
    split at hy
    · exact .inl hy
    · obtain ⟨z, hz, rfl⟩ := List.mem_map.1 hy
      split
      · exact .inr rfl
      · exact .inl hz

theorem marked_during {always : Bool} {k : Str} {db : Db} (h : db.mark = some k) (o : Gop) : Marked k db (during always k db o) := by
  cases o with
  | mark c => exact marked_mark k db c
  | equiv m t u => exact marked_insert h m t u
  | report r now =>
    have h1 : (insertOut db (r.row now)).mark = some k := by rw [insertOut_mark]; exact h
    show Marked k db (report always db r now)
    have key : ∀ w, Marked k db (insertUni (insertOut db (r.row now)) r.method r.task w) := fun w => by
      have := marked_insert h1 r.method r.task w
      unfold Marked at this ⊢
      rw [insertOut_unis] at this
      exact this
    unfold report
    split
    · exact key _
    · exact ⟨h1, fun y hy => .inl (by rw [insertOut_unis]; exact hy), fun y hy => .inl (by rw [insertOut_unis] at hy; exact hy)⟩

theorem marked_refl {k : Str} {db : Db} (h : db.mark = some k) : Marked k db db := ⟨h, fun _ hy => .inl hy, fun _ hy => .inl hy⟩

theorem marked_trans {k : Str} {a b c : Db} (h1 : Marked k a b) (h2 : Marked k b c) : Marked k a c := by
  refine ⟨h2.1, fun y hy => ?_, fun y hy => ?_⟩
  · rcases h1.2.1 y hy with h | h
    · exact h2.2.1 y h
    · rcases h2.2.1 _ h with h | h
      · exact .inr h
      · exact .inr h
  · rcases h2.2.2 y hy with h | h
    · exact h1.2.2 y h
    · exact .inr h

theorem marked_all {always : Bool} {k : Str} : ∀ (l : List Gop) {db : Db}, db.mark = some k → Marked k db (l.foldl (during always k) db)
  | [], _, h => marked_refl h
  | o :: l, _, h => marked_trans (marked_during h o) (marked_all l (marked_during (always := always) h o).1)

theorem sweep_some {db : Db} {k : Str} (hk : k ≠ []) (h : db.mark = some k) : gcSweep db k = some { db with mark := none, unis := db.unis.filter fun y => y.mark == k } := by
  unfold gcSweep
  rw [h]
  dsimp only
  rw [if_neg fun hh => hh.elim hk fun hh => hh rfl]

/-- C182: what was marked is kept, whatever is reported and marked before the rest is removed. -/
theorem marked_kept {always : Bool} {db : Db} {k : Str} (hk : k ≠ []) {c : Cond} (hc : Asks c) {y : Uni} (hy : y ∈ db.unis) (hf : Fits y c) (l : List Gop) :
    ∃ db', gcSweep (l.foldl (during always k) (gcMark db k c)) k = some db' ∧ { y with mark := k } ∈ db'.unis := by
  have h0 : (gcMark db k c).mark = some k := rfl
  have h1 : { y with mark := k } ∈ (gcMark db k c).unis := by
    unfold gcMark
    dsimp only
    rw [if_neg (where_asks.2 hc)]
    exact List.mem_map.2 ⟨y, hy, by rw [if_pos (meets_iff.2 hf)]⟩
  have hm := marked_all (always := always) l h0
  refine ⟨_, sweep_some hk hm.1, List.mem_filter.2 ⟨?_, by rw [beq_iff_eq]⟩⟩
  rcases hm.2.1 _ h1 with h | h <;> exact h

/-- C182: what came in since then is kept. -/
theorem new_kept {always : Bool} {db : Db} {k : Str} (hk : k ≠ []) {c : Cond} {l : List Gop} {m t u : Str} (h : HasU (l.foldl (during always k) (gcMark db k c)) m t u)
    (hn : ∀ v, ¬ HasU db m t v) : ∃ db', gcSweep (l.foldl (during always k) (gcMark db k c)) k = some db' ∧ HasU db' m t u := by
  have h0 : (gcMark db k c).mark = some k := rfl
  have hm := marked_all (always := always) l h0
  obtain ⟨q, hq⟩ := h
  refine ⟨_, sweep_some hk hm.1, q, List.mem_filter.2 ⟨hq, ?_⟩⟩
  rw [beq_iff_eq]
  rcases hm.2.2 _ hq with h | h
  · exact absurd ((gcMark_has db k c m t u).1 ⟨q, h⟩) (hn u)
  · exact h

/-- A row that no condition fits stays as it is, and it is the only one of its task. -/
theorem unmarked_during {always : Bool} {k : Str} {y : Uni} : ∀ (l : List Gop) {db : Db}, (∀ z ∈ db.unis, z.method = y.method → z.task = y.task → z = y) → y ∈ db.unis →
    (∀ c, Gop.mark c ∈ l → ¬ (Asks c ∧ Fits y c)) → ∀ z ∈ (l.foldl (during always k) db).unis, z.method = y.method → z.task = y.task → z = y
  | [], _, h, _, _ => h
  | o :: l, db, h, hy, hc => by
    have ins : ∀ {e : Db}, e.unis = db.unis → ∀ m t u, (∀ z ∈ (insertUni e m t u).unis, z.method = y.method → z.task = y.task → z = y) ∧ y ∈ (insertUni e m t u).unis := fun {e} he m t u => by
      unfold insertUni
      split
      · rw [he]; exact ⟨h, hy⟩
      · rename_i hn
        refine ⟨fun z hz e1 e2 => ?_, List.mem_append_left _ (he ▸ hy)⟩
        rcases List.mem_append.1 hz with hz | hz
        · exact h z (he ▸ hz) e1 e2
        · rw [List.mem_singleton.1 hz] at e1 e2
          refine absurd (any_iff.2 ⟨y.uni, y.mark, ?_⟩) hn
          rw [he]
          have e1 : m = y.method := e1
          have e2 : t = y.task := e2
          rw [e1, e2]; exact hy
    have one : (∀ z ∈ (during always k db o).unis, z.method = y.method → z.task = y.task → z = y) ∧ y ∈ (during always k db o).unis := by
      cases o with
      | equiv m t u => exact ins rfl m t u
      | report r now =>
        show (∀ z ∈ (report always db r now).unis, _) ∧ y ∈ (report always db r now).unis
        unfold report
        split
        · exact ins (insertOut_unis db _) _ _ _
        · rw [insertOut_unis]; exact ⟨h, hy⟩
      | mark c =>
        have hno := hc c List.mem_cons_self
        show (∀ z ∈ (gcMark db k c).unis, _) ∧ y ∈ (gcMark db k c).unis
        unfold gcMark
        dsimp only
        split
        · exact ⟨h, hy⟩
        · rename_i hw
          have hm : ¬ y.meets (where_ uniCols c) = true := fun hm => hno ⟨where_asks.1 hw, meets_iff.1 hm⟩
          constructor
          · intro z hz e1 e2
            obtain ⟨w, hwm, e⟩ := List.mem_map.1 hz
            split at e
            · rename_i hmw
              rw [← e] at e1 e2
              have := h w hwm e1 e2
              rw [this] at hmw
              exact absurd hmw hm
            · rw [← e] at e1 e2 ⊢
              exact h w hwm e1 e2
          · exact List.mem_map.2 ⟨y, hy, by rw [if_neg hm]⟩
    exact unmarked_during l one.1 one.2 fun c hm => hc c (List.mem_cons_of_mem _ hm)

/-- C182, where it holds: what did not have the mark before and what no condition fits is removed. -/
theorem unmarked_gone_partial {always : Bool} {db : Db} {k : Str} (hk : k ≠ []) {y : Uni} (hy : y ∈ db.unis) (hu : ∀ z ∈ db.unis, z.method = y.method → z.task = y.task → z = y) (hmark : y.mark ≠ k) {c : Cond}
    {l : List Gop} (hc : ∀ d, d = c ∨ Gop.mark d ∈ l → ¬ (Asks d ∧ Fits y d)) :
    ∃ db', gcSweep (l.foldl (during always k) (gcMark db k c)) k = some db' ∧ getUni db' y.method y.task = none := by
  have hm := marked_all (always := always) l (db := gcMark db k c) rfl
  have hun := unmarked_during (always := always) (k := k) (.mark c :: l) hu hy fun d hd => by
    refine hc d ?_
    rcases List.mem_cons.1 hd with e | e
    · injection e with e; exact .inl e
    · exact .inr e
  refine ⟨_, sweep_some hk hm.1, ?_⟩
  cases hg : getUni _ y.method y.task with
  | none => rfl
  | some v =>
    obtain ⟨q, hq⟩ := getUni_some hg
    obtain ⟨hq, hqk⟩ := List.mem_filter.1 hq
    rw [beq_iff_eq] at hqk
    have := hun _ hq rfl rfl
    rw [← this] at hmark
    exact absurd hqk hmark

/-- C182: without the name of the mark that is set nothing is removed. -/
theorem sweep_refused {db : Db} {k : Str} (h : db.mark ≠ some k) : gcSweep db k = none := by
  unfold gcSweep
  cases hm : db.mark with
  | none => rfl
  | some cur =>
    dsimp only
    exact if_pos (.inr fun e => h (by rw [hm, e]))

/-- C182: only outputs of tasks without a unified hash are cleaned away. -/
theorem clean_unused {db : Db} {u : Str} {now : Nat} {age : Int} {x : Out} (hx : x ∈ db.outs) (hu : HasU db x.method x.task u) : x ∈ (cleanUnused db now age).outs := by
  refine List.mem_filter.2 ⟨hx, ?_⟩
  rw [any_iff.2 ⟨u, hu⟩, Bool.not_true, Bool.and_false]; rfl

/-- Against C182: they all are, however young: the age is added to the time instead of being taken off it. -/
theorem young_removed {db : Db} {now : Nat} {age : Int} (ha : 0 < age) {x : Out} (hc : x.created ≤ now) (hu : ∀ u, ¬ HasU db x.method x.task u) : x ∉ (cleanUnused db now age).outs := fun h => by
  obtain ⟨_, h⟩ := List.mem_filter.1 h
  have h1 : (db.unis.any fun y => decide (y.method = x.method) && decide (y.task = x.task)) = false := Bool.eq_false_iff.2 fun hh => by
    obtain ⟨u, hu2⟩ := any_iff.1 hh
    exact hu u hu2
  have h2 : (x.created : Int) < now + age := by omega
  rw [h1, decide_eq_true h2] at h
  cases h

example : let r : Rep := ⟨[], "t".toList, "o".toList, "t".toList, []⟩
    (cleanUnused ⟨[r.row 100], [], none⟩ 101 3600).outs = [] := by decide +kernel

/-- C182: a condition on the columns of unified hashes alone removes exactly the rows that fit. -/
theorem removed_partial {db : Db} {c : Cond} (hc : Asks c) {y : Uni} : y ∈ (remove db c).unis ↔ y ∈ db.unis ∧ ¬ Fits y c := by
  unfold remove
  dsimp only
  rw [if_neg (where_asks.2 hc), List.mem_filter]
  constructor
  · rintro ⟨h1, h2⟩
    refine ⟨h1, fun hf => ?_⟩
    rw [meets_iff.2 hf] at h2; cases h2
  · rintro ⟨h1, h2⟩
    refine ⟨h1, ?_⟩
    rw [Bool.eq_false_iff.2 fun hm => h2 (meets_iff.1 hm)]; rfl

/-- Nothing is removed from the unified hashes by a condition that does not concern them. -/
theorem not_removed {db : Db} {c : Cond} (hc : ¬ Asks c) : (remove db c).unis = db.unis := by
  unfold remove
  dsimp only
  rw [if_pos (Decidable.byContradiction fun h => hc (where_asks.1 h))]

/-- Against C182: to remove one output of a method removes the unified hashes of all tasks of this method. -/
theorem removed_too_much : let db := [Sop.report ⟨"m".toList, "t1".toList, "a".toList, "t1".toList, []⟩ 0, .report ⟨"m".toList, "t2".toList, "b".toList, "t2".toList, []⟩ 0].foldl (serial true) ⟨[], [], none⟩
    let c : Cond := [("method".toList, some "m".toList), ("outhash".toList, some "a".toList)]
    getUni db "m".toList "t2".toList = some "t2".toList ∧ (remove db c).outs.map (·.task) = ["t2".toList] ∧ getUni (remove db c) "m".toList "t2".toList = none := by decide +kernel

/-- Against C182: with the name of an earlier mark nothing of what was kept then is removed. -/
theorem old_mark : let db : Db := ⟨[], [⟨[], "t".toList, "t".toList, "k".toList⟩], none⟩
    (gcSweep (gcMark db "k".toList [("taskhash".toList, some "other".toList)]) "k".toList).map (·.unis) = some db.unis := by decide +kernel

/-- Against C182: a task that is reported again while rows are marked is removed though it is in use. -/
theorem used_removed : let r : Rep := ⟨[], "t".toList, "o".toList, "t".toList, []⟩
    let db := report true ⟨[], [], none⟩ r 0
    (gcSweep (report true (gcMark db "k".toList []) r 1) "k".toList).map (·.unis) = some [] := by decide +kernel

example : Asks [("method".toList, some "m".toList)] ∧ Fits ⟨"m".toList, [], [], []⟩ [("method".toList, some "m".toList)] :=
  ⟨⟨_, "m".toList, .inl rfl, rfl⟩, fun v h => by injection h with h; injection h, fun v h => (nomatch (show (none : Option (Option Str)) = some (some v) from h)), fun v h => (nomatch (show (none : Option (Option Str)) = some (some v) from h)), fun v h => nomatch (show (none : Option (Option Str)) = some (some v) from h)⟩

end Bb.Hash
