import Verif.Bb.RevsModel

/-!
C279: operations on tables that processes share are done as a whole, or not at all.
C280: reading all of a table works while others write to it.
C281: a build uses one revision of a repository.
C282: revisions of earlier builds are dropped or kept as the user wants, and changes are told.
-/

namespace Isar.Bb.Revs

open Py

namespace Spec

/-- what others did to the table, one after the other -/
def after (db : Db) : List (Db → Db) → Db
  | [] => db
  | f :: fs => after (f db) fs

/-- a table holds a value for a key -/
def holds (db : Db) (k v : Str) : Prop := db.lookup k = some v

/-- The keys are different. -/
def unique (db : Db) : Prop := (db.map (·.1)).Nodup

end Spec

/-! ## C279 -/

theorem retryGo_locked {α : Type} {op : Op α} : ∀ (fs : List (Db → Db)) (left : Nat) (rest : List Att) (db : Db), fs.length ≤ left →
    retryGo op left (fs.map Att.locked ++ rest) db = retryGo op (left - fs.length) rest (Spec.after db fs)
  | [], left, rest, db, _ => rfl
  | f :: fs, left, rest, db, h => by
    rcases left with _ | left
    · simp at h
    · show retryGo op left (fs.map Att.locked ++ rest) (f db) = _
      rw [retryGo_locked fs left rest (f db) (by simpa using h)]
      simp only [List.length_cons, Nat.add_sub_add_right]
      rfl

/-- **C279**: an operation that finds the database locked up to 500 times is then done once, as a whole, on what others have made of the table. -/
theorem done_once {α : Type} {op : Op α} {fs : List (Db → Db)} (h : fs.length ≤ 500) (rest : List Att) (hr : rest = [] ∨ ∃ t, rest = .ok :: t) (db : Db) :
    (∀ a db', op (Spec.after db fs) = .ok (a, db') → retry op (fs.map Att.locked ++ rest) db = (.ok a, db')) ∧
    ∀ e, op (Spec.after db fs) = .error e → retry op (fs.map Att.locked ++ rest) db = (.error e, Spec.after db fs) := by
  have h1 : retry op (fs.map Att.locked ++ rest) db = transaction op (Spec.after db fs) := by
    unfold retry
    rw [retryGo_locked fs 500 rest db h]
    rcases hr with rfl | ⟨t, rfl⟩
    · unfold retryGo; rfl
    · unfold retryGo; rfl
  rw [h1]
  unfold transaction
  exact ⟨fun a db' h2 => by rw [h2], fun e h2 => by rw [h2]⟩

/-- **C279**: with another failure, or if the database is locked more often, the operation fails and has done nothing. -/
theorem not_done {α : Type} {op : Op α} {fs : List (Db → Db)} (rest : List Att) (db : Db) :
    (fs.length ≤ 500 → retry op (fs.map Att.locked ++ .failed :: rest) db = (.error .operational, Spec.after db fs)) ∧
    (fs.length = 500 → ∀ f, retry op (fs.map Att.locked ++ .locked f :: rest) db = (.error .operational, Spec.after db fs)) := by
  constructor
  · intro h
    unfold retry
    rw [retryGo_locked fs 500 _ db h]
    unfold retryGo; rfl
  · intro h f
    unfold retry
    rw [retryGo_locked fs 500 _ db (by omega), h]
    unfold retryGo; rfl

theorem lookup_map_other {k k' v : Str} (h : k' ≠ k) : ∀ db : Db, (db.map fun x => if x.1 = k then (k, v) else x).lookup k' = db.lookup k'
  | [] => rfl
  | (a, b) :: db => by
    rw [List.map_cons]
    by_cases ha : a = k
    · rw [if_pos ha]
      rw [List.lookup_cons, List.lookup_cons, lookup_map_other h db]
      have h1 : (k' == k) = false := by simpa using h
      have h2 : (k' == a) = false := by rw [ha]; exact h1
      rw [h1, h2]
    · rw [if_neg ha, List.lookup_cons, List.lookup_cons, lookup_map_other h db]

theorem lookup_map_same {k v : Str} : ∀ db : Db, (db.lookup k).isSome → (db.map fun x => if x.1 = k then (k, v) else x).lookup k = some v
  | [], h => by simp at h
  | (a, b) :: db, h => by
    rw [List.map_cons]
    by_cases ha : a = k
    · rw [if_pos ha, List.lookup_cons]; simp
    · rw [if_neg ha, List.lookup_cons]
      have h1 : (k == a) = false := by simpa using fun e => ha e.symm
      rw [h1]
      rw [List.lookup_cons, h1] at h
      exact lookup_map_same db h

theorem lookup_append' {k : Str} : ∀ (a b : Db), (a ++ b).lookup k = (a.lookup k).or (b.lookup k)
  | [], b => rfl
  | (x, y) :: a, b => by
    rw [List.cons_append, List.lookup_cons, List.lookup_cons]
    cases hq : k == x with
    | true => rfl
    | false => exact lookup_append' a b

theorem lookup_none_iff {k : Str} : ∀ {db : Db}, db.lookup k = none ↔ k ∉ db.map (·.1)
  | [] => by simp
  | (a, b) :: db => by
    rw [List.lookup_cons, List.map_cons, List.mem_cons, not_or]
    cases hq : k == a with
    | true => simp [beq_iff_eq.mp hq]
    | false =>
      rw [show ((match false with | true => some b | false => List.lookup k db) = none) = (List.lookup k db = none) from rfl, lookup_none_iff]
      exact ⟨fun h => ⟨by simpa using hq, h⟩, fun h => h.2⟩

theorem set_lookup {k v : Str} {db : Db} : ∃ db', setOp k v db = .ok ((), db') ∧ Spec.holds db' k v ∧ ∀ k', k' ≠ k → db'.lookup k' = db.lookup k' := by
  unfold setOp
  by_cases h : (db.lookup k).isSome = true
  · rw [if_pos h]
    exact ⟨_, rfl, lookup_map_same db h, fun k' hk => lookup_map_other hk db⟩
  · rw [if_neg h]
    have hn : db.lookup k = none := Option.not_isSome_iff_eq_none.mp h
    refine ⟨_, rfl, ?_, fun k' hk => ?_⟩
    · show (db ++ [(k, v)]).lookup k = some v
      rw [lookup_append', hn]; simp
    · rw [lookup_append', List.lookup_cons]
      have h1 : (k' == k) = false := by simpa using hk
      rw [h1]; simp

/-- **C279**: a value that is stored is read, other keys are not touched, and no key is there twice. -/
theorem set_get {k v : Str} {db : Db} : ∃ db', setOp k v db = .ok ((), db') ∧ getOp k db' = .ok (v, db') ∧ (∀ k', k' ≠ k → db'.lookup k' = db.lookup k') ∧
    (Spec.unique db → Spec.unique db') := by
  obtain ⟨db', h1, h2, h3⟩ := set_lookup (k := k) (v := v) (db := db)
  refine ⟨db', h1, ?_, h3, fun hu => ?_⟩
  · unfold getOp
    rw [show db'.lookup k = some v from h2]
  · unfold setOp at h1
    by_cases h : (db.lookup k).isSome = true
    · rw [if_pos h] at h1
      have : db' = db.map fun x => if x.1 = k then (k, v) else x := by injection h1 with h1; exact (Prod.mk.inj h1).2.symm
      rw [this]
      unfold Spec.unique
      rw [List.map_map]
      have : ((fun x : Str × Str => x.1) ∘ fun x => if x.1 = k then (k, v) else x) = fun x => x.1 := by
        funext x
        show (if x.1 = k then (k, v) else x).1 = x.1
        by_cases hx : x.1 = k
        · rw [if_pos hx, hx]
        · rw [if_neg hx]
      rw [this]
      exact hu
    · rw [if_neg h] at h1
      have : db' = db ++ [(k, v)] := by injection h1 with h1; exact (Prod.mk.inj h1).2.symm
      rw [this]
      unfold Spec.unique
      rw [List.map_append, List.nodup_append]
      refine ⟨hu, by simp, fun a ha b hb => ?_⟩
      have hn : db.lookup k = none := Option.not_isSome_iff_eq_none.mp h
      rintro rfl
      rw [List.map_cons, List.map_nil, List.mem_singleton] at hb
      rw [hb] at ha
      exact lookup_none_iff.mp hn ha

/-- **C279**: a key that is deleted is gone, other keys are not touched; to delete or read a key that is not there is an error. -/
theorem del_get {k : Str} {db : Db} :
    (∀ v, Spec.holds db k v → ∃ db', delOp k db = .ok ((), db') ∧ getOp k db' = .error .key ∧ ∀ k', k' ≠ k → db'.lookup k' = db.lookup k') ∧
    (db.lookup k = none → delOp k db = .error .key ∧ getOp k db = .error .key) := by
  constructor
  · intro v hv
    refine ⟨_, by unfold delOp; rw [if_pos (by rw [show db.lookup k = some v from hv]; rfl)], ?_, ?_⟩
    · unfold getOp
      have : (db.filter fun x => decide (x.1 ≠ k)).lookup k = none := by
        rw [lookup_none_iff]
        intro hm
        obtain ⟨x, hx, he⟩ := List.mem_map.mp hm
        exact (by simpa using (List.mem_filter.mp hx).2 : x.1 ≠ k) he
      rw [this]
    · intro k' hk
      clear hv
      induction db with
      | nil => rfl
      | cons x db ih =>
        obtain ⟨a, b⟩ := x
        by_cases ha : a = k
        · rw [List.filter_cons, if_neg (by simpa using ha), ih, List.lookup_cons]
          have : (k' == a) = false := by rw [ha]; simpa using hk
          rw [this]
        · rw [List.filter_cons, if_pos (by simpa using ha), List.lookup_cons, List.lookup_cons, ih]
  · intro h
    unfold delOp getOp
    rw [h]
    exact ⟨rfl, rfl⟩

example : (retry (setOp "k".toList "v".toList) [.locked fun db => db ++ [("o".toList, "1".toList)], .ok] []).2 = [("o".toList, "1".toList), ("k".toList, "v".toList)] := by
  decide +kernel

/-! ## C280 -/

/-- **C280** in part: all rows are read if the database is not locked. -/
theorem rows_all_partial {atts : List Att} {db : Db} (h : atts = [] ∨ ∃ t, atts = .ok :: t) : rows atts db = (.ok db, db) := by
  rcases h with rfl | ⟨t, rfl⟩ <;> rfl

/-- A single moment in which it is locked makes reading all rows fail, and not with the right error; reading one key would have worked. -/
theorem rows_not_retried {f : Db → Db} {rest : List Att} {db : Db} {k v : Str} (hr : rest = [] ∨ ∃ t, rest = .ok :: t) (h : Spec.holds (f db) k v) :
    (rows (.locked f :: rest) db).1 = .error .type_ ∧ (retry (getOp k) (.locked f :: rest) db).1 = .ok v := by
  refine ⟨rfl, ?_⟩
  have := (done_once (op := getOp k) (fs := [f]) (by simp) rest hr db).1 v (f db) (by
    show getOp k (f db) = _
    unfold getOp
    rw [show (f db).lookup k = some v from h])
  rw [show Att.locked f :: rest = [f].map Att.locked ++ rest from rfl, this]

example : Spec.holds ((fun db => db ++ [("k".toList, "v".toList)]) []) "k".toList "v".toList := by unfold Spec.holds; decide +kernel

/-! ## C281 -/

/-- the revision that a process goes on with, if it has one -/
def revOf : Proc → Option Str
  | .look => none
  | .ask => none
  | .store r => some r
  | .done r => some r

theorem store_lookup {k v : Str} {db : Db} : (transaction (setOp k v) db).2.lookup k = some v := by
  obtain ⟨db', h1, h2, _⟩ := set_lookup (k := k) (v := v) (db := db)
  unfold transaction
  rw [h1]
  exact h2

theorem step_good {key remote : Str} {p : Proc} {db : Db} {good : Str → Prop} (hr : good remote) (hp : ∀ r, revOf p = some r → good r)
    (hd : ∀ v, Spec.holds db key v → good v) :
    (∀ r, revOf (step key remote p db).1 = some r → good r) ∧ ∀ v, Spec.holds (step key remote p db).2 key v → good v := by
  unfold step
  cases p with
  | look =>
    dsimp only
    rcases hq : db.lookup key with _ | v
    · exact ⟨fun r h => (by cases h), hd⟩
    · refine ⟨fun r h => ?_, hd⟩
      have : v = r := Option.some.inj h
      rw [← this]; exact hd v hq
  | ask =>
    refine ⟨fun r h => ?_, hd⟩
    have : remote = r := Option.some.inj h
    rw [← this]; exact hr
  | store r =>
    refine ⟨fun r' h => hp r' h, fun v h => ?_⟩
    have h2 : (transaction (setOp key r) db).2.lookup key = some v := h
    rw [store_lookup] at h2
    exact hp v h2
  | done r => exact ⟨hp, hd⟩

theorem run_good {key : Str} {good : Str → Prop} : ∀ (ss : List (Nat × Str)) (ps : List Proc) (db : Db), (∀ s ∈ ss, good s.2) →
    (∀ p ∈ ps, ∀ r, revOf p = some r → good r) → (∀ v, Spec.holds db key v → good v) →
    (∀ p ∈ (run key ss ps db).1, ∀ r, revOf p = some r → good r) ∧ ∀ v, Spec.holds (run key ss ps db).2 key v → good v
  | [], ps, db, _, hp, hd => ⟨hp, hd⟩
  | (i, remote) :: ss, ps, db, hs, hp, hd => by
    unfold run
    have hs' : ∀ s ∈ ss, good s.2 := fun s h => hs s (List.mem_cons_of_mem _ h)
    rcases hq : ps[i]? with _ | p
    · exact run_good ss ps db hs' hp hd
    · dsimp only
      have hm : p ∈ ps := List.mem_of_getElem? hq
      obtain ⟨h1, h2⟩ := step_good (p := p) (db := db) (hs (i, remote) (List.mem_cons_self ..)) (hp p hm) hd
      refine run_good ss _ _ hs' (fun q hq' => ?_) h2
      rcases List.mem_or_eq_of_mem_set hq' with h | h
      · exact hp q h
      · rw [h]; exact h1

/-- **C281**: whatever processes do in whatever order, the revision of each is one from the table or one that the server gave meanwhile. -/
theorem revision_origin {key : Str} {ss : List (Nat × Str)} {n : Nat} {db : Db} {r : Str} (h : Proc.done r ∈ (run key ss (List.replicate n .look) db).1) :
    Spec.holds db key r ∨ ∃ s ∈ ss, s.2 = r := by
  have := (run_good (key := key) (good := fun r => Spec.holds db key r ∨ ∃ s ∈ ss, s.2 = r) ss (List.replicate n .look) db
    (fun s hs => Or.inr ⟨s, hs, rfl⟩) (fun p hp r hr => by rw [(List.mem_replicate.mp hp).2] at hr; cases hr) (fun v hv => Or.inl hv)).1 _ h r rfl
  exact this

/-- **C281** in part: if the revision is in the table, all processes use it, whatever the server says. -/
theorem one_revision_partial {key : Str} {ss : List (Nat × Str)} {n : Nat} {db : Db} {v r : Str} (hv : Spec.holds db key v)
    (h : Proc.done r ∈ (run key ss (List.replicate n .look) db).1) : r = v := by
  have key' : ∀ (ss : List (Nat × Str)) (ps : List Proc), (∀ p ∈ ps, p = .look ∨ p = .done v) → ∀ p ∈ (run key ss ps db).1, p = .look ∨ p = .done v := by
    intro ss
    induction ss with
    | nil => intro ps hp; exact hp
    | cons s ss ih =>
      obtain ⟨i, remote⟩ := s
      intro ps hp
      unfold run
      rcases hq : ps[i]? with _ | p
      · exact ih ps hp
      · dsimp only
        have hm := hp p (List.mem_of_getElem? hq)
        have hst : step key remote p db = (.done v, db) := by
          rcases hm with rfl | rfl
          · unfold step
            dsimp only
            rw [show db.lookup key = some v from hv]
          · rfl
        rw [hst]
        refine ih _ (fun q hq' => ?_)
        rcases List.mem_or_eq_of_mem_set hq' with h | h
        · exact hp q h
        · exact Or.inr h
  rcases key' ss _ (fun p hp => Or.inl (List.mem_replicate.mp hp).2) _ h with h | h
  · cases h
  · exact Proc.done.inj h

/-- **C281** in part: if the server gives the same revision all the time, and the table no other, all use this. -/
theorem same_answer {key : Str} {ss : List (Nat × Str)} {n : Nat} {db : Db} {v r : Str} (hd : ∀ w, Spec.holds db key w → w = v) (hs : ∀ s ∈ ss, s.2 = v)
    (h : Proc.done r ∈ (run key ss (List.replicate n .look) db).1) : r = v := by
  rcases revision_origin h with h | ⟨s, hm, h⟩
  · exact hd r h
  · rw [← h]; exact hs s hm

/-- **C281**: a process that is alone gets the revision from the server and leaves it for the others. -/
theorem first_stores {key a b c : Str} {db : Db} {rest : List Proc} (hn : db.lookup key = none) :
    ∃ db', run key [(0, a), (0, b), (0, c)] (.look :: rest) db = (.done b :: rest, db') ∧ Spec.holds db' key b := by
  refine ⟨(transaction (setOp key b) db).2, ?_, store_lookup⟩
  simp only [run, step, List.getElem?_cons_zero, List.set_cons_zero, hn]

/-- Two processes that look at the same time use different revisions, if there is a commit meanwhile. -/
theorem race : (run "k".toList [(0, []), (1, []), (0, "r1".toList), (1, "r2".toList), (0, []), (1, [])] [.look, .look] []).1 = [.done "r1".toList, .done "r2".toList] := by
  decide +kernel

example : (run "k".toList [(0, "x".toList), (1, "y".toList)] [.look, .look] [("k".toList, "r".toList)]).1 = [.done "r".toList, .done "r".toList] := by decide +kernel

/-! ## C282 -/

theorem clear_retry {fs : List (Db → Db)} (h : fs.length ≤ 500) (db : Db) : retry clearOp (fs.map Att.locked) db = (.ok (), []) := by
  have := (done_once (op := clearOp) h [] (Or.inl rfl) db).1 () [] rfl
  rwa [List.append_nil] at this

/-- **C282**: by default, and with the policy `clear`, the revisions of earlier builds are dropped; with the policy `cache` they are kept; another policy is an error. -/
theorem policies {policy : Str} {saved db : Db} :
    ((policy = [] ∨ policy = "clear".toList) → ∃ s, fetcherInit policy [] [] saved db = (.ok s, []) ∧ s = if saved = [] then db else saved) ∧
    (policy = "cache".toList → ∃ s, fetcherInit policy [] [] saved db = (.ok s, db) ∧ s = if saved = [] then db else saved) ∧
    (policy ≠ [] → policy ≠ "clear".toList → policy ≠ "cache".toList → (fetcherInit policy [] [] saved db).1 = .error .fetch) := by
  have hcc : "clear".toList ≠ "cache".toList := by decide
  have hce : "clear".toList ≠ [] := by decide
  have hae : "cache".toList ≠ [] := by decide
  have hr : rows [] db = (.ok db, db) := rfl
  have hc := clear_retry (fs := []) (by simp) db
  rw [List.map_nil] at hc
  refine ⟨?_, ?_, ?_⟩
  · intro h
    have hp : (if policy = [] then "clear".toList else policy) = "clear".toList := by
      rcases h with h | h
      · rw [if_pos h]
      · rw [h, if_neg hce]
    unfold fetcherInit
    by_cases hs : saved = []
    · simp only [hs, if_true, hr, hp, if_neg hcc, hc]
      exact ⟨_, rfl, rfl⟩
    · simp only [hs, if_false, hp, if_neg hcc, if_true, hc]
      exact ⟨_, rfl, rfl⟩
  · intro h
    subst h
    unfold fetcherInit
    by_cases hs : saved = []
    · simp only [hs, if_true, hr, if_neg hae]
      exact ⟨_, rfl, rfl⟩
    · simp only [hs, if_false, if_neg hae, if_true]
      exact ⟨_, rfl, rfl⟩
  · intro h1 h2 h3
    unfold fetcherInit
    by_cases hs : saved = []
    · simp only [hs, if_true, hr, if_neg h1, if_neg h2, if_neg h3]
    · simp only [hs, if_false, if_neg h1, if_neg h2, if_neg h3]

/-- **C282**: a change is told if and only if a revision differs from those that were there at the start, or one is new or missing. -/
theorem changed_iff {saved db : Db} : ∃ b, changed [] saved db = .ok b ∧ (b = true ↔ ∃ k, db.lookup k ≠ saved.lookup k) := by
  refine ⟨_, rfl, ?_⟩
  rw [Bool.not_eq_true']
  unfold sameRows
  constructor
  · intro h
    rw [List.all_eq_false] at h
    obtain ⟨x, _, hx⟩ := h
    exact ⟨x.1, by simpa using hx⟩
  · rintro ⟨k, hk⟩
    rw [List.all_eq_false]
    have hm : k ∈ (db ++ saved).map (·.1) := by
      rw [List.map_append, List.mem_append]
      by_cases h1 : k ∈ db.map (·.1)
      · exact Or.inl h1
      · right
        refine Classical.byContradiction fun h2 => ?_
        rw [lookup_none_iff.mpr h1, lookup_none_iff.mpr h2] at hk
        exact hk rfl
    obtain ⟨x, hx, rfl⟩ := List.mem_map.mp hm
    exact ⟨x, hx, by simpa using hk⟩

/-- If the database is locked at the start, nothing is saved and nothing is told; all revisions count as changed later. -/
theorem locked_at_start : (fetcherInit "cache".toList [.locked id] [] [] [("k".toList, "r".toList)]).1.toOption = some [] ∧
    (changed [] [] [("k".toList, "r".toList)]).toOption = some true ∧ (fetcherInit "cache".toList [] [] [] [("k".toList, "r".toList)]).1.toOption = some [("k".toList, "r".toList)] ∧
    (changed [] [("k".toList, "r".toList)] [("k".toList, "r".toList)]).toOption = some false := by decide +kernel

/-- If it is locked at the end, the comparison fails. -/
theorem locked_at_end {f : Db → Db} {rest : List Att} {saved db : Db} : changed (.locked f :: rest) saved db = .error .type_ := rfl

end Isar.Bb.Revs
