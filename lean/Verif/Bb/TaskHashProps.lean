import Verif.Bb.TaskHashLemmas
/-!
# Properties of the hashes of tasks
-/

namespace Bb.TaskHash
open Py

/-- Three tasks: `c` depends on `b` and `a`, and `b` on `a`. -/
def exBuild (base file : Str) (nostamp : Option Str) (lockB : Option Str) : Build where
  tids := ["c".toList, "b".toList, "a".toList]
  task t :=
    if t = "a".toList then
      { pn := "p".toList, name := "a".toList, base := base, files := [("/x/./f".toList, file)],
        nostamp := nostamp }
    else if t = "b".toList then
      { pn := "p".toList, name := "b".toList, base := "2".toList, deps := ["a".toList] }
    else if t = "c".toList then
      { pn := "q".toList, name := "c".toList, base := "3".toList, deps := ["b".toList, "a".toList] }
    else { pn := [], name := [], base := [] }
  keep _ _ := true
  locked t := if t = "b".toList then lockB else none

theorem exDeps (x f : Str) (n l : Option Str) (t d : Str) (h : d ∈ ((exBuild x f n l).task t).deps) :
    (t = "b".toList ∧ d = "a".toList) ∨ (t = "c".toList ∧ (d = "b".toList ∨ d = "a".toList)) := by
  unfold exBuild at h
  dsimp only at h
  by_cases h1 : t = "a".toList
  · rw [if_pos h1] at h; exact nomatch h
  · rw [if_neg h1] at h
    by_cases h2 : t = "b".toList
    · rw [if_pos h2] at h
      exact Or.inl ⟨h2, List.mem_singleton.1 h⟩
    · rw [if_neg h2] at h
      by_cases h3 : t = "c".toList
      · rw [if_pos h3] at h
        refine Or.inr ⟨h3, ?_⟩
        rcases List.mem_cons.1 h with h | h
        · exact Or.inl h
        · exact Or.inr (List.mem_singleton.1 h)
      · rw [if_neg h3] at h; exact nomatch h

theorem exWellFormed (x f : Str) (n l : Option Str) : WellFormed (exBuild x f n l) := by
  constructor
  · intro t _ d hd
    rcases exDeps x f n l t d hd with ⟨_, rfl⟩ | ⟨_, rfl | rfl⟩ <;>
      (show _ ∈ ["c".toList, "b".toList, "a".toList]; decide)
  · refine ⟨fun t => if t = "a".toList then 0 else if t = "b".toList then 1 else 2, fun t d hd => ?_⟩
    rcases exDeps x f n l t d hd with ⟨rfl, rfl⟩ | ⟨rfl, rfl | rfl⟩ <;> decide

/-- **C102.**  Whatever the order in which the tasks are visited, the loop ends without an error, and
every task has the hash that its own data and those of its dependencies determine. -/
theorem every_task_hashed (hash : Str → Str) (b : Build) (hw : WellFormed b)
    (order : List Str → List Str) (ho : ∀ l, (order l).Perm l) :
    ∃ h, allHashes hash b order = some h ∧
      ∀ t, t ∈ b.tids → ∃ x, h.lookup t = some x ∧ HashOf hash b t x :=
  loop_right hw ho _ _ _ (Nat.lt_succ_self _) (fun _ h => nomatch h) (fun _ h => Or.inl h)
    (fun _ h => ⟨h, List.not_mem_nil⟩)

/-- The example, in the order given and in the reverse order. -/
example : (allHashes id (exBuild "1".toList "s".toList none none) id).map (·.lookup "c".toList) =
      some (some "31./fs21./fs".toList) ∧
    (allHashes id (exBuild "1".toList "s".toList none none) List.reverse).map (·.lookup "c".toList) =
      some (some "31./fs21./fs".toList) := by decide +kernel

theorem hashOf_perm {hash : Str → Str} {b b' : Build} (hk : b'.keep = b.keep)
    (hl : b'.locked = b.locked) (hs : ∀ t, SameTask (b.task t) (b'.task t)) {t x : Str}
    (h : HashOf hash b t x) : HashOf hash b' t x := by
  induction h with
  | locked h1 => exact .locked (by rw [hl]; exact h1)
  | @computed t h hn _ ih =>
    have hp : ∀ d, pnid (b'.task d) = pnid (b.task d) := fun d => by rw [(hs d).2]; rfl
    have hd : (runtaskdeps b t).Perm (runtaskdeps b' t) := by
      unfold runtaskdeps
      rw [hk, show (fun d => (pnid (b'.task d), d)) = fun d => (pnid (b.task d), d) from
        funext fun d => by rw [hp d]]
      exact ((hs t).1.filter _).map _
    have e : hashData b t h = hashData b' t h := by
      rw [hashData_eq, hashData_eq, sortPairs_congr hd]
      rw [(hs t).2]; rfl
    rw [e]
    refine .computed h (by rw [hl]; exact hn) fun d hc => ih d ⟨(hs t).1.mem_iff.2 hc.1, ?_⟩
    rw [← hk]; exact hc.2

/-- **C102.**  The hashes are the same for all orders in which sets are visited: the set of tasks, in
each round, and the dependencies of each task. -/
theorem order_irrelevant (hash : Str → Str) (b b' : Build) (hw : WellFormed b) (hw' : WellFormed b')
    (ht : b.tids.Perm b'.tids) (hk : b'.keep = b.keep) (hl : b'.locked = b.locked)
    (hs : ∀ t, SameTask (b.task t) (b'.task t)) (order order' : List Str → List Str)
    (ho : ∀ l, (order l).Perm l) (ho' : ∀ l, (order' l).Perm l) :
    ∃ h h', allHashes hash b order = some h ∧ allHashes hash b' order' = some h' ∧
      ∀ t, t ∈ b.tids → ∃ x, h.lookup t = some x ∧ h'.lookup t = some x := by
  obtain ⟨h, e, hr⟩ := every_task_hashed hash b hw order ho
  obtain ⟨h', e', hr'⟩ := every_task_hashed hash b' hw' order' ho'
  refine ⟨h, h', e, e', fun t h1 => ?_⟩
  obtain ⟨x, hx, hx2⟩ := hr t h1
  obtain ⟨y, hy, hy2⟩ := hr' t (ht.mem_iff.1 h1)
  exact ⟨x, hx, by rw [hy, hashOf_unique (hashOf_perm hk hl hs hx2) hy2]⟩

/-- **C103.**  Only a task and what counts for its hash have an influence: if these are the same in two
builds, the hash is the same. -/
theorem hash_frame (hash : Str → Str) (b b' : Build) (t x : Str)
    (h : ∀ u, Reaches b t u → b'.task u = b.task u ∧ b'.locked u = b.locked u ∧
      ∀ d, b'.keep u d = b.keep u d) (hx : HashOf hash b t x) : HashOf hash b' t x := by
  induction hx with
  | locked h1 => exact .locked (by rw [(h _ .refl).2.1]; exact h1)
  | @computed t g hn _ ih =>
    obtain ⟨h1, h2, h3⟩ := h t .refl
    have hc : ∀ d, Counts b' t d ↔ Counts b t d := fun d => by
      unfold Counts; rw [h1, h3]
    have hd : runtaskdeps b' t = runtaskdeps b t := by
      unfold runtaskdeps
      rw [h1, show b'.keep t = b.keep t from funext h3]
      refine List.map_congr_left fun d hd => ?_
      rw [(h d (.step .refl hn (List.mem_filter.1 hd))).1]
    have e : hashData b t g = hashData b' t g := by rw [hashData_eq, hashData_eq, hd, h1]
    rw [e]
    refine .computed g (by rw [h2]; exact hn) fun d hd' => ih d ((hc d).1 hd') fun u hu => h u ?_
    clear ih
    induction hu with
    | refl => exact .step .refl hn ((hc d).1 hd')
    | step _ h4 h5 ih2 => exact .step ih2 h4 h5

/-- **C103.**  A task that is locked keeps its hash, whatever changes below it. -/
theorem locked_isolates (hash : Str → Str) (b : Build) (t l x : Str) (hl : b.locked t = some l) :
    HashOf hash b t x ↔ x = l := by
  constructor
  · intro h
    exact hashOf_unique h (.locked hl)
  · rintro rfl
    exact .locked hl

/-- With `b` locked to `L`, `c` has the hash of `a` and `L` in its data, and nothing of `b`. -/
example : (allHashes id (exBuild "1".toList "s".toList none (some "L".toList)) id).map
    (·.lookup "c".toList) = some (some "31./fsL".toList) := by decide +kernel

/-! ## Every change is seen -/

/-- Two builds with the same graph for `t`. -/
def SameGraph (b b' : Build) (t : Str) : Prop :=
  ∀ u, Reaches b t u → runtaskdeps b' u = runtaskdeps b u ∧ b'.locked u = b.locked u ∧
    (b'.task u).base.length = (b.task u).base.length

/-- All hashes have `n` characters. -/
def HashLength (hash : Str → Str) (b : Build) (n : Nat) : Prop :=
  (∀ s, (hash s).length = n) ∧ ∀ t l, b.locked t = some l → l.length = n

theorem hashOf_length {hash : Str → Str} {b : Build} {n : Nat} (h : HashLength hash b n) {t x : Str}
    (hx : HashOf hash b t x) : x.length = n := by
  cases hx with
  | locked hl => exact h.2 _ _ hl
  | computed _ _ _ => exact h.1 _

theorem counts_of_runtaskdeps {b b' : Build} {u : Str} (h : runtaskdeps b' u = runtaskdeps b u) (d : Str)
    (hc : Counts b u d) : Counts b' u d := by
  have hm := mem_runtaskdeps.2 ⟨d, hc, rfl⟩
  rw [← h] at hm
  obtain ⟨d', hd', e⟩ := mem_runtaskdeps.1 hm
  rw [(Prod.mk.inj e).2]; exact hd'

/-- One step: equal hashes of a task that is not locked come from equal data. -/
theorem same_step {hash : Str → Str} {b b' : Build} {t u y : Str} {n : Nat} (hn : HashLength hash b n)
    (hn' : HashLength hash b' n) (hg : SameGraph b b' t) (hnc : NoCollision hash b b' t)
    (hu : Reaches b t u) (hu' : Reaches b' t u) (hl : b.locked u = none) (h1 : HashOf hash b u y)
    (h2 : HashOf hash b' u y) :
    (b'.task u).base = (b.task u).base ∧ ownText (b'.task u) = ownText (b.task u) ∧
      ∀ d, Counts b u d → ∃ z, HashOf hash b d z ∧ HashOf hash b' d z := by
  obtain ⟨g1, g2, g3⟩ := hg u hu
  have hl' : b'.locked u = none := by rw [g2]; exact hl
  cases h1 with
  | locked h => rw [hl] at h; cases h
  | computed h _ hd =>
    generalize hy : hash (hashData b u h) = y at h2
    cases h2 with
    | locked h => rw [hl'] at h; cases h
    | computed h' _ hd' =>
      have e := hnc _ _ ⟨u, h, hu, hl, hd, rfl⟩ ⟨u, h', hu', hl', hd', rfl⟩ hy
      rw [hashData_eq, hashData_eq, g1, List.append_assoc, List.append_assoc] at e
      obtain ⟨e1, e2⟩ := List.append_inj e g3.symm
      have hmem : ∀ p, p ∈ sortBy pairLe (runtaskdeps b u) → Counts b u p.2 := by
        intro p hp
        obtain ⟨d, hc, rfl⟩ := mem_runtaskdeps.1 ((sortBy_perm _ _).mem_iff.1 hp)
        exact hc
      obtain ⟨e3, e4⟩ := flatten_inj (n := n) (by rw [List.length_map, List.length_map])
        (fun x hx => by
          obtain ⟨p, hp, rfl⟩ := List.mem_map.1 hx
          exact hashOf_length hn (hd _ (hmem p hp)))
        (fun x hx => by
          obtain ⟨p, hp, rfl⟩ := List.mem_map.1 hx
          exact hashOf_length hn' (hd' _ (counts_of_runtaskdeps g1 _ (hmem p hp)))) e2
      refine ⟨e1.symm, e4.symm, fun d hc => ⟨h d, hd d hc, ?_⟩⟩
      have hp : (pnid (b.task d), d) ∈ sortBy pairLe (runtaskdeps b u) :=
        (sortBy_perm _ _).mem_iff.2 (mem_runtaskdeps.2 ⟨d, hc, rfl⟩)
      have e5 : h d = h' d := List.map_inj_left.1 e3 _ hp
      rw [e5]
      exact hd' d (counts_of_runtaskdeps g1 d hc)

/-- **C104.**  Every change is seen by all tasks above: if the base hash, or the text of the files and
the taint, of a task that counts for `t` is another one, then `t` has another hash. -/
theorem change_seen (hash : Str → Str) (b b' : Build) (t u x y : Str) (n : Nat)
    (hn : HashLength hash b n) (hn' : HashLength hash b' n) (hg : SameGraph b b' t)
    (hnc : NoCollision hash b b' t) (hu : Reaches b t u) (hl : b.locked u = none)
    (hx : HashOf hash b t x) (hy : HashOf hash b' t y)
    (hd : (b'.task u).base ≠ (b.task u).base ∨ ownText (b'.task u) ≠ ownText (b.task u)) : x ≠ y := by
  rintro rfl
  have key : Reaches b' t u ∧ ∃ z, HashOf hash b u z ∧ HashOf hash b' u z := by
    clear hd hl
    induction hu with
    | refl => exact ⟨.refl, x, hx, hy⟩
    | @step u d h1 h2 h3 ih =>
      obtain ⟨h4, z, h5, h6⟩ := ih
      obtain ⟨_, _, h7⟩ := same_step hn hn' hg hnc h1 h4 h2 h5 h6
      obtain ⟨g1, g2, _⟩ := hg u h1
      exact ⟨.step h4 (by rw [g2]; exact h2) (counts_of_runtaskdeps g1 d h3), h7 d h3⟩
  obtain ⟨h4, z, h5, h6⟩ := key
  obtain ⟨e1, e2, _⟩ := same_step hn hn' hg hnc hu h4 hl h5 h6
  rcases hd with hd | hd
  · exact hd e1
  · exact hd e2

theorem taintText_nostamp (t : Task) (v : Str) (hf : t.taintFile = none) :
    taintText (taint { t with nostamp := some v }) = v := by
  have e : taint { t with nostamp := some v } = some ("nostamp:".toList ++ v) := by
    unfold taint
    dsimp only
    rw [hf]; rfl
  rw [e]
  unfold taintText
  dsimp only
  rw [if_pos (startsWith_iff.2 ⟨v, rfl⟩)]
  rfl

/-- **C104.**  A new random number of a `nostamp` task, without a taint file, is such a change. -/
theorem nostamp_changes (t : Task) (v w : Str) (hf : t.taintFile = none) (hvw : v ≠ w) :
    ownText { t with nostamp := some v } ≠ ownText { t with nostamp := some w } := by
  intro h
  unfold ownText at h
  rw [taintText_nostamp t v hf, taintText_nostamp t w hf] at h
  exact hvw (List.append_cancel_left h)

/-- **C104.**  A forced run, which writes a taint file, is such a change. -/
theorem forced_changes (t : Task) (x : Str) (hx : x ≠ []) (hs : t.nostamp = none)
    (hp : startsWith x "nostamp:".toList = false) :
    ownText { t with taintFile := some x } ≠ ownText { t with taintFile := none } := by
  intro h
  have e1 : taintText (taint { t with taintFile := some x }) = x := by
    have e : taint { t with taintFile := some x } = some x := by
      unfold taint
      dsimp only
      rw [if_pos (show (some x).any (· ≠ []) = true from decide_eq_true hx)]
    rw [e]
    unfold taintText
    dsimp only
    rw [hp]; rfl
  have e2 : taintText (taint { t with taintFile := none }) = [] := by
    have e : taint { t with taintFile := none } = none := by
      unfold taint
      dsimp only
      rw [hs]; rfl
    rw [e]; rfl
  unfold ownText at h
  rw [e1, e2] at h
  exact hx (List.append_cancel_left h)

theorem insertBy_map {le : Str → Str → Bool} {le' : Str × Str → Str × Str → Bool} (f : Str → Str × Str)
    (h : ∀ a c, le' (f a) (f c) = le a c) (a : Str) (l : List Str) :
    insertBy le' (f a) (l.map f) = (insertBy le a l).map f := by
  induction l with
  | nil => rfl
  | cons c l ih =>
    rw [List.map_cons]
    unfold insertBy
    rw [h]
    by_cases e : le a c = true
    · rw [if_pos e, if_pos e]; rfl
    · rw [if_neg e, if_neg e, ih]; rfl

theorem sortBy_map {le : Str → Str → Bool} {le' : Str × Str → Str × Str → Bool} (f : Str → Str × Str)
    (h : ∀ a c, le' (f a) (f c) = le a c) (l : List Str) :
    sortBy le' (l.map f) = (sortBy le l).map f := by
  induction l with
  | nil => rfl
  | cons a l ih =>
    rw [List.map_cons]
    unfold sortBy
    rw [ih, insertBy_map f h]

theorem flatten_map_inj {f g : Str → Str} : ∀ {l : List Str}, (∀ a, (f a).length = (g a).length) →
    (l.map f).flatten = (l.map g).flatten → ∀ a, a ∈ l → f a = g a
  | [], _, _, _, h => nomatch h
  | c :: l, hl, h, a, ha => by
    rw [List.map_cons, List.map_cons, List.flatten_cons, List.flatten_cons] at h
    obtain ⟨e1, e2⟩ := List.append_inj h (hl c)
    rcases List.mem_cons.1 ha with rfl | ha
    · exact e1
    · exact flatten_map_inj hl e2 a ha

theorem fileText_parts (f cs : Str) (hc : cs ≠ []) : fileText (f, cs) =
    (match afterDot f with | none => [] | some r => "./".toList ++ beforeDot r) ++ cs := by
  unfold fileText
  dsimp only
  rw [if_neg hc]
  cases afterDot f <;> rfl

/-- **C104.**  A new checksum of a file is such a change, if the files have the same names and all
checksums the same length. -/
theorem file_changes (t : Task) (names : List Str) (cs cs' : Str → Str) (n : Nat) (hn : n ≠ 0)
    (h1 : ∀ f, (cs f).length = n) (h2 : ∀ f, (cs' f).length = n) (f : Str) (hf : f ∈ names)
    (hd : cs f ≠ cs' f) :
    ownText { t with files := names.map fun f => (f, cs f) } ≠
      ownText { t with files := names.map fun f => (f, cs' f) } := by
  intro h
  have ne : ∀ {s : Str}, s.length = n → s ≠ [] := fun e e2 => hn (by rw [← e, e2]; rfl)
  unfold ownText at h
  have h3 := List.append_cancel_right h
  dsimp only at h3
  rw [sortBy_map (le := fun a c => strLe (cleanPath a) (cleanPath c)) (fun f => (f, cs f)) (fun _ _ => rfl),
    sortBy_map (le := fun a c => strLe (cleanPath a) (cleanPath c)) (fun f => (f, cs' f)) (fun _ _ => rfl),
    List.map_map, List.map_map] at h3
  have h4 := flatten_map_inj (f := fileText ∘ fun f => (f, cs f)) (g := fileText ∘ fun f => (f, cs' f))
    (fun a => by
      show (fileText (a, cs a)).length = (fileText (a, cs' a)).length
      rw [fileText_parts _ _ (ne (h1 a)), fileText_parts _ _ (ne (h2 a)), List.length_append,
        List.length_append, h1, h2]) h3 f ((sortBy_perm _ _).mem_iff.2 hf)
  have h5 : fileText (f, cs f) = fileText (f, cs' f) := h4
  rw [fileText_parts _ _ (ne (h1 f)), fileText_parts _ _ (ne (h2 f))] at h5
  exact hd (List.append_cancel_left h5)

/-- A task with nothing of its own. -/
def bareTask : Task := { pn := [], name := [], base := [] }

/-- Checksums in which one file has another one. -/
def newSum (f : Str) : Str := if f = "/x/./f".toList then "ac".toList else "ab".toList

/-- Two files, one with a new checksum; and a forced run. -/
example : ownText { bareTask with files := ["/x/./g".toList, "/x/./f".toList].map fun f => (f, "ab".toList) } ≠
      ownText { bareTask with files := ["/x/./g".toList, "/x/./f".toList].map fun f => (f, newSum f) } ∧
    ownText { bareTask with taintFile := some "u".toList } ≠
      ownText { bareTask with taintFile := none } := by
  refine ⟨file_changes bareTask _ (fun _ => "ab".toList) newSum 2 (by decide) (fun _ => rfl)
    (fun f => ?_) "/x/./f".toList (by decide) (by decide),
    forced_changes bareTask _ (by decide) rfl (by decide)⟩
  unfold newSum
  by_cases h : f = "/x/./f".toList
  · rw [if_pos h]; rfl
  · rw [if_neg h]; rfl

/-- A hash with one character: the last one. -/
def lastHash (s : Str) : Str := [s.getLast?.getD '0']

theorem exA_data (f : Str) (h : Str → Str) :
    hashData (exBuild "1".toList f none none) "a".toList h = "1".toList ++ ownText
      ((exBuild "1".toList f none none).task "a".toList) := by
  rw [hashData_eq]; rfl

theorem exB_data (f : Str) (h : Str → Str) :
    hashData (exBuild "1".toList f none none) "b".toList h = "2".toList ++ h "a".toList := by
  rw [hashData_eq]
  show ("2".toList ++ (h "a".toList ++ [])) ++ [] = _
  rw [List.append_nil, List.append_nil]

theorem exReach (f : Str) {u : Str} (h : Reaches (exBuild "1".toList f none none) "b".toList u) :
    u = "b".toList ∨ u = "a".toList := by
  induction h with
  | refl => exact Or.inl rfl
  | step _ _ hc _ =>
    rcases exDeps _ _ _ _ _ _ hc.1 with ⟨_, e⟩ | ⟨_, e | e⟩
    · exact Or.inr e
    · exact Or.inl e
    · exact Or.inr e

theorem exNoDeps (f : Str) (d : Str) : ¬ Counts (exBuild "1".toList f none none) "a".toList d :=
  fun h => nomatch h.1

theorem exA_hash (c : Char) (x : Str)
    (h : HashOf lastHash (exBuild "1".toList [c] none none) "a".toList x) : x = [c] := by
  cases h with
  | locked hl => exact nomatch hl
  | computed g _ _ => rw [exA_data]; rfl

/-- What is hashed for `b` in the example ends with the checksum of the file. -/
theorem exHashed (c : Char) (data : Str)
    (h : Hashed lastHash (exBuild "1".toList [c] none none) "b".toList data) : lastHash data = [c] := by
  obtain ⟨u, g, hu, _, hd, rfl⟩ := h
  rcases exReach _ hu with rfl | rfl
  · have e := exA_hash c _ (hd "a".toList ⟨List.mem_cons_self, rfl⟩)
    rw [exB_data, e]; rfl
  · rw [exA_data]; rfl

/-- The hypotheses of `change_seen` are met: a file of `a` changes, and `b` depends on `a`. -/
example : ∃ x y, HashOf lastHash (exBuild "1".toList "s".toList none none) "b".toList x ∧
    HashOf lastHash (exBuild "1".toList "z".toList none none) "b".toList y ∧ x ≠ y := by
  have ha : ∀ c : Char, HashOf lastHash (exBuild "1".toList [c] none none) "a".toList
      (lastHash (hashData (exBuild "1".toList [c] none none) "a".toList fun _ => [])) :=
    fun c => .computed _ rfl fun d hd => absurd hd (exNoDeps _ d)
  have hb : ∀ c : Char, HashOf lastHash (exBuild "1".toList [c] none none) "b".toList
      (lastHash (hashData (exBuild "1".toList [c] none none) "b".toList fun _ =>
        lastHash (hashData (exBuild "1".toList [c] none none) "a".toList fun _ => []))) := by
    intro c
    refine .computed _ rfl fun d hd => ?_
    rcases exDeps _ _ _ _ _ _ hd.1 with ⟨_, rfl⟩ | ⟨h, _⟩
    · exact ha c
    · exact absurd h (by decide)
  refine ⟨_, _, hb 's', hb 'z', ?_⟩
  refine change_seen lastHash _ _ "b".toList "a".toList _ _ 1 ⟨fun _ => rfl, ?_⟩ ⟨fun _ => rfl, ?_⟩ ?_ ?_
    (.step .refl rfl ⟨List.mem_cons_self, rfl⟩) rfl (hb 's') (hb 'z') (Or.inr (by decide +kernel))
  · intro t l h
    exfalso
    dsimp only [exBuild] at h
    by_cases e : t = "b".toList
    · rw [if_pos e] at h; cases h
    · rw [if_neg e] at h; cases h
  · intro t l h
    exfalso
    dsimp only [exBuild] at h
    by_cases e : t = "b".toList
    · rw [if_pos e] at h; cases h
    · rw [if_neg e] at h; cases h
  · intro u hu
    rcases exReach _ hu with rfl | rfl
    · exact ⟨rfl, rfl, rfl⟩
    · exact ⟨rfl, rfl, rfl⟩
  · intro p q hp hq e
    rw [exHashed 's' p hp, exHashed 'z' q hq] at e
    exact absurd e (by decide)

/-! ## Signature files -/

theorem basename_no_dot (f : Str) : isSub "./".toList (basename f) = false := by
  cases h : isSub "./".toList (basename f) with
  | false => rfl
  | true =>
    obtain ⟨a, c, e⟩ := isSub_iff.1 h
    have hm : '/' ∈ basename f := by
      rw [e]
      exact List.mem_append_left _ (List.mem_append_right _ (by decide))
    unfold basename at hm
    have h2 := List.mem_reverse.1 hm
    have h3 := List.all_takeWhile (p := fun x => decide (x ≠ '/')) (l := f.reverse)
    exact absurd rfl (of_decide_eq_true (List.all_eq_true.1 h3 _ h2))

theorem recordedText_eq (f : Str × Str) : recordedText (recordedName f.1, f.2) = fileText f := by
  unfold recordedText fileText recordedName
  dsimp only
  by_cases h : f.2 = []
  · rw [if_pos h, if_pos h]
  · rw [if_neg h, if_neg h]
    cases e : afterDot f.1 with
    | none =>
      dsimp only
      rw [basename_no_dot]; rfl
    | some r =>
      dsimp only
      rw [if_pos (show isSub "./".toList ("./".toList ++ beforeDot r) = true from
        isSub_iff.2 ⟨[], beforeDot r, rfl⟩)]

/-- Looking up what was put into a dictionary under different keys. -/
theorem lookup_fold (h : Str → Str) : ∀ (l : List (Str × Str)) (d : Dict Str),
    (l.map (·.1)).Nodup → ∀ k,
      (l.foldl (fun d p => Dict.set d p.1 (h p.2)) d).lookup k =
        match l.find? (fun p => decide (p.1 = k)) with
        | some p => some (h p.2)
        | none => d.lookup k
  | [], d, _, k => rfl
  | p :: l, d, hn, k => by
    rw [List.map_cons, List.nodup_cons] at hn
    rw [List.foldl_cons, lookup_fold h l _ hn.2 k, List.find?_cons]
    by_cases e : p.1 = k
    · rw [show decide (p.1 = k) = true from decide_eq_true e]
      have hnone : l.find? (fun p => decide (p.1 = k)) = none := by
        refine List.find?_eq_none.2 fun q hq => ?_
        intro hc
        exact hn.1 (List.mem_map.2 ⟨q, hq, (of_decide_eq_true hc).trans e.symm⟩)
      rw [hnone]
      dsimp only
      rw [Dict.lookup_set, if_pos e.symm]
    · rw [show decide (p.1 = k) = false from decide_eq_false e]
      cases l.find? (fun p => decide (p.1 = k)) with
      | some q => rfl
      | none =>
        dsimp only
        rw [Dict.lookup_set, if_neg (fun h => e h.symm)]

theorem find_self {l : List (Str × Str)} (hn : (l.map (·.1)).Nodup) {p : Str × Str} (hp : p ∈ l) :
    l.find? (fun q => decide (q.1 = p.1)) = some p := by
  induction l with
  | nil => exact nomatch hp
  | cons q l ih =>
    rw [List.map_cons, List.nodup_cons] at hn
    rw [List.find?_cons]
    rcases List.mem_cons.1 hp with rfl | hp
    · rw [show decide (p.1 = p.1) = true from decide_eq_true rfl]
    · rw [show decide (q.1 = p.1) = false from
        decide_eq_false fun e => hn.1 (List.mem_map.2 ⟨p, hp, e.symm⟩)]
      exact ih hn.2 hp

/-- The taint file is as it was, and does not have the mark of `nostamp` tasks. -/
def PlainTaint (t : Task) (now : Option Str) : Prop :=
  now = t.taintFile ∧ ∀ x, t.taintFile = some x → isSub "nostamp:".toList x = false

theorem nostamp_sub (u : Str) : isSub "nostamp:".toList ("nostamp:".toList ++ u) = true :=
  isSub_iff.2 ⟨[], u, rfl⟩

theorem recorded_taint {t : Task} {now : Option Str} (h : PlainTaint t now) :
    recordedTaint (if (taint t).any (isSub "nostamp:".toList) then taint t
      else if now.any (· ≠ []) then now else none) = taintText (taint t) := by
  obtain ⟨h1, h2⟩ := h
  rw [h1]
  by_cases hf : t.taintFile.any (· ≠ []) = true
  · have e : taint t = t.taintFile := by unfold taint; rw [if_pos hf]
    rw [e]
    cases hx : t.taintFile with
    | none => rw [hx] at hf; cases hf
    | some x =>
      have hs := h2 x hx
      rw [hx] at hf
      have hns : startsWith x "nostamp:".toList = false := by
        cases hq : startsWith x "nostamp:".toList with
        | false => rfl
        | true =>
          obtain ⟨r, e2⟩ := startsWith_iff.1 hq
          rw [e2, nostamp_sub] at hs
          cases hs
      rw [show (some x).any (isSub "nostamp:".toList) = false from hs, if_neg (by decide), if_pos hf]
      unfold recordedTaint taintText
      dsimp only
      rw [hs, hns]
  · have e : taint t = t.nostamp.map fun u => "nostamp:".toList ++ u := by
      unfold taint; rw [if_neg hf]
    rw [e]
    cases t.nostamp with
    | none =>
      rw [if_neg (by exact Bool.false_ne_true), if_neg hf]
      rfl
    | some u =>
      rw [if_pos (show (Option.map (fun u => "nostamp:".toList ++ u) (some u)).any
        (isSub "nostamp:".toList) = true from nostamp_sub u)]
      unfold recordedTaint taintText
      dsimp only [Option.map]
      rw [if_pos (nostamp_sub u), if_pos (startsWith_iff.2 ⟨u, rfl⟩)]

/-- **C105.**  The hash that is made again from the record in a signature file is the hash of the task.
Missing: two dependencies with the same recipe and task name (`same_name_mismatch`), and taint files
that change or contain the mark of `nostamp` tasks. -/
theorem recorded_taskhash_right_partial (hash : Str → Str) (b : Build) (t : Str) (h : Str → Str)
    (now : Option Str) (hn : ((runtaskdeps b t).map (·.1)).Nodup) (ht : PlainTaint (b.task t) now) :
    calcTaskhash hash (dumpSig b h now t) = hash (hashData b t h) := by
  unfold calcTaskhash
  congr 1
  rw [hashData_eq]
  unfold dumpSig ownText
  dsimp only
  rw [recorded_taint ht, List.map_map, List.map_map]
  have e1 : (sortBy pairLe (runtaskdeps b t)).map
      ((fun p => (((runtaskdeps b t).foldl (fun d p => Dict.set d p.1 (h p.2)) []).lookup p).getD []) ∘
        fun p => p.1) = (sortBy pairLe (runtaskdeps b t)).map fun p => h p.2 := by
    refine List.map_congr_left fun p hp => ?_
    show (((runtaskdeps b t).foldl (fun d p => Dict.set d p.1 (h p.2)) []).lookup p.1).getD [] = h p.2
    rw [lookup_fold h _ _ hn, find_self hn ((sortBy_perm _ _).mem_iff.1 hp)]
    rfl
  have e2 : (sortBy fileLe (b.task t).files).map (recordedText ∘ fun f => (recordedName f.1, f.2)) =
      (sortBy fileLe (b.task t).files).map fileText :=
    List.map_congr_left fun f _ => recordedText_eq f
  rw [e1, e2, List.append_assoc, List.append_assoc]

/-- The hypotheses are met for the task `c` of the example, which has two dependencies. -/
example : ((runtaskdeps (exBuild "1".toList "s".toList none none) "c".toList).map (·.1)).Nodup ∧
    PlainTaint ((exBuild "1".toList "s".toList none none).task "c".toList) none :=
  ⟨by decide +kernel, rfl, fun _ h => nomatch h⟩

/-- A task that depends on the same task of two versions of one recipe. -/
def twoVersions : Build where
  tids := ["t".toList, "/p_1.bb:d".toList, "/p_2.bb:d".toList]
  task t :=
    if t = "t".toList then
      { pn := "q".toList, name := "t".toList, base := "0".toList,
        deps := ["/p_1.bb:d".toList, "/p_2.bb:d".toList] }
    else { pn := "p".toList, name := "d".toList, base := t }
  keep _ _ := true

/-- **C105** is not true as it stands: the record keeps the hashes of dependencies by recipe and task
name, so that of two versions of a recipe only one is kept, and other data are hashed. -/
theorem same_name_mismatch :
    calcTaskhash id (dumpSig twoVersions id none "t".toList) ≠ id (hashData twoVersions "t".toList id) := by
  decide +kernel

/-! ## The filter -/

/-- **C106.**  A dependency on a task of the same recipe counts, but for two tasks by name. -/
theorem own_tasks_count (abisafe safe : List Str) (i : DepInfo) (h1 : i.recipe = i.depName)
    (h2 : i.depMc = i.mc) (h3 : i.task ≠ "do_rm_work".toList)
    (h4 : i.task ≠ "do_kernel_configme".toList) : depKept abisafe safe i = true := by
  unfold depKept
  rw [if_neg h3, if_pos ⟨h1, h2⟩, decide_eq_false h4]
  rfl

/-- **C106.**  A dependency on another recipe is dropped only for `do_rm_work`, by a list of the user,
for a package group of all architectures, or for a kernel whose modules are recommended. -/
theorem dropped_for_reason (abisafe safe : List Str) (i : DepInfo) (h : depKept abisafe safe i = false)
    (ho : ¬ (i.recipe = i.depName ∧ i.depMc = i.mc)) :
    i.task = "do_rm_work".toList ∨ i.recipe ++ "->".toList ++ i.depName ∈ safe ∨
      "*->".toList ++ i.depName ∈ safe ∨ (i.packageGroup = true ∧ i.allArch = true) ∨
      (i.depName ∈ abisafe ∧ i.image = false) ∨
      (i.depKernel = true ∧ i.kernel = false ∧ i.recommendsModules = true) := by
  unfold depKept at h
  by_cases c1 : i.task = "do_rm_work".toList
  · exact Or.inl c1
  rw [if_neg c1, if_neg ho] at h
  by_cases c2 : i.recipe ++ "->".toList ++ i.depName ∈ safe
  · exact Or.inr (Or.inl c2)
  rw [if_neg c2] at h
  by_cases c3 : "*->".toList ++ i.depName ∈ safe ∧ i.recipe ≠ i.depName
  · exact Or.inr (Or.inr (Or.inl c3.1))
  rw [if_neg c3] at h
  split at h
  · cases h
  split at h
  · rename_i c
    rw [Bool.and_eq_true, Bool.and_eq_true] at c
    exact Or.inr (Or.inr (Or.inr (Or.inl c.1)))
  split at h
  · rename_i c
    exact Or.inr (Or.inr (Or.inr (Or.inr (Or.inl c))))
  split at h
  · rename_i c
    rw [Bool.and_eq_true, Bool.and_eq_true, Bool.not_eq_true'] at c
    exact Or.inr (Or.inr (Or.inr (Or.inr (Or.inr ⟨c.1.1, c.1.2, c.2⟩))))
  · cases h

/-- A dependency that a user declared safe is dropped; the same one without the list is kept. -/
example : depKept [] ["a->b".toList] ⟨"do_build".toList, "a".toList, [], "do_x".toList, "b".toList, [],
      false, false, false, false, false, false⟩ = false ∧
    depKept [] [] ⟨"do_build".toList, "a".toList, [], "do_x".toList, "b".toList, [],
      false, false, false, false, false, false⟩ = true := by decide +kernel

/-! ## Locked signatures -/

/-- One task of each of the recipes `app` and `lib32x`; `app` depends on `lib32x`. -/
def lockBuild : Build where
  tids := ["app:do".toList, "lib32x:do".toList, "app:do2".toList]
  task t :=
    if t = "app:do".toList then
      { pn := "app".toList, name := "do".toList, base := [], deps := ["lib32x:do".toList] }
    else if t = "app:do2".toList then { pn := "app".toList, name := "do2".toList, base := [] }
    else { pn := "lib32x".toList, name := "do".toList, base := [] }
  keep _ _ := true

/-- No name of an unlocked recipe is that of the recipe of `t`, or a part of the name of a recipe that
`t` depends on. -/
def Untouched (b : Build) (un : List Str) (t : Str) : Prop :=
  (b.task t).pn ∉ un ∧
    ∀ e, e ∈ (b.task t).deps → ∀ x, x ∈ un → ¬ ∃ p q, (b.task e).pn = p ++ x ++ q

theorem isUnlocked_untouched {b : Build} {un : List Str} {t : Str} (h : Untouched b un t) :
    isUnlocked b un t = false := by
  unfold isUnlocked
  rw [decide_eq_false h.1, Bool.false_or]
  refine List.any_eq_false.2 fun e he hc => ?_
  obtain ⟨x, hx, hs⟩ := List.any_eq_true.1 hc
  exact h.2 e (List.mem_filter.1 he).1 x hx (isSub_iff.1 hs)

theorem lockPass_untouched (b : Build) (sigs : List (Str × Str × Str)) (un : List Str) (l : List Str) :
    ∀ d : Dict (Option Str), (∀ t, t ∈ l → Untouched b un t) →
      (lockPass b sigs l un d).1 = un ∧
        ∀ t, (lockPass b sigs l un d).2.lookup t =
          if t ∈ l then some (lockFor sigs (b.task t).pn (b.task t).name) else d.lookup t := by
  induction l with
  | nil =>
    intro d _
    exact ⟨rfl, fun t => by rw [if_neg List.not_mem_nil]; rfl⟩
  | cons a l ih =>
    intro d h
    have ha := isUnlocked_untouched (h a List.mem_cons_self)
    have e : lockPass b sigs (a :: l) un d =
        lockPass b sigs l un (Dict.set d a (lockFor sigs (b.task a).pn (b.task a).name)) := by
      rw [lockPass, ha]; rfl
    rw [e]
    obtain ⟨h1, h2⟩ := ih (Dict.set d a (lockFor sigs (b.task a).pn (b.task a).name))
      (fun t ht => h t (List.mem_cons_of_mem _ ht))
    refine ⟨h1, fun t => ?_⟩
    rw [h2 t]
    by_cases hl : t ∈ l
    · rw [if_pos hl, if_pos (List.mem_cons_of_mem _ hl)]
    · rw [if_neg hl, Dict.lookup_set]
      by_cases ht : t = a
      · rw [if_pos ht, if_pos (by rw [ht]; exact List.mem_cons_self), ht]
      · rw [if_neg ht, if_neg (fun hc => (List.mem_cons.1 hc).elim ht hl)]

theorem lockFor_is (sigs : List (Str × Str × Str)) (pn name : Str) :
    LockIs sigs pn name (lockFor sigs pn name) := by
  unfold lockFor
  cases h : sigs.reverse.find? fun e => decide (e.1 = pn ∧ e.2.1 = name) with
  | none =>
    intro x hx
    exact absurd (decide_eq_true (⟨rfl, rfl⟩ : pn = pn ∧ name = name))
      (List.find?_eq_none.1 h (pn, name, x) (List.mem_reverse.2 hx))
  | some e =>
    obtain ⟨hp, as, bs, e1, e2⟩ := List.find?_eq_some_iff_append.1 h
    obtain ⟨e3, e4⟩ := of_decide_eq_true hp
    obtain ⟨p, n, x⟩ := e
    dsimp only at e3 e4
    subst e3 e4
    refine ⟨bs.reverse, as.reverse, ?_, fun x' hx => ?_⟩
    · have := congrArg List.reverse e1
      rw [List.reverse_reverse] at this
      rw [this, List.reverse_append, List.reverse_cons, List.append_assoc]
      rfl
    · have := e2 _ (List.mem_reverse.1 hx)
      rw [decide_eq_true (⟨rfl, rfl⟩ : p = p ∧ n = n)] at this
      cases this

/-- **C107.**  If no task depends on an unlocked recipe, and none is of one, every task is locked to
the hash that is given for it, in every order.  Missing: unlocked recipes in the build, for which the
order counts (`order_unlocks`), and names that are a part of others (`part_unlocks`). -/
theorem locked_partial (b : Build) (sigs : List (Str × Str × Str)) (un l : List Str)
    (h : ∀ t, t ∈ l → Untouched b un t) (t : Str) (ht : t ∈ l) :
    ∃ r, (lockPass b sigs l un []).2.lookup t = some r ∧ LockIs sigs (b.task t).pn (b.task t).name r :=
  ⟨_, by rw [(lockPass_untouched b sigs un l [] h).2 t, if_pos ht], lockFor_is _ _ _⟩

/-- The hypotheses are met with an unlocked recipe of another name. -/
example : ((lockPass lockBuild [("app".toList, "do".toList, "H".toList)] ["app:do".toList]
    ["zlib".toList] []).2.lookup "app:do".toList) = some (some "H".toList) := by decide +kernel

/-- Of two entries for a task the last one counts, and other tasks of the recipe are not locked. -/
example : let sigs := [("app".toList, "do".toList, "H".toList), ("app".toList, "do".toList, "G".toList)]
    lockFor sigs "app".toList "do".toList = some "G".toList ∧
      lockFor sigs "app".toList "do2".toList = none := by decide +kernel

/-- **C107** is not true as it stands: unlocking the recipe `x` unlocks `app`, which depends on
`lib32x` and not on `x`. -/
theorem part_unlocks :
    ((lockPass lockBuild [("app".toList, "do".toList, "H".toList)] ["app:do".toList]
      ["x".toList] []).2.lookup "app:do".toList) = some none := by decide +kernel

/-- **C107** is not true as it stands: whether a task is locked depends on the order in which the tasks
are visited, which is that of a set: a task of a recipe that another task of the recipe unlocks is
locked if it is visited first. -/
theorem order_unlocks :
    ((lockPass lockBuild [("app".toList, "do2".toList, "H".toList)]
        ["lib32x:do".toList, "app:do".toList, "app:do2".toList] ["lib32x".toList] []).2.lookup
        "app:do2".toList) = some none ∧
      ((lockPass lockBuild [("app".toList, "do2".toList, "H".toList)]
        ["app:do2".toList, "lib32x:do".toList, "app:do".toList] ["lib32x".toList] []).2.lookup
        "app:do2".toList) = some (some "H".toList) := by decide +kernel

end Bb.TaskHash
