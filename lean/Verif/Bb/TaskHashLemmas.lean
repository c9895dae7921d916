import Verif.Bb.TaskHashSpec
/-!
# Lemmas about the hashes of tasks
-/

namespace Bb.TaskHash
open Py

theorem pairLe_trans (a b c : Str × Str) (h1 : pairLe a b = true) (h2 : pairLe b c = true) :
    pairLe a c = true := by
  unfold pairLe at *
  by_cases e1 : a.1 = b.1
  · rw [if_pos e1] at h1
    by_cases e2 : b.1 = c.1
    · rw [if_pos e2] at h2
      rw [if_pos (e1.trans e2)]
      exact strLe_trans _ _ _ h1 h2
    · rw [if_neg e2] at h2
      rw [if_neg (by rw [e1]; exact e2), e1]
      exact h2
  · rw [if_neg e1] at h1
    by_cases e2 : b.1 = c.1
    · rw [if_neg (by rw [← e2]; exact e1), ← e2]
      exact h1
    · rw [if_neg e2] at h2
      by_cases e3 : a.1 = c.1
      · rw [← e3] at h2
        exact absurd (strLe_antisymm h1 h2) e1
      · rw [if_neg e3]
        exact strLe_trans _ _ _ h1 h2

theorem pairLe_total (a b : Str × Str) : (pairLe a b || pairLe b a) = true := by
  unfold pairLe
  by_cases e : a.1 = b.1
  · rw [if_pos e, if_pos e.symm]; exact strLe_total _ _
  · rw [if_neg e, if_neg (fun h => e h.symm)]; exact strLe_total _ _

theorem pairLe_antisymm {a b : Str × Str} (h1 : pairLe a b = true) (h2 : pairLe b a = true) : a = b := by
  unfold pairLe at *
  by_cases e : a.1 = b.1
  · rw [if_pos e] at h1
    rw [if_pos e.symm] at h2
    exact Prod.ext e (strLe_antisymm h1 h2)
  · rw [if_neg e] at h1
    rw [if_neg (fun h => e h.symm)] at h2
    exact absurd (strLe_antisymm h1 h2) e

/-- Sorting pairs forgets the order. -/
theorem sortPairs_congr {l m : List (Str × Str)} (h : l.Perm m) : sortBy pairLe l = sortBy pairLe m :=
  List.Perm.eq_of_pairwise (le := fun a b => pairLe a b = true)
    (fun _ _ _ _ h1 h2 => pairLe_antisymm h1 h2)
    (sortBy_sorted pairLe_trans pairLe_total l) (sortBy_sorted pairLe_trans pairLe_total m)
    ((sortBy_perm _ _).trans (h.trans (sortBy_perm _ _).symm))

theorem mem_runtaskdeps {b : Build} {t : Str} {p : Str × Str} :
    p ∈ runtaskdeps b t ↔ ∃ d, Counts b t d ∧ p = (pnid (b.task d), d) := by
  unfold runtaskdeps Counts
  rw [List.mem_map]
  constructor
  · rintro ⟨d, hd, rfl⟩
    exact ⟨d, List.mem_filter.1 hd, rfl⟩
  · rintro ⟨d, hd, rfl⟩
    exact ⟨d, List.mem_filter.2 hd, rfl⟩

theorem hashData_eq (b : Build) (t : Str) (h : Str → Str) :
    hashData b t h = (b.task t).base ++ ((sortBy pairLe (runtaskdeps b t)).map fun p => h p.2).flatten ++
      ownText (b.task t) := by
  unfold hashData ownText
  rw [← List.append_assoc]

theorem deps_text_congr {b : Build} {t : Str} {h h' : Str → Str} (e : ∀ d, Counts b t d → h d = h' d) :
    ((sortBy pairLe (runtaskdeps b t)).map fun p => h p.2) =
      (sortBy pairLe (runtaskdeps b t)).map fun p => h' p.2 := by
  apply List.map_congr_left
  intro p hp
  obtain ⟨d, hd, rfl⟩ := mem_runtaskdeps.1 ((sortBy_perm _ _).mem_iff.1 hp)
  exact e d hd

theorem hashData_congr {b : Build} {t : Str} {h h' : Str → Str} (e : ∀ d, Counts b t d → h d = h' d) :
    hashData b t h = hashData b t h' := by
  rw [hashData_eq, hashData_eq, deps_text_congr e]

/-- A task has one hash. -/
theorem hashOf_unique {hash : Str → Str} {b : Build} {t x y : Str} (h1 : HashOf hash b t x)
    (h2 : HashOf hash b t y) : x = y := by
  induction h1 generalizing y with
  | locked hl =>
    cases h2 with
    | locked hl' => exact Option.some.inj (hl.symm.trans hl')
    | computed h hn _ => rw [hn] at hl; cases hl
  | computed h hn _ ih =>
    cases h2 with
    | locked hl' => rw [hn] at hl'; cases hl'
    | computed h' _ hd' => exact congrArg hash (hashData_congr fun d hd => ih d hd (hd' d hd))

theorem haveAll_iff {h : Dict Str} {l : List (Str × Str)} :
    haveAll h l = true ↔ ∀ p, p ∈ l → (h.lookup p.2).isSome = true := by
  induction l with
  | nil => exact ⟨fun _ p hp => (nomatch hp), fun _ => rfl⟩
  | cons q l ih =>
    unfold haveAll
    rw [Bool.and_eq_true, ih]
    constructor
    · rintro ⟨h1, h2⟩ p hp
      rcases List.mem_cons.1 hp with rfl | hp
      · exact h1
      · exact h2 p hp
    · intro h1
      exact ⟨h1 q List.mem_cons_self, fun p hp => h1 p (List.mem_cons_of_mem _ hp)⟩

/-- The state of the loop is right: the tasks that are done have their hashes. -/
def Right (hash : Str → Str) (b : Build) (st : List Str × Dict Str) : Prop :=
  ∀ t, t ∈ st.1 → ∃ x, st.2.lookup t = some x ∧ HashOf hash b t x

theorem prepare_right {hash : Str → Str} {b : Build} {done : List Str} {h : Dict Str} {t : Str}
    (hr : Right hash b (done, h)) (hd : ∀ d, d ∈ (b.task t).deps → d ∈ done) :
    ∃ h', prepareTaskHash hash b h t = some h' ∧ Right hash b (t :: done, h') := by
  have hall : haveAll h (runtaskdeps b t) = true := by
    refine haveAll_iff.2 fun p hp => ?_
    obtain ⟨d, hc, rfl⟩ := mem_runtaskdeps.1 hp
    obtain ⟨x, hx, _⟩ := hr d (hd d hc.1)
    rw [hx]; rfl
  have key : ∀ v, HashOf hash b t v → Right hash b (t :: done, Dict.set h t v) := by
    intro v hv u hu
    by_cases e : u = t
    · subst e
      exact ⟨v, by rw [Dict.lookup_set, if_pos rfl], hv⟩
    · obtain ⟨x, hx, hx2⟩ := hr u ((List.mem_cons.1 hu).resolve_left e)
      refine ⟨x, ?_, hx2⟩
      show (Dict.set h t v).lookup u = some x
      rw [Dict.lookup_set, if_neg e]
      exact hx
  unfold prepareTaskHash
  rw [if_pos hall]
  cases hl : b.locked t with
  | some l => exact ⟨_, rfl, key l (.locked hl)⟩
  | none =>
    refine ⟨_, rfl, key _ (.computed _ hl fun d hc => ?_)⟩
    obtain ⟨x, hx, hx2⟩ := hr d (hd d hc.1)
    show HashOf hash b d ((h.lookup d).getD [])
    rw [show h.lookup d = some x from hx]
    exact hx2

/-- One pass: it does not fail, keeps the state right, and does every task that it meets with all
dependencies done. -/
theorem pass_right {hash : Str → Str} {b : Build} (l : List Str) :
    ∀ st, Right hash b st → ∃ st', pass hash b l st = some st' ∧ Right hash b st' ∧
      (∀ t, t ∈ st.1 → t ∈ st'.1) ∧
      ∀ t, t ∈ l → (∀ d, d ∈ (b.task t).deps → d ∈ st.1) → t ∈ st'.1 := by
  induction l with
  | nil => exact fun st hr => ⟨st, rfl, hr, fun _ h => h, fun _ h => nomatch h⟩
  | cons a l ih =>
    rintro ⟨done, h⟩ hr
    unfold pass
    by_cases hd : ((b.task a).deps.all fun d => decide (d ∈ done)) = true
    · rw [if_pos hd]
      have hd' : ∀ d, d ∈ (b.task a).deps → d ∈ done := fun d hx =>
        of_decide_eq_true (List.all_eq_true.1 hd d hx)
      obtain ⟨h', e, hr'⟩ := prepare_right hr hd'
      rw [e]
      obtain ⟨st', e2, hr2, hm, hl⟩ := ih (a :: done, h') hr'
      refine ⟨st', e2, hr2, fun t ht => hm t (List.mem_cons_of_mem _ ht), fun t ht hdt => ?_⟩
      rcases List.mem_cons.1 ht with rfl | ht
      · exact hm _ List.mem_cons_self
      · exact hl t ht fun d hx => List.mem_cons_of_mem _ (hdt d hx)
    · rw [if_neg hd]
      obtain ⟨st', e2, hr2, hm, hl⟩ := ih (done, h) hr
      refine ⟨st', e2, hr2, hm, fun t ht hdt => ?_⟩
      rcases List.mem_cons.1 ht with rfl | ht
      · exact absurd (List.all_eq_true.2 fun d hx => decide_eq_true (hdt d hx)) hd
      · exact hl t ht hdt

/-- A list that is not empty has an element of least rank. -/
theorem least_rank (rank : Str → Nat) (l : List Str) (h : l ≠ []) :
    ∃ t, t ∈ l ∧ ∀ u, u ∈ l → rank t ≤ rank u := by
  induction l with
  | nil => exact absurd rfl h
  | cons a l ih =>
    by_cases e : l = []
    · subst e
      refine ⟨a, List.mem_cons_self, fun u hu => ?_⟩
      rcases List.mem_cons.1 hu with rfl | hu
      · exact Nat.le_refl _
      · exact nomatch hu
    · obtain ⟨t, ht, hm⟩ := ih e
      by_cases hle : rank a ≤ rank t
      · refine ⟨a, List.mem_cons_self, fun u hu => ?_⟩
        rcases List.mem_cons.1 hu with rfl | hu
        · exact Nat.le_refl _
        · exact Nat.le_trans hle (hm u hu)
      · refine ⟨t, List.mem_cons_of_mem _ ht, fun u hu => ?_⟩
        rcases List.mem_cons.1 hu with rfl | hu
        · omega
        · exact hm u hu

theorem filter_shorter {p : Str → Bool} {l : List Str} {t : Str} (h : t ∈ l) (hp : p t = false) :
    (l.filter p).length < l.length := by
  induction l with
  | nil => exact nomatch h
  | cons a l ih =>
    rw [List.filter_cons]
    by_cases ha : p a = true
    · rw [if_pos ha]
      rcases List.mem_cons.1 h with rfl | h
      · rw [hp] at ha; cases ha
      · exact Nat.succ_lt_succ (ih h)
    · rw [if_neg ha]
      exact Nat.lt_succ_of_le (List.length_filter_le _ _)

theorem loop_right {hash : Str → Str} {b : Build} (hw : WellFormed b) {order : List Str → List Str}
    (ho : ∀ l, (order l).Perm l) (n : Nat) :
    ∀ todeal st, todeal.length < n → Right hash b st →
      (∀ t, t ∈ b.tids → t ∈ todeal ∨ t ∈ st.1) → (∀ t, t ∈ todeal → t ∈ b.tids ∧ t ∉ st.1) →
      ∃ h, loop hash b order n todeal st = some h ∧
        ∀ t, t ∈ b.tids → ∃ x, h.lookup t = some x ∧ HashOf hash b t x := by
  obtain ⟨hin, rank, hrank⟩ := hw
  induction n with
  | zero => exact fun _ _ h => absurd h (Nat.not_lt_zero _)
  | succ n ih =>
    intro todeal st hn hr hc ht
    unfold loop
    by_cases e : todeal = []
    · rw [if_pos e]
      refine ⟨st.2, rfl, fun t h1 => hr t ((hc t h1).resolve_left ?_)⟩
      rw [e]; exact List.not_mem_nil
    · rw [if_neg e]
      obtain ⟨st', e1, hr', hm, hl⟩ := pass_right (hash := hash) (b := b) (order todeal) st hr
      rw [e1]
      obtain ⟨t, h1, h2⟩ := least_rank rank todeal e
      have hdone : t ∈ st'.1 := by
        refine hl t ((ho todeal).mem_iff.2 h1) fun d hd => ?_
        rcases hc d (hin t (ht t h1).1 d hd) with h3 | h3
        · exact absurd (h2 d h3) (Nat.not_le.2 (hrank t d hd))
        · exact h3
      refine ih _ st' ?_ hr' ?_ ?_
      · have := filter_shorter (p := fun t => decide (t ∉ st'.1)) h1
          (decide_eq_false (fun h => h hdone))
        omega
      · intro u hu
        by_cases h3 : u ∈ st'.1
        · exact Or.inr h3
        · rcases hc u hu with h4 | h4
          · exact Or.inl (List.mem_filter.2 ⟨h4, decide_eq_true h3⟩)
          · exact Or.inr (hm u h4)
      · intro u hu
        obtain ⟨h3, h4⟩ := List.mem_filter.1 hu
        exact ⟨(ht u h3).1, of_decide_eq_true h4⟩

/-- Two lists of texts of one length, put together to the same text. -/
theorem flatten_inj {n : Nat} : ∀ {l m : List Str}, l.length = m.length → (∀ x, x ∈ l → x.length = n) →
    (∀ x, x ∈ m → x.length = n) → ∀ {r s : Str}, l.flatten ++ r = m.flatten ++ s → l = m ∧ r = s
  | [], [], _, _, _, _, _, h => ⟨rfl, h⟩
  | [], _ :: _, h, _, _, _, _, _ => nomatch h
  | _ :: _, [], h, _, _, _, _, _ => nomatch h
  | a :: l, c :: m, hl, h1, h2, r, s, h => by
    rw [List.flatten_cons, List.flatten_cons, List.append_assoc, List.append_assoc] at h
    have hlen : a.length = c.length :=
      (h1 a List.mem_cons_self).trans (h2 c List.mem_cons_self).symm
    obtain ⟨e1, e2⟩ := List.append_inj h hlen
    obtain ⟨e3, e4⟩ := flatten_inj (Nat.succ.inj hl) (fun x hx => h1 x (List.mem_cons_of_mem _ hx))
      (fun x hx => h2 x (List.mem_cons_of_mem _ hx)) e2
    exact ⟨by rw [e1, e3], e4⟩

end Bb.TaskHash
