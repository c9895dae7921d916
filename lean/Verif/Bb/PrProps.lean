import Verif.Bb.PrModel

/-
Revisions of packages (C177, C178, C179).
-/

namespace Bb.Pr
open Py

/-! ### Tables -/

/-- A package with a checksum has a value. -/
def Has (t : Table) (v a c : Str) (x : Int) : Prop := ⟨v, a, c, x⟩ ∈ t

/-- The greatest value of a package. -/
def Top (t : Table) (v a : Str) (m : Int) : Prop := (∃ c, Has t v a c m) ∧ ∀ c x, Has t v a c x → x ≤ m

/-- One value for a checksum. -/
def Keys (t : Table) : Prop := ∀ v a c x y, Has t v a c x → Has t v a c y → x = y

/-- One checksum for a value. -/
def Apart (t : Table) : Prop := ∀ v a c d x, Has t v a c x → Has t v a d x → c = d

theorem maxVal_none : ∀ {l : List Int}, maxVal l = none → l = []
  | [], _ => rfl
  | x :: xs, h => by
    unfold maxVal at h
    split at h <;> cases h

theorem maxVal_some : ∀ {l : List Int} {m : Int}, maxVal l = some m → m ∈ l ∧ ∀ x ∈ l, x ≤ m
  | x :: xs, m, h => by
    unfold maxVal at h
    split at h
    · rename_i hn
      cases h
      rw [maxVal_none hn]
      exact ⟨List.mem_cons_self, fun y hy => by rw [List.mem_singleton.1 hy]; exact Int.le_refl _⟩
    · rename_i y hy
      obtain ⟨h1, h2⟩ := maxVal_some hy
      cases h
      constructor
      · split
        · exact List.mem_cons_of_mem _ h1
        · exact List.mem_cons_self
      · intro z hz
        rcases List.mem_cons.1 hz with rfl | hz
        · split <;> omega
        · have := h2 z hz
          split <;> omega

theorem of_iff {r : Row} {v a : Str} : r.of v a = true ↔ r.version = v ∧ r.arch = a := by
  unfold Row.of; rw [Bool.and_eq_true, decide_eq_true_iff, decide_eq_true_iff]

theorem key_iff {r : Row} {v a c : Str} : r.key v a c = true ↔ r.version = v ∧ r.arch = a ∧ r.sum = c := by
  unfold Row.key; rw [Bool.and_eq_true, Bool.and_eq_true, decide_eq_true_iff, decide_eq_true_iff, decide_eq_true_iff, and_assoc]

theorem findMax_some {t : Table} {v a : Str} {m : Int} (h : findMax t v a = some m) : Top t v a m := by
  obtain ⟨h1, h2⟩ := maxVal_some h
  constructor
  · obtain ⟨r, hr, rfl⟩ := List.mem_map.1 h1
    obtain ⟨hr2, ho⟩ := List.mem_filter.1 hr
    obtain ⟨e1, e2⟩ := of_iff.1 ho
    refine ⟨r.sum, ?_⟩
    unfold Has; rw [← e1, ← e2]; exact hr2
  · exact fun c x hx => h2 x (List.mem_map.2 ⟨_, List.mem_filter.2 ⟨hx, of_iff.2 ⟨rfl, rfl⟩⟩, rfl⟩)

theorem findMax_none {t : Table} {v a : Str} (h : findMax t v a = none) (c : Str) (x : Int) : ¬ Has t v a c x := fun hx => by
  have h1 := maxVal_none h
  have h2 : x ∈ (t.filter (·.of v a)).map (·.value) := List.mem_map.2 ⟨_, List.mem_filter.2 ⟨hx, of_iff.2 ⟨rfl, rfl⟩⟩, rfl⟩
  rw [h1] at h2; cases h2

theorem top_unique {t : Table} {v a : Str} {m n : Int} (h1 : Top t v a m) (h2 : Top t v a n) : m = n := by
  obtain ⟨⟨c, hc⟩, hm⟩ := h1
  obtain ⟨⟨d, hd⟩, hn⟩ := h2
  have := hm d n hd
  have := hn c m hc
  omega

theorem top_findMax {t : Table} {v a : Str} {m : Int} (h : Top t v a m) : findMax t v a = some m := by
  cases hf : findMax t v a with
  | none => obtain ⟨⟨c, hc⟩, _⟩ := h; exact absurd hc (findMax_none hf c m)
  | some n => rw [top_unique (findMax_some hf) h]

theorem find_some {t : Table} {v a c : Str} {x : Int} (h : find t v a c = some x) : Has t v a c x := by
  unfold find at h
  cases hf : t.find? (·.key v a c) with
  | none => rw [hf] at h; cases h
  | some r =>
    rw [hf] at h
    injection h with h
    have hp : r.key v a c = true := List.find?_some (p := fun r : Row => r.key v a c) hf
    obtain ⟨e1, e2, e3⟩ := key_iff.1 hp
    unfold Has; rw [← e1, ← e2, ← e3, ← h]
    exact List.mem_of_find?_eq_some hf

theorem find_none {t : Table} {v a c : Str} (h : find t v a c = none) (x : Int) : ¬ Has t v a c x := fun hx => by
  unfold find at h
  rw [Option.map_eq_none_iff, List.find?_eq_none] at h
  exact h _ hx (key_iff.2 ⟨rfl, rfl, rfl⟩)

/-- The next value is above all others. -/
theorem next_above {t : Table} {v a c : Str} {x : Int} (h : Has t v a c x) : x < nextVal t v a := by
  unfold nextVal
  cases hm : findMax t v a with
  | none => exact absurd h (findMax_none hm c x)
  | some m => have := (findMax_some hm).2 c x h; show x < m + 1; omega

theorem put_has {t : Table} {v a c : Str} {x : Int} {v' a' c' : Str} {y : Int} :
    Has (put t v a c x) v' a' c' y ↔ (v' = v ∧ a' = a ∧ c' = c ∧ y = x) ∨ (¬ (v' = v ∧ a' = a ∧ c' = c) ∧ Has t v' a' c' y) := by
  unfold put Has
  rw [List.mem_append, List.mem_filter, List.mem_singleton]
  constructor
  · rintro (⟨h, hk⟩ | h)
    · refine .inr ⟨fun ⟨e1, e2, e3⟩ => ?_, h⟩
      rw [key_iff.2 ⟨e1, e2, e3⟩] at hk; cases hk
    · injection h with e1 e2 e3 e4
      exact .inl ⟨e1, e2, e3, e4⟩
  · rintro (⟨rfl, rfl, rfl, rfl⟩ | ⟨hn, h⟩)
    · exact .inr rfl
    · refine .inl ⟨h, ?_⟩
      rw [Bool.eq_false_iff.2 fun hk => hn (key_iff.1 hk)]; rfl

theorem add_has {t : Table} {v a c : Str} {x : Int} {v' a' c' : Str} {y : Int} : Has (t ++ [⟨v, a, c, x⟩]) v' a' c' y ↔ Has t v' a' c' y ∨ (v' = v ∧ a' = a ∧ c' = c ∧ y = x) := by
  unfold Has
  rw [List.mem_append, List.mem_singleton]
  constructor
  · rintro (h | h)
    · exact .inl h
    · injection h with e1 e2 e3 e4
      exact .inr ⟨e1, e2, e3, e4⟩
  · rintro (h | ⟨rfl, rfl, rfl, rfl⟩)
    · exact .inl h
    · exact .inr rfl

/-! ### C177 -/

/-- What a request without history does. -/
theorem get_spec {t : Table} (_ : Keys t) (v a c : Str) {x : Int} {t' : Table} (h : getNoHist false t v a c = (x, t')) :
    (t' = t ∧ Has t v a c x ∧ Top t v a x) ∨ (t' = put t v a c x ∧ x = nextVal t v a ∧ ∀ y, Has t v a c y → ¬ Top t v a y) := by
  unfold getNoHist at h
  split at h
  · rename_i r hr
    injection h with h1 h2
    have hp := List.find?_some hr
    rw [Bool.and_eq_true] at hp
    obtain ⟨e1, e2, e3⟩ := key_iff.1 hp.1
    have hm : Has t v a c x := by
      have := List.mem_of_find?_eq_some hr
      unfold Has; rw [← e1, ← e2, ← e3, ← h1]; exact this
    refine .inl ⟨h2.symm, hm, ?_⟩
    cases hf : findMax t v a with
    | none => exact absurd hm (findMax_none hf c x)
    | some m =>
      have h3 := hp.2
      rw [hf] at h3
      have h3 : m ≤ r.value := of_decide_eq_true h3
      have ht := findMax_some hf
      have := ht.2 c x hm
      have e : x = m := by omega
      rw [e]; exact ht
  · rename_i hr
    rw [if_neg Bool.false_ne_true] at h
    injection h with h1 h2
    refine .inr ⟨by rw [← h2, h1], h1.symm, fun y hy ht => ?_⟩
    rw [List.find?_eq_none] at hr
    refine hr _ hy ?_
    rw [key_iff.2 ⟨rfl, rfl, rfl⟩, top_findMax ht]
    exact decide_eq_true (Int.le_refl y)

/-- Values only grow. -/
def Grows (t t' : Table) : Prop := ∀ v a c x, Has t v a c x → ∃ y, x ≤ y ∧ Has t' v a c y

theorem grows_refl (t : Table) : Grows t t := fun _ _ _ x h => ⟨x, Int.le_refl x, h⟩

theorem grows_trans {t u w : Table} (h1 : Grows t u) (h2 : Grows u w) : Grows t w := fun v a c x h => by
  obtain ⟨y, hy, hu⟩ := h1 v a c x h
  obtain ⟨z, hz, hw⟩ := h2 v a c y hu
  exact ⟨z, Int.le_trans hy hz, hw⟩

theorem grows_top {t u : Table} (h : Grows t u) {v a : Str} {m n : Int} (hm : Top t v a m) (hn : Top u v a n) : m ≤ n := by
  obtain ⟨⟨c, hc⟩, _⟩ := hm
  obtain ⟨y, hy, hu⟩ := h v a c m hc
  exact Int.le_trans hy (hn.2 c y hu)

theorem keys_put {t : Table} (hk : Keys t) (v a c : Str) (x : Int) : Keys (put t v a c x) := fun v' a' c' y z h1 h2 => by
  rcases put_has.1 h1 with ⟨e1, e2, e3, e4⟩ | ⟨hn, h1⟩
  · rcases put_has.1 h2 with ⟨_, _, _, e5⟩ | ⟨hn, _⟩
    · rw [e4, e5]
    · exact absurd ⟨e1, e2, e3⟩ hn
  · rcases put_has.1 h2 with ⟨e1, e2, e3, _⟩ | ⟨_, h2⟩
    · exact absurd ⟨e1, e2, e3⟩ hn
    · exact hk v' a' c' y z h1 h2

theorem get_after {t : Table} (hk : Keys t) {v a c : Str} {x : Int} {t' : Table} (h : getNoHist false t v a c = (x, t')) :
    Keys t' ∧ Has t' v a c x ∧ Top t' v a x ∧ Grows t t' ∧ (∀ v' a' c' y, ¬ (v' = v ∧ a' = a ∧ c' = c) → (Has t' v' a' c' y ↔ Has t v' a' c' y)) := by
  rcases get_spec hk v a c h with ⟨rfl, h1, h2⟩ | ⟨rfl, hx, _⟩
  · exact ⟨hk, h1, h2, grows_refl _, fun _ _ _ _ _ => Iff.rfl⟩
  · have hh : Has (put t v a c x) v a c x := put_has.2 (.inl ⟨rfl, rfl, rfl, rfl⟩)
    refine ⟨keys_put hk v a c x, hh, ⟨⟨c, hh⟩, fun d y hy => ?_⟩, fun v' a' c' y hy => ?_, fun v' a' c' y hn => ?_⟩
    · rcases put_has.1 hy with ⟨_, _, _, e⟩ | ⟨_, hy⟩
      · rw [e]; exact Int.le_refl _
      · rw [hx]; exact Int.le_of_lt (next_above hy)
    · by_cases e : v' = v ∧ a' = a ∧ c' = c
      · obtain ⟨rfl, rfl, rfl⟩ := e
        exact ⟨x, by rw [hx]; exact Int.le_of_lt (next_above hy), hh⟩
      · exact ⟨y, Int.le_refl y, put_has.2 (.inr ⟨e, hy⟩)⟩
    · constructor
      · intro hy
        rcases put_has.1 hy with ⟨e1, e2, e3, _⟩ | ⟨_, hy⟩
        · exact absurd ⟨e1, e2, e3⟩ hn
        · exact hy
      · exact fun hy => put_has.2 (.inr ⟨hn, hy⟩)

theorem import_spec {t : Table} (hk : Keys t) (v a c : Str) (x : Int) :
    Keys (importNoHist t v a c x) ∧ Grows t (importNoHist t v a c x) ∧ (∀ v' a' c' y, ¬ (v' = v ∧ a' = a ∧ c' = c) → (Has (importNoHist t v a c x) v' a' c' y ↔ Has t v' a' c' y)) ∧
    ∃ z, x ≤ z ∧ Has (importNoHist t v a c x) v a c z ∧ (z = x ∨ Has t v a c z) := by
  unfold importNoHist
  cases hf : find t v a c with
  | none =>
    dsimp only
    have hn := find_none hf
    refine ⟨fun v' a' c' y z h1 h2 => ?_, fun v' a' c' y hy => ⟨y, Int.le_refl y, add_has.2 (.inl hy)⟩, fun v' a' c' y hne => ?_, x, Int.le_refl x, add_has.2 (.inr ⟨rfl, rfl, rfl, rfl⟩), .inl rfl⟩
    · rcases add_has.1 h1 with h1 | ⟨e1, e2, e3, e4⟩
      · rcases add_has.1 h2 with h2 | ⟨e1, e2, e3, _⟩
        · exact hk v' a' c' y z h1 h2
        · rw [e1, e2, e3] at h1; exact absurd h1 (hn y)
      · rcases add_has.1 h2 with h2 | ⟨_, _, _, e5⟩
        · rw [e1, e2, e3] at h2; exact absurd h2 (hn z)
        · rw [e4, e5]
    · rw [add_has]
      exact ⟨fun h => h.resolve_right fun ⟨e1, e2, e3, _⟩ => hne ⟨e1, e2, e3⟩, .inl⟩
  | some w =>
    dsimp only
    have hw := find_some hf
    have hhas : ∀ v' a' c' y, Has (t.map fun r => if r.key v a c && decide (r.value < x) then (⟨v, a, c, x⟩ : Row) else r) v' a' c' y ↔
        (¬ (v' = v ∧ a' = a ∧ c' = c) ∧ Has t v' a' c' y) ∨ ((v' = v ∧ a' = a ∧ c' = c) ∧ y = if w < x then x else w) := by
      intro v' a' c' y
      unfold Has
      rw [List.mem_map]
      constructor
      · rintro ⟨r, hr, e⟩
        by_cases hkey : r.key v a c = true
        · obtain ⟨e1, e2, e3⟩ := key_iff.1 hkey
          have hval : r.value = w := by
            refine hk v a c r.value w ?_ hw
            unfold Has; rw [← e1, ← e2, ← e3]; exact hr
          rw [hkey, hval, Bool.true_and] at e
          by_cases hlt : w < x
          · rw [if_pos (decide_eq_true hlt)] at e
            injection e with f1 f2 f3 f4
            exact .inr ⟨⟨f1.symm, f2.symm, f3.symm⟩, by rw [if_pos hlt]; exact f4.symm⟩
          · rw [if_neg fun h => hlt (of_decide_eq_true h)] at e
            rw [e] at e1 e2 e3 hval
            exact .inr ⟨⟨e1, e2, e3⟩, by rw [if_neg hlt]; exact hval⟩
        · rw [Bool.eq_false_iff.2 hkey, Bool.false_and, if_neg Bool.false_ne_true] at e
          rw [e] at hr hkey
          exact .inl ⟨fun hh => hkey (key_iff.2 hh), hr⟩
      · rintro (⟨hne, hr⟩ | ⟨⟨rfl, rfl, rfl⟩, rfl⟩)
        · refine ⟨_, hr, ?_⟩
          rw [Bool.eq_false_iff.2 fun hh => hne (key_iff.1 hh), Bool.false_and, if_neg Bool.false_ne_true]
        · refine ⟨_, hw, ?_⟩
          rw [key_iff.2 ⟨rfl, rfl, rfl⟩, Bool.true_and]
          by_cases hlt : w < x
          · rw [if_pos (decide_eq_true hlt), if_pos hlt]
          · rw [if_neg fun h => hlt (of_decide_eq_true h), if_neg hlt]
    refine ⟨fun v' a' c' y z h1 h2 => ?_, fun v' a' c' y hy => ?_, fun v' a' c' y hne => ?_, if w < x then x else w, ?_, (hhas v a c _).2 (.inr ⟨⟨rfl, rfl, rfl⟩, rfl⟩), ?_⟩
    · rcases (hhas _ _ _ _).1 h1 with ⟨hn1, h1⟩ | ⟨e1, h1⟩
      · rcases (hhas _ _ _ _).1 h2 with ⟨_, h2⟩ | ⟨e2, _⟩
        · exact hk v' a' c' y z h1 h2
        · exact absurd e2 hn1
      · rcases (hhas _ _ _ _).1 h2 with ⟨hn2, _⟩ | ⟨_, h2⟩
        · exact absurd e1 hn2
        · rw [h1, h2]
    · by_cases e : v' = v ∧ a' = a ∧ c' = c
      · refine ⟨if w < x then x else w, ?_, (hhas _ _ _ _).2 (.inr ⟨e, rfl⟩)⟩
        obtain ⟨rfl, rfl, rfl⟩ := e
        rw [hk _ _ _ _ _ hy hw]
        split <;> omega
      · exact ⟨y, Int.le_refl y, (hhas _ _ _ _).2 (.inl ⟨e, hy⟩)⟩
    · rw [hhas]
      exact ⟨fun h => (h.resolve_right fun hh => hne hh.1).2, fun h => .inl ⟨hne, h⟩⟩
    · split <;> omega
    · by_cases hlt : w < x
      · rw [if_pos hlt]; exact .inl rfl
      · rw [if_neg hlt]; exact .inr hw

/-- A history: requests, and orderly restarts. -/
inductive Op where
  | req (r : Req)
  | restart

def stepOp (nohist : Bool) (s : Server) : Op → Server
  | .req r => (serve nohist false s r).2
  | .restart => killed (stopped s)

def history (nohist : Bool) (s : Server) (l : List Op) : Server := l.foldl (stepOp nohist) s

theorem step_keys {s : Server} (hk : Keys s.mem) (o : Op) : Keys (stepOp true s o).mem ∧ Grows s.mem (stepOp true s o).mem := by
  cases o with
  | restart => exact ⟨hk, grows_refl _⟩
  | req r =>
    cases r with
    | get v a c =>
      have := get_after hk (v := v) (a := a) (c := c) rfl
      exact ⟨this.1, this.2.2.2.1⟩
    | import_ v a c x =>
      have := import_spec hk v a c x
      exact ⟨this.1, this.2.1⟩
    | broken => exact ⟨hk, grows_refl _⟩

theorem history_keys : ∀ (l : List Op) {s : Server}, Keys s.mem → Keys (history true s l).mem ∧ Grows s.mem (history true s l).mem
  | [], _, hk => ⟨hk, grows_refl _⟩
  | o :: l, s, hk => by
    obtain ⟨h1, h2⟩ := step_keys hk o
    obtain ⟨h3, h4⟩ := history_keys l h1
    exact ⟨h3, grows_trans h2 h4⟩

/-- The answer to a request for a revision. -/
def answer (nohist : Bool) (s : Server) (v a c : Str) : Option Int := (serve nohist false s (.get v a c)).1

theorem answer_get {s : Server} {v a c : Str} {x : Int} (h : answer true s v a c = some x) : getNoHist false s.mem v a c = (x, (stepOp true s (.req (.get v a c))).mem) := by
  injection h with h
  rw [← h]
  rfl

/-- C177, where it holds: without history, revisions of a package never go back, whatever requests and orderly restarts there are in between. -/
theorem never_less_partial {s : Server} (hk : Keys s.mem) {v a c d : Str} {x y : Int} (h1 : answer true s v a c = some x) {l : List Op}
    (h2 : answer true (history true (stepOp true s (.req (.get v a c))) l) v a d = some y) : x ≤ y := by
  obtain ⟨k1, _, t1, _, _⟩ := get_after hk (answer_get h1)
  obtain ⟨k2, g2⟩ := history_keys l (s := stepOp true s (.req (.get v a c))) k1
  obtain ⟨_, _, t3, g3, _⟩ := get_after k2 (answer_get h2)
  exact grows_top (grows_trans g2 g3) t1 t3

/-- C177: nothing that is asked for again at once has changed. -/
theorem same_again {s : Server} (hk : Keys s.mem) {v a c : Str} {x : Int} (h1 : answer true s v a c = some x) : answer true (stepOp true s (.req (.get v a c))) v a c = some x := by
  obtain ⟨k1, b1, t1, _, _⟩ := get_after hk (answer_get h1)
  show some _ = _
  congr 1
  rcases get_spec k1 v a c (x := (getNoHist false (stepOp true s (.req (.get v a c))).mem v a c).1) (t' := (getNoHist false (stepOp true s (.req (.get v a c))).mem v a c).2) rfl with ⟨_, h, _⟩ | ⟨_, _, h⟩
  · exact k1 v a c _ _ h b1
  · exact absurd t1 (h x b1)

/-- Requests for revisions alone, and orderly restarts. -/
def Gets : Op → Prop
  | .req (.get _ _ _) => True
  | .req (.import_ _ _ _ _) => False
  | .req .broken => True
  | .restart => True

theorem step_apart {s : Server} (hk : Keys s.mem) (ha : Apart s.mem) {o : Op} (ho : Gets o) : Apart (stepOp true s o).mem := by
  cases o with
  | restart => exact ha
  | req r =>
    cases r with
    | import_ v a c x => exact ho.elim
    | broken => exact ha
    | get v a c =>
      rcases get_spec hk v a c (x := (getNoHist false s.mem v a c).1) (t' := (getNoHist false s.mem v a c).2) rfl with ⟨e, _, _⟩ | ⟨e, hx, _⟩
      · show Apart (getNoHist false s.mem v a c).2
        rw [e]; exact ha
      · show Apart (getNoHist false s.mem v a c).2
        rw [e]
        intro v' a' c' d' y h1 h2
        rcases put_has.1 h1 with ⟨e1, e2, e3, e4⟩ | ⟨_, h1⟩
        · rcases put_has.1 h2 with ⟨_, _, e5, _⟩ | ⟨_, h2⟩
          · rw [e3, e5]
          · rw [e1, e2] at h2
            have := next_above h2
            rw [e4, hx] at this
            exact absurd this (Int.lt_irrefl _)
        · rcases put_has.1 h2 with ⟨e1, e2, _, e4⟩ | ⟨_, h2⟩
          · rw [e1, e2] at h1
            have := next_above h1
            rw [e4, hx] at this
            exact absurd this (Int.lt_irrefl _)
          · exact ha v' a' c' d' y h1 h2

theorem history_apart : ∀ (l : List Op) {s : Server}, Keys s.mem → Apart s.mem → (∀ o ∈ l, Gets o) → Apart (history true s l).mem
  | [], _, _, ha, _ => ha
  | o :: l, _, hk, ha, hl => history_apart l (step_keys hk o).1 (step_apart hk ha (hl o List.mem_cons_self)) fun p hp => hl p (List.mem_cons_of_mem _ hp)

/-- C177, where it holds: if nothing is imported, what is different later has a greater revision. -/
theorem different_partial {s : Server} (hk : Keys s.mem) (ha : Apart s.mem) {v a c d : Str} {x y : Int} (h1 : answer true s v a c = some x) {l : List Op} (hl : ∀ o ∈ l, Gets o)
    (h2 : answer true (history true (stepOp true s (.req (.get v a c))) l) v a d = some y) (hd : d ≠ c) : x < y := by
  have hle := never_less_partial hk h1 h2
  obtain ⟨k1, b1, t1, _, _⟩ := get_after hk (answer_get h1)
  have a1 := step_apart hk ha (o := .req (.get v a c)) trivial
  obtain ⟨k2, g2⟩ := history_keys l (s := stepOp true s (.req (.get v a c))) k1
  have a2 := history_apart l k1 a1 hl
  obtain ⟨k3, b3, t3, g3, _⟩ := get_after k2 (answer_get h2)
  have a3 := step_apart k2 a2 (o := .req (.get v a d)) trivial
  refine Int.not_le.1 fun hge => ?_
  obtain ⟨z, hz, hz2⟩ := grows_trans g2 g3 v a c x b1
  have := t3.2 c z hz2
  have ez : z = y := by omega
  rw [ez] at hz2
  exact hd (a3 v a d c y b3 hz2)

/-- Requests that do not concern a package, but for one checksum of it. -/
def Aside (v a c : Str) : Op → Prop
  | .req (.get v' a' c') => v' = v ∧ a' = a → c' = c
  | .req (.import_ v' a' _ _) => ¬ (v' = v ∧ a' = a)
  | .req .broken => True
  | .restart => True

theorem step_aside {s : Server} (hk : Keys s.mem) {v a c : Str} {x : Int} (hb : Has s.mem v a c x) (ht : Top s.mem v a x) {o : Op} (ho : Aside v a c o) :
    Has (stepOp true s o).mem v a c x ∧ Top (stepOp true s o).mem v a x := by
  have other : ∀ {t' : Table} {v' a' c' : Str}, ¬ (v' = v ∧ a' = a) → (∀ v'' a'' c'' y, ¬ (v'' = v' ∧ a'' = a' ∧ c'' = c') → (Has t' v'' a'' c'' y ↔ Has s.mem v'' a'' c'' y)) →
      Has t' v a c x ∧ Top t' v a x := fun {t' v' a' c'} hn h => by
    have hne : ∀ c'', ¬ (v = v' ∧ a = a' ∧ c'' = c') := fun c'' ⟨e1, e2, _⟩ => hn ⟨e1.symm, e2.symm⟩
    have hb' := (h v a c x (hne c)).2 hb
    exact ⟨hb', ⟨c, hb'⟩, fun d y hy => ht.2 d y ((h v a d y (hne d)).1 hy)⟩
  cases o with
  | restart => exact ⟨hb, ht⟩
  | req r =>
    cases r with
    | broken => exact ⟨hb, ht⟩
    | import_ v' a' c' y => exact other ho (import_spec hk v' a' c' y).2.2.1
    | get v' a' c' =>
      by_cases e : v' = v ∧ a' = a
      · have ec := ho e
        obtain ⟨rfl, rfl⟩ := e
        subst ec
        rcases get_spec hk v' a' c' (x := (getNoHist false s.mem v' a' c').1) (t' := (getNoHist false s.mem v' a' c').2) rfl with ⟨e, _, _⟩ | ⟨_, _, h⟩
        · show Has (getNoHist false s.mem v' a' c').2 _ _ _ _ ∧ Top (getNoHist false s.mem v' a' c').2 _ _ _
          rw [e]; exact ⟨hb, ht⟩
        · exact absurd ht (h x hb)
      · exact other e (get_after hk (v := v') (a := a') (c := c') rfl).2.2.2.2

/-- C177: what has not changed keeps its revision, as long as nobody asks for other contents of the package. -/
theorem unchanged {v a c : Str} {x : Int} : ∀ (l : List Op) {s : Server}, Keys s.mem → Has s.mem v a c x → Top s.mem v a x → (∀ o ∈ l, Aside v a c o) →
    answer true (history true s l) v a c = some x
  | [], s, hk, hb, ht, _ => by
    show some (getNoHist false s.mem v a c).1 = _
    congr 1
    rcases get_spec hk v a c (x := (getNoHist false s.mem v a c).1) (t' := (getNoHist false s.mem v a c).2) rfl with ⟨_, h, _⟩ | ⟨_, _, h⟩
    · exact hk v a c _ _ h hb
    · exact absurd ht (h x hb)
  | o :: l, s, hk, hb, ht, hl => by
    obtain ⟨h1, h2⟩ := step_aside hk hb ht (hl o List.mem_cons_self)
    exact unchanged l (step_keys hk o).1 h1 h2 fun p hp => hl p (List.mem_cons_of_mem _ hp)

/-! ### Exports -/

theorem import_all : ∀ (rs : List Row) (t : Table), Keys (t ++ rs) → ∀ v a c x, Has (rs.foldl (fun t r => importNoHist t r.version r.arch r.sum r.value) t) v a c x ↔ Has (t ++ rs) v a c x
  | [], t, _, v, a, c, x => by rw [List.append_nil]; exact Iff.rfl
  | r :: rs, t, hk, v, a, c, x => by
    have hkt : Keys t := fun v a c x y h1 h2 => hk v a c x y (List.mem_append_left _ h1) (List.mem_append_left _ h2)
    have hr : Has (t ++ r :: rs) r.version r.arch r.sum r.value := List.mem_append_right _ List.mem_cons_self
    have hone : ∀ v a c x, Has (importNoHist t r.version r.arch r.sum r.value) v a c x ↔ Has (t ++ [r]) v a c x := fun v a c x => by
      have h1 : Has (t ++ [r]) v a c x ↔ Has t v a c x ∨ (v = r.version ∧ a = r.arch ∧ c = r.sum ∧ x = r.value) := add_has
      rw [h1]
      obtain ⟨hk', _, ho, z, _, hz, hz2⟩ := import_spec hkt r.version r.arch r.sum r.value
      have ez : z = r.value := hz2.elim id fun h => hk _ _ _ _ _ (List.mem_append_left _ h) hr
      by_cases e : v = r.version ∧ a = r.arch ∧ c = r.sum
      · obtain ⟨rfl, rfl, rfl⟩ := e
        constructor
        · exact fun h => .inr ⟨rfl, rfl, rfl, (hk' _ _ _ _ _ h hz).trans ez⟩
        · rintro (h | ⟨_, _, _, e⟩)
          · have e2 := (hk _ _ _ _ _ (List.mem_append_left _ h) hr).trans ez.symm
            subst e2; exact hz
          · have e2 := e.trans ez.symm
            subst e2; exact hz
      · rw [ho v a c x e]
        exact ⟨.inl, fun h => h.resolve_right fun ⟨a, b, c, _⟩ => e ⟨a, b, c⟩⟩
    have hsame : ∀ v a c x, Has (importNoHist t r.version r.arch r.sum r.value ++ rs) v a c x ↔ Has (t ++ r :: rs) v a c x := fun v a c x => by
      have h1 : Has (importNoHist t r.version r.arch r.sum r.value ++ rs) v a c x ↔ Has (importNoHist t r.version r.arch r.sum r.value) v a c x ∨ Has rs v a c x := List.mem_append
      have h2 : Has (t ++ [r] ++ rs) v a c x ↔ Has (t ++ [r]) v a c x ∨ Has rs v a c x := List.mem_append
      rw [h1, hone, ← h2, List.append_assoc]; rfl
    rw [List.foldl_cons, import_all rs _ (fun v a c x y h1 h2 => hk v a c x y ((hsame v a c x).1 h1) ((hsame v a c y).1 h2)), hsame]

theorem get_of_top {t : Table} (hk : Keys t) {v a c : Str} {m : Int} (ht : Top t v a m) : (Has t v a c m → (getNoHist false t v a c).1 = m) ∧ (¬ Has t v a c m → (getNoHist false t v a c).1 = m + 1) := by
  have hn : nextVal t v a = m + 1 := by unfold nextVal; rw [top_findMax ht]
  rcases get_spec hk v a c (x := (getNoHist false t v a c).1) (t' := (getNoHist false t v a c).2) rfl with ⟨_, h, h2⟩ | ⟨_, h, h3⟩
  · have := top_unique h2 ht
    exact ⟨fun _ => this, fun hh => absurd (this ▸ h) hh⟩
  · exact ⟨fun hh => absurd ht (h3 m hh), fun _ => h.trans hn⟩

/-- C177: a new service that has imported what another one exported gives the same revisions as that one would. -/
theorem moved {t : Table} (hk : Keys t) {v : Str} (hv : v ≠ []) (a c : Str) :
    (getNoHist false ((exported true t).foldl (fun t r => importNoHist t r.version r.arch r.sum r.value) []) v a c).1 = (getNoHist false t v a c).1 := by
  have hex : ∀ v a c x, Has (exported true t) v a c x ↔ Top t v a x ∧ Has t v a c x ∧ v ≠ [] := fun v a c x => by
    unfold exported
    rw [if_pos rfl]
    show _ ∈ _ ↔ _
    rw [List.mem_filter, List.mem_filter, beq_iff_eq, decide_eq_true_iff]
    constructor
    · rintro ⟨⟨h1, h2⟩, h3⟩; exact ⟨findMax_some h2, h1, h3⟩
    · rintro ⟨h1, h2, h3⟩; exact ⟨⟨h2, top_findMax h1⟩, h3⟩
  have hke : Keys ([] ++ exported true t) := fun v a c x y h1 h2 => hk v a c x y ((hex _ _ _ _).1 h1).2.1 ((hex _ _ _ _).1 h2).2.1
  have hall := import_all (exported true t) [] hke
  generalize (exported true t).foldl (fun t r => importNoHist t r.version r.arch r.sum r.value) [] = u at hall
  have hu : ∀ c x, Has u v a c x ↔ Top t v a x ∧ Has t v a c x := fun c x => by
    rw [hall, List.nil_append, hex]
    exact ⟨fun ⟨h1, h2, _⟩ => ⟨h1, h2⟩, fun ⟨h1, h2⟩ => ⟨h1, h2, hv⟩⟩
  have hku : Keys u := fun v a c x y h1 h2 => hke v a c x y ((hall _ _ _ _).1 h1) ((hall _ _ _ _).1 h2)
  cases hm : findMax t v a with
  | none =>
    have key : ∀ {w : Table}, Keys w → (∀ c x, ¬ Has w v a c x) → (getNoHist false w v a c).1 = 0 := fun {w} hw hno => by
      rcases get_spec hw v a c (x := (getNoHist false w v a c).1) (t' := (getNoHist false w v a c).2) rfl with ⟨_, h, _⟩ | ⟨_, h, _⟩
      · exact absurd h (hno _ _)
      · rw [h]
        unfold nextVal
        cases hf : findMax w v a with
        | none => rfl
        | some m => obtain ⟨⟨d, hd⟩, _⟩ := findMax_some hf; exact absurd hd (hno d m)
    rw [key hk (findMax_none hm), key hku fun c x h => findMax_none hm c x ((hu c x).1 h).2]
  | some m =>
    have ht := findMax_some hm
    have htu : Top u v a m := by
      obtain ⟨d, hd⟩ := ht.1
      exact ⟨⟨d, (hu d m).2 ⟨ht, hd⟩⟩, fun e x hx => ht.2 e x ((hu e x).1 hx).2⟩
    obtain ⟨p1, p2⟩ := get_of_top hk (c := c) ht
    obtain ⟨q1, q2⟩ := get_of_top hku (c := c) htu
    by_cases hc : Has t v a c m
    · rw [p1 hc, q1 ((hu c m).2 ⟨ht, hc⟩)]
    · rw [p2 hc, q2 fun h => hc ((hu c m).1 h).2]

theorem empty_keys : Keys [] ∧ Apart [] := ⟨fun _ _ _ _ _ h => (nomatch h), fun _ _ _ _ _ h => nomatch h⟩

example : answer true ⟨[], []⟩ "1.0".toList "amd64".toList "aa".toList = some 0 ∧
    answer true (history true ⟨[], []⟩ [.req (.get "1.0".toList "amd64".toList "aa".toList), .req (.get "1.0".toList "amd64".toList "bb".toList), .restart]) "1.0".toList "amd64".toList "aa".toList = some 2 := by decide +kernel

/-- Against C177: after imports, different contents may have the same revision. -/
theorem imported_same : let s := history true ⟨[], []⟩ [.req (.import_ [] [] "a".toList 5), .req (.import_ [] [] "b".toList 5)]
    answer true s [] [] "a".toList = some 5 ∧ answer true s [] [] "b".toList = some 5 := by decide +kernel

/-- Against C177: a server that is read only gives the same revision to all new contents. -/
theorem read_only_same : (serve true true ⟨[], []⟩ (.get [] [] "a".toList)).1 = some 0 ∧
    (serve true true (serve true true ⟨[], []⟩ (.get [] [] "a".toList)).2 (.get [] [] "b".toList)).1 = some 0 := by decide +kernel

/-! ### C178 -/

/-- Nothing is changed. -/
def Stays (t t' : Table) : Prop := ∀ v a c x, Has t v a c x → Has t' v a c x

theorem hist_step {s : Server} (hk : Keys s.mem) (o : Op) : Keys (stepOp false s o).mem ∧ Stays s.mem (stepOp false s o).mem := by
  have add : ∀ {v a c : Str} (x : Int), find s.mem v a c = none → Keys (s.mem ++ [⟨v, a, c, x⟩]) ∧ Stays s.mem (s.mem ++ [⟨v, a, c, x⟩]) := fun {v a c} x hf => by
    refine ⟨fun v' a' c' y z h1 h2 => ?_, fun _ _ _ _ h => add_has.2 (.inl h)⟩
    rcases add_has.1 h1 with h1 | ⟨e1, e2, e3, e4⟩
    · rcases add_has.1 h2 with h2 | ⟨e1, e2, e3, _⟩
      · exact hk v' a' c' y z h1 h2
      · rw [e1, e2, e3] at h1; exact absurd h1 (find_none hf y)
    · rcases add_has.1 h2 with h2 | ⟨_, _, _, e5⟩
      · rw [e1, e2, e3] at h2; exact absurd h2 (find_none hf z)
      · rw [e4, e5]
  cases o with
  | restart => exact ⟨hk, fun _ _ _ _ h => h⟩
  | req r =>
    cases r with
    | broken => exact ⟨hk, fun _ _ _ _ h => h⟩
    | get v a c =>
      show Keys (getHist false s.mem v a c).2 ∧ Stays s.mem (getHist false s.mem v a c).2
      unfold getHist
      cases hf : find s.mem v a c with
      | some x => exact ⟨hk, fun _ _ _ _ h => h⟩
      | none => exact add _ hf
    | import_ v a c x =>
      show Keys (importHist s.mem v a c x) ∧ Stays s.mem (importHist s.mem v a c x)
      unfold importHist
      cases hf : find s.mem v a c with
      | some x => exact ⟨hk, fun _ _ _ _ h => h⟩
      | none => exact add x hf

theorem hist_history : ∀ (l : List Op) {s : Server}, Keys s.mem → Keys (history false s l).mem ∧ Stays s.mem (history false s l).mem
  | [], _, hk => ⟨hk, fun _ _ _ _ h => h⟩
  | o :: l, s, hk => by
    obtain ⟨h1, h2⟩ := hist_step hk o
    obtain ⟨h3, h4⟩ := hist_history l h1
    exact ⟨h3, fun v a c x h => h4 v a c x (h2 v a c x h)⟩

theorem hist_answer {s : Server} {v a c : Str} {x : Int} (h : answer false s v a c = some x) : Has (stepOp false s (.req (.get v a c))).mem v a c x ∧
    (Has s.mem v a c x ∨ (∀ y, ¬ Has s.mem v a c y) ∧ ∀ d y, Has s.mem v a d y → y < x) := by
  injection h with h
  have h : (getHist false s.mem v a c).1 = x := h
  show Has (getHist false s.mem v a c).2 v a c x ∧ _
  unfold getHist at h ⊢
  cases hf : find s.mem v a c with
  | some y =>
    rw [hf] at h
    have h : y = x := h
    subst h
    exact ⟨find_some hf, .inl (find_some hf)⟩
  | none =>
    rw [hf] at h
    have h : nextVal s.mem v a = x := h
    subst h
    exact ⟨add_has.2 (.inr ⟨rfl, rfl, rfl, rfl⟩), .inr ⟨find_none hf, fun d y hy => next_above hy⟩⟩

/-- C178, where it holds: with history, the same contents have the same revision for ever, whatever requests and orderly restarts there are in between. -/
theorem same_contents_partial {s : Server} (hk : Keys s.mem) {v a c : Str} {x y : Int} (h1 : answer false s v a c = some x) {l : List Op}
    (h2 : answer false (history false (stepOp false s (.req (.get v a c))) l) v a c = some y) : x = y := by
  have b1 := (hist_answer h1).1
  obtain ⟨k1, _⟩ := hist_step hk (.req (.get v a c))
  obtain ⟨k2, s2⟩ := hist_history l k1
  obtain ⟨k3, s3⟩ := hist_step k2 (.req (.get v a c))
  exact k3 v a c x y (s3 _ _ _ _ (s2 _ _ _ _ b1)) (hist_answer h2).1

/-- C178: new contents have a greater revision than all others. -/
theorem new_contents {s : Server} {v a c : Str} {x : Int} (h : answer false s v a c = some x) (hn : ∀ y, ¬ Has s.mem v a c y) : ∀ d y, Has s.mem v a d y → y < x := by
  rcases (hist_answer h).2 with h | ⟨_, h⟩
  · exact absurd h (hn x)
  · exact h

example : answer false (history false ⟨[], []⟩ [.req (.get "1.0".toList "amd64".toList "aa".toList), .req (.get "1.0".toList "amd64".toList "bb".toList)]) "1.0".toList "amd64".toList "aa".toList = some 0 := by decide +kernel

/-! ### C179 -/

/-- C179, where it holds: after an orderly stop everything that was given out is there again. -/
theorem stop_keeps_partial (s : Server) : (killed (stopped s)).mem = s.mem := rfl

/-- Against C179: revisions that were given out are forgotten when the server is killed, and then go back, and are given to other contents. -/
theorem forgotten : let s := (serve true false (serve true false ⟨[], []⟩ (.get [] [] "a".toList)).2 (.get [] [] "b".toList)).2
    (serve true false (serve true false ⟨[], []⟩ (.get [] [] "a".toList)).2 (.get [] [] "b".toList)).1 = some 1 ∧
    (serve true false (killed s) (.get [] [] "b".toList)).1 = some 0 ∧ (serve true false (killed s) (.get [] [] "c".toList)).1 = some 0 := by decide +kernel

/-- Against C179: that is so for each server and each history of requests for revisions: nothing at all is in the file. -/
theorem nothing_in_file (nohist : Bool) : ∀ (l : List (Str × Str × Str)) (s : Server), (l.foldl (fun s r => (serve nohist false s (.get r.1 r.2.1 r.2.2)).2) s).disk = s.disk
  | [], _ => rfl
  | _ :: l, s => nothing_in_file nohist l _

end Bb.Pr
