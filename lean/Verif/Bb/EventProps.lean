import Verif.Bb.EventModel
/-!
# Events call the handlers that are registered for them
-/

namespace Bb.Event
open Py

namespace Spec
variable {C : Type}

/-- Is the handler to be called for this event? -/
def Wants (mask : List Str) (e : Str) : Prop := mask = [] ∨ ['*'] ∈ mask ∨ e ∈ mask

instance (mask : List Str) (e : Str) : Decidable (Wants mask e) := by unfold Wants; exact inferInstance

/-- One more handler; of two with one name the first one counts. -/
def add (mc : Str) (l : List (Handler C)) (h : Handler C) : List (Handler C) :=
  if ∃ g ∈ l, g.name = regName mc h.name then l else l ++ [⟨regName mc h.name, h.code, h.mask⟩]

/-- The handlers that are registered. -/
def step (l : List (Handler C)) : Op C → List (Handler C)
  | .reset => []
  | .config mc hs => hs.foldl (add mc) l
  | .recipe _ _ _ => l
  | .remove n => l.filter (·.name ≠ n)

def run (ops : List (Op C)) : List (Handler C) := ops.foldl step []

/-- The handlers that are to be called for an event of a recipe. -/
def called (ops : List (Op C)) (mc : Str) (cs hs : List (Handler C)) (e : Str) : List (Handler C) :=
  (hs.foldl (add mc) (run ops)).filter fun h => Wants h.mask e ∧ h.name ∈ (cs ++ hs).map fun g => regName mc g.name

/-- All handlers that were ever registered, with their names. -/
def Ever (ops : List (Op C)) (n : Str) (mask : List Str) : Prop :=
  ∃ mc hs h, (Op.config mc hs ∈ ops ∨ ∃ mine, Op.recipe mc mine hs ∈ ops) ∧ h ∈ hs ∧ regName mc h.name = n ∧ h.mask = mask

end Spec
open Spec

section
variable {C : Type}

/-- The names and codes. -/
def pairs (l : List (Handler C)) : List (Str × C) := l.map fun h => (h.name, h.code)

theorem pairs_names (l : List (Handler C)) : (pairs l).map (·.1) = l.map (·.name) := by
  unfold pairs; rw [List.map_map]; rfl

theorem mem_pairs {l : List (Handler C)} {n : Str} : n ∈ (pairs l).map (·.1) ↔ ∃ g ∈ l, g.name = n := by
  rw [pairs_names, List.mem_map]

/-- What is registered is known: the handlers are the given ones and each is there for its events. -/
def Full (r : Reg C) (l : List (Handler C)) : Prop :=
  r.handlers = pairs l ∧ (l.map (·.name)).Nodup ∧
  ∀ h ∈ l, if h.mask = [] ∨ ['*'] ∈ h.mask then h.name ∈ r.catchall else ∀ e ∈ h.mask, (e, h.name) ∈ r.masks

/-- Nothing else is registered. -/
def Exact (M : Str → List Str) (r : Reg C) : Prop :=
  (∀ n ∈ r.catchall, M n = [] ∨ ['*'] ∈ M n) ∧ ∀ e n, (e, n) ∈ r.masks → e ∈ M n

theorem register_full {mc : Str} {r : Reg C} {mine : List Str} {l : List (Handler C)} {h : Handler C} (hf : Full r l) :
    Full (register mc (r, mine) h).1 (add mc l h) ∧ (register mc (r, mine) h).2 = regName mc h.name :: mine := by
  obtain ⟨h1, h2, h3⟩ := hf
  unfold register add
  dsimp only
  by_cases hn : ∃ g ∈ l, g.name = regName mc h.name
  · rw [if_pos hn, if_pos (by rw [h1]; exact mem_pairs.2 hn)]
    exact ⟨⟨h1, h2, h3⟩, rfl⟩
  · rw [if_neg hn, if_neg (by rw [h1]; exact fun hm => hn (mem_pairs.1 hm))]
    refine ⟨?_, rfl⟩
    have hp : pairs (l ++ [(⟨regName mc h.name, h.code, h.mask⟩ : Handler C)]) = r.handlers ++ [(regName mc h.name, h.code)] := by
      rw [h1]; unfold pairs; rw [List.map_append]; rfl
    have hd : ((l ++ [(⟨regName mc h.name, h.code, h.mask⟩ : Handler C)]).map (·.name)).Nodup := by
      rw [List.map_append, List.nodup_append]
      refine ⟨h2, List.nodup_cons.2 ⟨nofun, List.nodup_nil⟩, ?_⟩
      intro a ha b hb e
      obtain ⟨g, hg, rfl⟩ := List.mem_map.1 ha
      rw [List.mem_singleton.1 hb] at e
      exact hn ⟨g, hg, e⟩
    by_cases hc : h.mask = [] ∨ ['*'] ∈ h.mask
    · rw [if_pos hc]
      refine ⟨hp.symm, hd, ?_⟩
      intro g hg
      rcases List.mem_append.1 hg with hg | hg
      · have := h3 g hg
        split at this
        · rename_i hm; rw [if_pos hm]; exact List.mem_cons_of_mem _ this
        · rename_i hm; rw [if_neg hm]; exact this
      · rw [List.mem_singleton.1 hg, if_pos hc]; exact List.mem_cons_self
    · rw [if_neg hc]
      refine ⟨hp.symm, hd, ?_⟩
      intro g hg
      rcases List.mem_append.1 hg with hg | hg
      · have := h3 g hg
        split at this
        · rename_i hm; rw [if_pos hm]; exact this
        · rename_i hm; rw [if_neg hm]; exact fun e he => List.mem_append_right _ (this e he)
      · rw [List.mem_singleton.1 hg, if_neg hc]
        exact fun e he => List.mem_append_left _ (List.mem_map.2 ⟨e, he, rfl⟩)

theorem register_exact {M : Str → List Str} {mc : Str} {r : Reg C} {mine : List Str} {h : Handler C} (hx : Exact M r)
    (hm : h.mask = M (regName mc h.name)) : Exact M (register mc (r, mine) h).1 := by
  unfold register
  dsimp only
  split
  · exact hx
  · split
    · rename_i hc
      refine ⟨fun n hn => ?_, hx.2⟩
      rcases List.mem_cons.1 hn with hn | hn
      · rw [hn, ← hm]; exact hc
      · exact hx.1 n hn
    · refine ⟨hx.1, fun e n hn => ?_⟩
      rcases List.mem_append.1 hn with hn | hn
      · obtain ⟨e', he, heq⟩ := List.mem_map.1 hn
        injection heq with h1 h2
        rw [← h1, ← h2, ← hm]; exact he
      · exact hx.2 e n hn

theorem registerAll_full {mc : Str} : ∀ {hs : List (Handler C)} {r : Reg C} {mine : List Str} {l : List (Handler C)}, Full r l →
    Full (registerAll mc (r, mine) hs).1 (hs.foldl (add mc) l) ∧
    ∀ n, n ∈ (registerAll mc (r, mine) hs).2 ↔ n ∈ mine ∨ n ∈ hs.map fun g => regName mc g.name
  | [], _, _, _, hf => ⟨hf, fun n => ⟨Or.inl, fun h => h.resolve_right nofun⟩⟩
  | h :: hs, r, mine, l, hf => by
    have h1 := register_full (mc := mc) (mine := mine) (h := h) hf
    have ih := registerAll_full (mc := mc) (hs := hs) (mine := regName mc h.name :: mine) h1.1
    have e : registerAll mc (r, mine) (h :: hs) = registerAll mc ((register mc (r, mine) h).1, regName mc h.name :: mine) hs := by
      show registerAll mc (register mc (r, mine) h) hs = _
      rw [← h1.2]
    rw [e]
    refine ⟨ih.1, fun n => ?_⟩
    rw [ih.2, List.mem_cons, List.map_cons, List.mem_cons]
    constructor
    · rintro ((h | h) | h)
      · exact Or.inr (Or.inl h)
      · exact Or.inl h
      · exact Or.inr (Or.inr h)
    · rintro (h | h | h)
      · exact Or.inl (Or.inr h)
      · exact Or.inl (Or.inl h)
      · exact Or.inr h

theorem registerAll_exact {M : Str → List Str} {mc : Str} : ∀ {hs : List (Handler C)} {r : Reg C × List Str}, Exact M r.1 →
    (∀ h ∈ hs, h.mask = M (regName mc h.name)) → Exact M (registerAll mc r hs).1
  | [], _, hx, _ => hx
  | h :: hs, r, hx, hm => registerAll_exact (hs := hs) (r := register mc r h)
      (register_exact (r := r.1) (mine := r.2) hx (hm h List.mem_cons_self)) fun g hg => hm g (List.mem_cons_of_mem _ hg)

/-- Names of masks only become more. -/
theorem register_mono {mc : Str} {r : Reg C × List Str} {h : Handler C} :
    (∀ n ∈ r.1.catchall, n ∈ (register mc r h).1.catchall) ∧ ∀ p ∈ r.1.masks, p ∈ (register mc r h).1.masks := by
  unfold register
  dsimp only
  split
  · exact ⟨fun _ h => h, fun _ h => h⟩
  · split
    · exact ⟨fun _ h => List.mem_cons_of_mem _ h, fun _ h => h⟩
    · exact ⟨fun _ h => h, fun _ h => List.mem_append_right _ h⟩

theorem registerAll_mono {mc : Str} : ∀ {hs : List (Handler C)} {r : Reg C × List Str},
    (∀ n ∈ r.1.catchall, n ∈ (registerAll mc r hs).1.catchall) ∧ ∀ p ∈ r.1.masks, p ∈ (registerAll mc r hs).1.masks
  | [], _ => ⟨fun _ h => h, fun _ h => h⟩
  | h :: hs, r => by
    have h1 := register_mono (mc := mc) (r := r) (h := h)
    have ih := registerAll_mono (mc := mc) (hs := hs) (r := register mc r h)
    exact ⟨fun n hn => ih.1 n (h1.1 n hn), fun p hp => ih.2 p (h1.2 p hp)⟩

theorem full_mono {r r' : Reg C} {l : List (Handler C)} (hf : Full r l) (hh : r'.handlers = r.handlers)
    (hc : ∀ n ∈ r.catchall, n ∈ r'.catchall) (hm : ∀ p ∈ r.masks, p ∈ r'.masks) : Full r' l := by
  refine ⟨hh.trans hf.1, hf.2.1, fun h hh => ?_⟩
  have := hf.2.2 h hh
  split at this
  · rename_i hmask; rw [if_pos hmask]; exact hc _ this
  · rename_i hmask; rw [if_neg hmask]; exact fun e he => hm _ (this e he)

theorem step_full {r : Reg C} {l : List (Handler C)} {op : Op C} (hf : Full r l) : Full (step r op) (Spec.step l op) := by
  cases op with
  | reset => exact ⟨rfl, List.nodup_nil, nofun⟩
  | config mc hs => exact (registerAll_full hf).1
  | recipe mc mine hs =>
    have hm := registerAll_mono (mc := mc) (hs := hs) (r := (r, mine))
    exact full_mono hf rfl hm.1 hm.2
  | remove n =>
    unfold step Spec.step remove
    dsimp only
    by_cases hn : n ∈ r.handlers.map (·.1)
    · rw [if_pos hn]
      refine ⟨?_, ?_, ?_⟩
      · dsimp only
        rw [hf.1]
        unfold pairs
        rw [List.filter_map]
        rfl
      · have : ((l.filter fun x => decide (x.name ≠ n)).map (·.name)).Sublist (l.map (·.name)) := List.Sublist.map _ List.filter_sublist
        exact this.nodup hf.2.1
      · intro h hh
        obtain ⟨hl, hne⟩ := List.mem_filter.1 hh
        have hne : h.name ≠ n := of_decide_eq_true hne
        have := hf.2.2 h hl
        dsimp only
        split at this
        · rename_i hm; rw [if_pos hm]; exact List.mem_filter.2 ⟨this, decide_eq_true hne⟩
        · rename_i hm; rw [if_neg hm]; exact fun e he => List.mem_filter.2 ⟨this e he, decide_eq_true hne⟩
    · rw [if_neg hn]
      have : l.filter (fun x => decide (x.name ≠ n)) = l := by
        rw [List.filter_eq_self]
        intro g hg
        refine decide_eq_true (show ¬ g.name = n from fun e => hn ?_)
        rw [hf.1]
        exact mem_pairs.2 ⟨g, hg, e⟩
      rw [this]
      exact hf

theorem run_full (ops : List (Op C)) : Full (run ops) (Spec.run ops) := by
  have key : ∀ (ops : List (Op C)) (r : Reg C) (l : List (Handler C)), Full r l → Full (ops.foldl step r) (ops.foldl Spec.step l) := by
    intro ops
    induction ops with
    | nil => intro r l h; exact h
    | cons op ops ih => intro r l h; exact ih _ _ (step_full h)
  exact key ops _ _ ⟨rfl, List.nodup_nil, nofun⟩

theorem run_exact {M : Str → List Str} : ∀ {ops : List (Op C)}, (∀ n mask, Ever ops n mask → mask = M n) → Exact M (run ops) := by
  have key : ∀ (ops : List (Op C)) (r : Reg C), Exact M r → (∀ n mask, Ever ops n mask → mask = M n) → Exact M (ops.foldl step r) := by
    intro ops
    induction ops with
    | nil => intro r h _; exact h
    | cons op ops ih =>
      intro r h hm
      refine ih _ ?_ fun n mask ⟨mc, hs, g, h1, h2, h3, h4⟩ => hm n mask ⟨mc, hs, g, ?_, h2, h3, h4⟩
      · cases op with
        | reset => exact h
        | config mc hs =>
          exact registerAll_exact (r := (r, [])) h fun g hg => hm _ _ ⟨mc, hs, g, Or.inl List.mem_cons_self, hg, rfl, rfl⟩
        | recipe mc mine hs =>
          have := registerAll_exact (M := M) (mc := mc) (hs := hs) (r := (r, mine)) h fun g hg =>
            hm _ _ ⟨mc, hs, g, Or.inr ⟨mine, List.mem_cons_self⟩, hg, rfl, rfl⟩
          exact this
        | remove n =>
          unfold step remove
          dsimp only
          split
          · exact ⟨fun m hm => h.1 m (List.mem_filter.1 hm).1, fun e m hm => h.2 e m (List.mem_filter.1 hm).1⟩
          · exact h
      · rcases h1 with h1 | ⟨mine, h1⟩
        · exact Or.inl (List.mem_cons_of_mem _ h1)
        · exact Or.inr ⟨mine, List.mem_cons_of_mem _ h1⟩
  intro ops h
  exact key ops _ ⟨nofun, nofun⟩ h

theorem fire_pairs {r : Reg C} {l : List (Handler C)} {mine : List Str} {e : Str} (hh : r.handlers = pairs l) :
    fire r mine e = pairs (l.filter fun h => (decide (h.name ∈ r.catchall) || decide ((e, h.name) ∈ r.masks)) && decide (h.name ∈ mine)) := by
  unfold fire pairs
  rw [hh]
  unfold pairs
  rw [List.filter_map]
  rfl

theorem mem_mine {mc : Str} {cs hs : List (Handler C)} {r : Reg C} {l : List (Handler C)} (hf : Full r l) (n : Str) :
    n ∈ (registerAll mc (r, cs.map fun h => regName mc h.name) hs).2 ↔ n ∈ (cs ++ hs).map fun g => regName mc g.name := by
  rw [(registerAll_full hf).2, List.map_append, List.mem_append]

theorem filter_sub {α : Type} {p q : α → Bool} {l : List α} (h : ∀ x ∈ l, p x = true → q x = true) : (l.filter p).Sublist (l.filter q) := by
  have : l.filter p = (l.filter q).filter p := by
    rw [List.filter_filter]
    refine List.filter_congr fun x hx => ?_
    cases hp : p x with
    | false => rfl
    | true => rw [h x hx hp]; rfl
  rw [this]
  exact List.filter_sublist

/-- A handler is registered for the events it is there for. -/
theorem wants_registered {r : Reg C} {l : List (Handler C)} (hf : Full r l) {h : Handler C} (hh : h ∈ l) {e : Str} (hw : Wants h.mask e) :
    h.name ∈ r.catchall ∨ (e, h.name) ∈ r.masks := by
  have := hf.2.2 h hh
  split at this
  · exact Or.inl this
  · rename_i hn
    refine Or.inr (this e ?_)
    rcases hw with hw | hw | hw
    · exact absurd (Or.inl hw) hn
    · exact absurd (Or.inr hw) hn
    · exact hw

/-- C151: whatever was read before, a handler is called for all events it is there for. -/
theorem none_missed {ops : List (Op C)} {mc : Str} {cs hs : List (Handler C)} {e : Str} :
    (pairs (Spec.called ops mc cs hs e)).Sublist (called ops mc cs hs e) := by
  unfold called
  have hr := registerAll_full (mc := mc) (hs := hs) (mine := cs.map fun h => regName mc h.name) (run_full ops)
  dsimp only
  rw [fire_pairs hr.1.1]
  unfold Spec.called pairs
  refine List.Sublist.map _ (filter_sub fun h hh hp => ?_)
  have hp := of_decide_eq_true hp
  rw [Bool.and_eq_true, Bool.or_eq_true, decide_eq_true_iff, decide_eq_true_iff, decide_eq_true_iff]
  exact ⟨wants_registered hr.1 hh hp.1, (mem_mine (run_full ops) h.name).2 hp.2⟩

theorem add_masks {M : Str → List Str} {mc : Str} : ∀ {hs : List (Handler C)} {l : List (Handler C)}, (∀ h ∈ l, h.mask = M h.name) →
    (∀ h ∈ hs, h.mask = M (regName mc h.name)) → ∀ h ∈ hs.foldl (add mc) l, h.mask = M h.name
  | [], _, hl, _ => hl
  | g :: hs, l, hl, hm => by
    refine add_masks (hs := hs) (l := add mc l g) ?_ fun h hh => hm h (List.mem_cons_of_mem _ hh)
    intro h hh
    unfold add at hh
    split at hh
    · exact hl h hh
    · rcases List.mem_append.1 hh with hh | hh
      · exact hl h hh
      · rw [List.mem_singleton.1 hh]
        exact hm g List.mem_cons_self

theorem run_masks {M : Str → List Str} {ops : List (Op C)} (hM : ∀ n mask, Ever ops n mask → mask = M n) : ∀ h ∈ Spec.run ops, h.mask = M h.name := by
  have key : ∀ (ops : List (Op C)) (l : List (Handler C)), (∀ h ∈ l, h.mask = M h.name) → (∀ n mask, Ever ops n mask → mask = M n) →
      ∀ h ∈ ops.foldl Spec.step l, h.mask = M h.name := by
    intro ops
    induction ops with
    | nil => intro l hl _; exact hl
    | cons op ops ih =>
      intro l hl hm
      refine ih _ ?_ fun n mask ⟨mc, hs, g, h1, h2, h3, h4⟩ => hm n mask ⟨mc, hs, g, ?_, h2, h3, h4⟩
      · cases op with
        | reset => exact nofun
        | config mc hs => exact add_masks hl fun g hg => hm _ _ ⟨mc, hs, g, Or.inl List.mem_cons_self, hg, rfl, rfl⟩
        | recipe mc mine hs => exact hl
        | remove n => exact fun h hh => hl h (List.mem_filter.1 hh).1
      · rcases h1 with h1 | ⟨mine, h1⟩
        · exact Or.inl (List.mem_cons_of_mem _ h1)
        · exact Or.inr ⟨mine, List.mem_cons_of_mem _ h1⟩
  exact key ops [] nofun hM

/-- C151: if handlers with one name are for the same events, then exactly those handlers are called that are there for an
event, in the order in which they were registered. -/
theorem called_exact_partial {M : Str → List Str} {ops : List (Op C)} {mc : Str} {cs hs : List (Handler C)} {e : Str}
    (hM : ∀ n mask, Ever (ops ++ [Op.config mc hs]) n mask → mask = M n) :
    called ops mc cs hs e = pairs (Spec.called ops mc cs hs e) := by
  have hops : ∀ n mask, Ever ops n mask → mask = M n := fun n mask ⟨mc', hs', g, h1, h2⟩ =>
    hM n mask ⟨mc', hs', g, h1.elim (fun h => Or.inl (List.mem_append_left _ h)) fun ⟨mine, h⟩ => Or.inr ⟨mine, List.mem_append_left _ h⟩, h2⟩
  have hhs : ∀ h ∈ hs, h.mask = M (regName mc h.name) := fun h hh =>
    hM _ _ ⟨mc, hs, h, Or.inl (List.mem_append_right _ (List.mem_singleton.2 rfl)), hh, rfl, rfl⟩
  unfold called
  have hr := registerAll_full (mc := mc) (hs := hs) (mine := cs.map fun h => regName mc h.name) (run_full ops)
  have hx := registerAll_exact (mc := mc) (hs := hs) (r := (run ops, cs.map fun h => regName mc h.name)) (run_exact hops) hhs
  have hl := add_masks (run_masks hops) hhs
  dsimp only
  rw [fire_pairs hr.1.1]
  unfold Spec.called
  congr 1
  refine List.filter_congr fun h hh => ?_
  rw [Bool.eq_iff_iff, Bool.and_eq_true, Bool.or_eq_true, decide_eq_true_iff, decide_eq_true_iff, decide_eq_true_iff, decide_eq_true_iff,
    mem_mine (run_full ops)]
  refine ⟨fun ⟨h1, h2⟩ => ⟨?_, h2⟩, fun ⟨h1, h2⟩ => ⟨wants_registered hr.1 hh h1, h2⟩⟩
  unfold Wants
  rw [hl h hh]
  rcases h1 with h1 | h1
  · rcases hx.1 _ h1 with h | h
    · exact Or.inl h
    · exact Or.inr (Or.inl h)
  · exact Or.inr (Or.inr (hx.2 _ _ h1))

/-- C151: no handler is called twice for an event. -/
theorem called_once {ops : List (Op C)} {mc : Str} {cs hs : List (Handler C)} {e : Str} : ((called ops mc cs hs e).map (·.1)).Nodup := by
  unfold called
  have hr := registerAll_full (mc := mc) (hs := hs) (mine := cs.map fun h => regName mc h.name) (run_full ops)
  dsimp only
  unfold fire
  have hn : ((registerAll mc (run ops, cs.map fun h => regName mc h.name) hs).1.handlers.map (·.1)).Nodup := by
    rw [hr.1.1, pairs_names]; exact hr.1.2.1
  exact (List.Sublist.map _ List.filter_sublist).nodup hn

end

/-! ## Examples -/

def parsed : Str := "bb.event.RecipeParsed".toList
def started : Str := "bb.event.BuildStarted".toList
def pre : Str := "bb.event.RecipePreFinalise".toList

/-- A configuration with one handler, a recipe with another one. -/
example : called [Op.config [] [⟨"h".toList, 1, [parsed]⟩], Op.recipe [] ["h".toList] [⟨"k".toList, 2, [pre]⟩]] []
      [⟨"h".toList, 1, [parsed]⟩] [⟨"m".toList, 3, []⟩] parsed = [("h".toList, 1), ("m".toList, 3)] := by decide +kernel

example : ∃ M : Str → List Str, ∀ n mask, Ever ([Op.config [] [(⟨"h".toList, 1, [parsed]⟩ : Handler Nat)],
    Op.recipe [] ["h".toList] [⟨"k".toList, 2, [pre]⟩]] ++ [Op.config [] [⟨"m".toList, 3, []⟩]]) n mask → mask = M n := by
  refine ⟨fun n => if n = "h".toList then [parsed] else if n = "k".toList then [pre] else [], ?_⟩
  rintro n mask ⟨mc, hs, h, h1, h2, rfl, rfl⟩
  have h1 : (mc = [] ∧ hs = [(⟨"h".toList, 1, [parsed]⟩ : Handler Nat)]) ∨ (mc = [] ∧ hs = [⟨"k".toList, 2, [pre]⟩]) ∨
      (mc = [] ∧ hs = [⟨"m".toList, 3, []⟩]) := by
    rcases h1 with h1 | ⟨mine, h1⟩
    · rcases List.mem_cons.1 h1 with h | h
      · injection h with a b; exact Or.inl ⟨a, b⟩
      rcases List.mem_cons.1 h with h | h
      · cases h
      · injection List.mem_singleton.1 h with a b; exact Or.inr (Or.inr ⟨a, b⟩)
    · rcases List.mem_cons.1 h1 with h | h
      · cases h
      rcases List.mem_cons.1 h with h | h
      · injection h with a b c; exact Or.inr (Or.inl ⟨a, c⟩)
      · cases List.mem_singleton.1 h
  rcases h1 with ⟨rfl, rfl⟩ | ⟨rfl, rfl⟩ | ⟨rfl, rfl⟩ <;> rw [List.mem_singleton.1 h2] <;> decide +kernel

/-- Against C151: the events of a handler stay when its recipe has been read.  If another recipe, read by the same process,
has a handler with this name for other events, it is called for both. -/
theorem mask_stays : called [Op.recipe [] [] [⟨"h".toList, 1, [parsed]⟩]] [] [] [⟨"h".toList, 2, [pre]⟩] parsed = [("h".toList, 2)] ∧
    Spec.called [Op.recipe [] [] [⟨"h".toList, 1, [parsed]⟩]] [] [] [⟨"h".toList, 2, [pre]⟩] parsed = [] ∧
    called [] [] [] [(⟨"h".toList, 2, [pre]⟩ : Handler Nat)] parsed = [] := by decide +kernel

/-- Against C151: so they do when the configuration is read again after its handler was changed. -/
theorem mask_reread : called [Op.config [] [⟨"h".toList, 1, []⟩], Op.reset, Op.config [] [⟨"h".toList, 2, [started]⟩]] [] [⟨"h".toList, 2, [started]⟩] [] parsed =
      [("h".toList, 2)] ∧
    called [Op.config [] [(⟨"h".toList, 2, [started]⟩ : Handler Nat)]] [] [⟨"h".toList, 2, [started]⟩] [] parsed = [] := by decide +kernel

/-- Against C151: two configurations may give one name to different handlers; then the first one is called for both. -/
theorem name_taken : called [Op.config "a".toList [⟨"b_h".toList, 1, []⟩], Op.config "ab".toList [⟨"_h".toList, 2, []⟩]] "ab".toList
      [⟨"_h".toList, 2, []⟩] [] parsed = [("ab_h".toList, 1)] := by decide +kernel

end Bb.Event
