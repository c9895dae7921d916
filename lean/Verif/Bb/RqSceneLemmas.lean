import Verif.Bb.RqSceneSpec
import Verif.Bb.RqGraphLemmas2
/-!
# Lemmas about the graph of setscene tasks
-/

namespace Bb.Rq
open Spec

set_option linter.unusedSectionVars false

variable {T : Type} [DecidableEq T]

theorem mem_union {a b : List T} {x : T} : x ∈ union a b ↔ x ∈ a ∨ x ∈ b := by
  unfold union
  simp only [List.mem_append, List.mem_filter, decide_eq_true_eq]
  by_cases h : x ∈ a <;> simp [h]

theorem mem_setKey {α : Type} {l : List (T × α)} {k : T} {v : α} {e : T × α}
    (h : e ∈ setKey l k v) : e ∈ l ∨ e = (k, v) := by
  unfold setKey at h
  by_cases hk : k ∈ l.map Prod.fst
  · rw [if_pos hk] at h
    obtain ⟨e', he', rfl⟩ := List.mem_map.1 h
    by_cases h1 : e'.1 = k
    · exact Or.inr (if_pos h1)
    · rw [if_neg h1]; exact Or.inl he'
  · rw [if_neg hk] at h
    rcases List.mem_append.1 h with h | h
    · exact Or.inl h
    · exact Or.inr (by simpa using h)

theorem keys_setKey {α : Type} {l : List (T × α)} {k : T} {v : α} {x : T} :
    x ∈ (setKey l k v).map Prod.fst ↔ x ∈ l.map Prod.fst ∨ x = k := by
  unfold setKey
  by_cases hk : k ∈ l.map Prod.fst
  · rw [if_pos hk]
    have : (l.map fun e => if e.1 = k then (k, v) else e).map Prod.fst = l.map Prod.fst := by
      rw [List.map_map]
      refine List.map_congr_left fun e _ => ?_
      simp only [Function.comp_apply]
      by_cases h1 : e.1 = k
      · rw [if_pos h1]; exact h1.symm
      · rw [if_neg h1]
    rw [this]
    exact ⟨Or.inl, fun h => h.elim id fun e => e ▸ hk⟩
  · rw [if_neg hk]
    simp

theorem keys_addKey {l : List (T × List T)} {k v x : T} :
    x ∈ (addKey l k v).map Prod.fst ↔ x ∈ l.map Prod.fst ∨ x = k := by
  unfold addKey
  by_cases hk : k ∈ l.map Prod.fst
  · rw [if_pos hk]
    have : (l.map fun e => if e.1 = k then (k, union e.2 [v]) else e).map Prod.fst =
        l.map Prod.fst := by
      rw [List.map_map]
      refine List.map_congr_left fun e _ => ?_
      simp only [Function.comp_apply]
      by_cases h1 : e.1 = k
      · rw [if_pos h1]; exact h1.symm
      · rw [if_neg h1]
    rw [this]
    exact ⟨Or.inl, fun h => h.elim id fun e => e ▸ hk⟩
  · rw [if_neg hk]
    simp

/-- Task `s` is entered for `d` in a list of endpoints. -/
def Owed (E : List (T × List T)) (s d : T) : Prop := ∃ l, (d, l) ∈ E ∧ s ∈ l

theorem owed_addKey {E : List (T × List T)} {k v s d : T} :
    Owed (addKey E k v) s d ↔ Owed E s d ∨ (d = k ∧ s = v) := by
  unfold Owed addKey
  by_cases hk : k ∈ E.map Prod.fst
  · rw [if_pos hk]
    constructor
    · rintro ⟨l, hl, hs⟩
      obtain ⟨e, he, heq⟩ := List.mem_map.1 hl
      by_cases h1 : e.1 = k
      · rw [if_pos h1] at heq
        cases heq
        rcases mem_union.1 hs with hs | hs
        · exact Or.inl ⟨e.2, by rw [← h1]; exact he, hs⟩
        · exact Or.inr ⟨rfl, by simpa using hs⟩
      · rw [if_neg h1] at heq
        subst heq
        exact Or.inl ⟨l, he, hs⟩
    · rintro (⟨l, hl, hs⟩ | ⟨rfl, rfl⟩)
      · by_cases h1 : d = k
        · subst h1
          exact ⟨union l [v], List.mem_map.2 ⟨_, hl, by simp⟩, mem_union.2 (Or.inl hs)⟩
        · exact ⟨l, List.mem_map.2 ⟨_, hl, by simp [h1]⟩, hs⟩
      · obtain ⟨e, he, h1⟩ := List.mem_map.1 hk
        exact ⟨union e.2 [s], List.mem_map.2 ⟨e, he, by simp [h1]⟩, mem_union.2 (Or.inr (by simp))⟩
  · rw [if_neg hk]
    constructor
    · rintro ⟨l, hl, hs⟩
      rcases List.mem_append.1 hl with hl | hl
      · exact Or.inl ⟨l, hl, hs⟩
      · have : (d, l) = (k, [v]) := by simpa using hl
        cases this
        exact Or.inr ⟨rfl, by simpa using hs⟩
    · rintro (⟨l, hl, hs⟩ | ⟨rfl, rfl⟩)
      · exact ⟨l, List.mem_append_left _ hl, hs⟩
      · exact ⟨[s], List.mem_append_right _ (by simp), by simp⟩

theorem owed_cons {E : List (T × List T)} {e : T × List T} {s d : T} :
    Owed (e :: E) s d ↔ (d = e.1 ∧ s ∈ e.2) ∨ Owed E s d := by
  unfold Owed
  constructor
  · rintro ⟨l, hl, hs⟩
    rcases List.mem_cons.1 hl with rfl | hl
    · exact Or.inl ⟨rfl, hs⟩
    · exact Or.inr ⟨l, hl, hs⟩
  · rintro (⟨rfl, hs⟩ | ⟨l, hl, hs⟩)
    · exact ⟨e.2, by simp, hs⟩
    · exact ⟨l, List.mem_cons_of_mem _ hl, hs⟩

/-! ### One endpoint -/

/-- The loop over the dependencies of an endpoint, on the fields. -/
theorem pointDeps (S : List T) (x : T) (task tasks : List T) : ∀ (D : List T) (p : PE T),
    let q := D.foldl (pointDep S x task tasks) p
    q.cov = p.cov ∧
    (∀ y r, r ∈ q.rev y ↔ r ∈ p.rev y ∧ (y ∈ D → r ≠ x)) ∧
    (∀ y s, s ∈ q.squash y ↔ s ∈ p.squash y ∨ (y ∈ D ∧ s ∈ tasks)) ∧
    (∀ e ∈ q.new, e ∈ p.new ∨ (e.1 ∈ D ∧ e.1 ∉ S ∧ e.2 = task)) ∧
    (∀ y, y ∈ p.new.map Prod.fst → y ∈ q.new.map Prod.fst) ∧
    (∀ y ∈ D, y ∉ S → q.rev y = [] → y ∈ q.new.map Prod.fst) ∧
    (∀ y, y ∉ D → q.rev y = p.rev y ∧ q.squash y = p.squash y)
  | [], p => by simp
  | d :: D, p => by
    have ih := pointDeps S x task tasks D (pointDep S x task tasks p d)
    simp only at ih
    obtain ⟨i1, i2, i3, i4, i5, i6, i7⟩ := ih
    have r1 : (pointDep S x task tasks p d).cov = p.cov := rfl
    have r2 : ∀ y r, r ∈ (pointDep S x task tasks p d).rev y ↔ r ∈ p.rev y ∧ (y = d → r ≠ x) := by
      intro y r
      show r ∈ upd p.rev d ((p.rev d).filter fun x' => x' ≠ x) y ↔ _
      rw [upd_apply]
      by_cases h : y = d
      · rw [if_pos h]; subst h; simp
      · rw [if_neg h]; simp [h]
    have r3 : ∀ y s, s ∈ (pointDep S x task tasks p d).squash y ↔
        s ∈ p.squash y ∨ (y = d ∧ s ∈ tasks) := by
      intro y s
      show s ∈ (if tasks = [] then p.squash else upd p.squash d (union (p.squash d) tasks)) y ↔ _
      by_cases ht : tasks = []
      · rw [if_pos ht]; simp [ht]
      · rw [if_neg ht, upd_apply]
        by_cases h : y = d
        · rw [if_pos h]; subst h; rw [mem_union]; simp
        · rw [if_neg h]; simp [h]
    have r4 : (pointDep S x task tasks p d).new =
        if (pointDep S x task tasks p d).rev d = [] ∧ d ∉ S then setKey p.new d task else p.new :=
      rfl
    have r5 : ∀ y, y ≠ d → (pointDep S x task tasks p d).rev y = p.rev y ∧
        (pointDep S x task tasks p d).squash y = p.squash y := by
      intro y h
      refine ⟨?_, ?_⟩
      · show upd p.rev d _ y = _
        rw [upd_apply, if_neg h]
      · show (if tasks = [] then p.squash else upd p.squash d (union (p.squash d) tasks)) y = _
        by_cases ht : tasks = []
        · rw [if_pos ht]
        · rw [if_neg ht, upd_apply, if_neg h]
    rw [List.foldl_cons]
    refine ⟨i1.trans r1, ?_, ?_, ?_, ?_, ?_, ?_⟩
    · intro y r
      rw [i2, r2, List.mem_cons]
      constructor
      · rintro ⟨⟨h1, h2⟩, h3⟩
        exact ⟨h1, fun h => h.elim h2 h3⟩
      · rintro ⟨h1, h2⟩
        exact ⟨⟨h1, fun h => h2 (Or.inl h)⟩, fun h => h2 (Or.inr h)⟩
    · intro y s
      rw [i3, r3, List.mem_cons]
      constructor
      · rintro ((h | ⟨h, h'⟩) | ⟨h, h'⟩)
        · exact Or.inl h
        · exact Or.inr ⟨Or.inl h, h'⟩
        · exact Or.inr ⟨Or.inr h, h'⟩
      · rintro (h | ⟨h | h, h'⟩)
        · exact Or.inl (Or.inl h)
        · exact Or.inl (Or.inr ⟨h, h'⟩)
        · exact Or.inr ⟨h, h'⟩
    · intro e he
      rcases i4 e he with h | ⟨h1, h2, h3⟩
      · rw [r4] at h
        by_cases hc : (pointDep S x task tasks p d).rev d = [] ∧ d ∉ S
        · rw [if_pos hc] at h
          rcases mem_setKey h with h | h
          · exact Or.inl h
          · subst h; exact Or.inr ⟨by simp, hc.2, rfl⟩
        · rw [if_neg hc] at h; exact Or.inl h
      · exact Or.inr ⟨List.mem_cons_of_mem _ h1, h2, h3⟩
    · intro y hy
      refine i5 y ?_
      rw [r4]
      by_cases hc : (pointDep S x task tasks p d).rev d = [] ∧ d ∉ S
      · rw [if_pos hc]; exact keys_setKey.2 (Or.inl hy)
      · rw [if_neg hc]; exact hy
    · intro y hy hS h0
      by_cases hyD : y ∈ D
      · exact i6 y hyD hS h0
      · have hyd : y = d := by
          rcases List.mem_cons.1 hy with h | h
          · exact h
          · exact absurd h hyD
        rw [(i7 y hyD).1] at h0
        refine i5 y ?_
        subst hyd
        rw [r4, if_pos ⟨h0, hS⟩]
        exact keys_setKey.2 (Or.inr rfl)
    · intro y hy
      have h1 : y ≠ d := fun h => hy (h ▸ List.mem_cons_self)
      have h2 : y ∉ D := fun h => hy (List.mem_cons_of_mem _ h)
      rw [(i7 y h2).1, (i7 y h2).2]
      exact r5 y h1

/-! ### The invariant -/

/-- Task `s` is known for `d`, or entered for it. -/
def Has (S : List T) (E : List (T × List T)) (p : PE T) (s d : T) : Prop :=
  (d ∉ S ∧ d ∈ p.cov s) ∨ s ∈ p.squash d ∨ Owed E s d

/-- Invariant of `process_endpoints`: `E` are the endpoints still to do in this pass, `P` those that
were done. -/
structure PInv (g : Graph T) (S P : List T) (E : List (T × List T)) (p : PE T) : Prop where
  keysE : ∀ e ∈ E, e.1 ∈ g.tasks ∧ ∀ s ∈ e.2, s ∈ S ∧ Via g S s e.1
  keysN : ∀ e ∈ p.new, e.1 ∈ g.tasks ∧ ∀ s ∈ e.2, s ∈ S ∧ Via g S s e.1
  squash : ∀ x s, s ∈ p.squash x → s ∈ S ∧ Via g S s x ∧ x ∈ g.tasks
  cov : ∀ s x, x ∈ p.cov s → s ∈ S ∧ Via g S s x ∧ x ∉ S ∧ x ∈ g.tasks
  first : ∀ s ∈ S, ∀ d ∈ g.deps s, Has S E p s d
  flow : ∀ s x, x ∈ p.cov s → ∀ d ∈ g.deps x, Has S E p s d
  rev : ∀ x r, r ∈ p.rev x ↔ r ∈ g.revdeps x ∧ r ∉ S ∧ r ∉ P
  pend : ∀ x ∈ g.tasks, x ∉ S → p.squash x ≠ [] →
    p.rev x ≠ [] ∨ x ∈ E.map Prod.fst ∨ x ∈ p.new.map Prod.fst
  todo : ∀ x ∈ g.tasks, x ∉ S → x ∉ P →
    p.rev x ≠ [] ∨ x ∈ E.map Prod.fst ∨ x ∈ p.new.map Prod.fst

theorem pinv_point {g : Graph T} (ok : g.Ok) {S : List T} {P : List T} {E : List (T × List T)}
    {e : T × List T} {p : PE T} (h : PInv g S P (e :: E) p) :
    ∃ P', PInv g S P' E (point g S p e) := by
  obtain ⟨het, hev⟩ := h.keysE e (by simp)
  have htasks : ∀ s, s ∈ union e.2 (p.squash e.1) → s ∈ S ∧ Via g S s e.1 := by
    intro s hs
    rcases mem_union.1 hs with hs | hs
    · exact hev s hs
    · exact ⟨(h.squash _ _ hs).1, (h.squash _ _ hs).2.1⟩
  by_cases hS : e.1 ∈ S
  · have hq : point g S p e = { p with squash := upd p.squash e.1 (union e.2 (p.squash e.1)) } := by
      unfold point; simp only [if_pos hS]
    rw [hq]
    have hsq : ∀ x, upd p.squash e.1 (union e.2 (p.squash e.1)) x =
        if x = e.1 then union e.2 (p.squash e.1) else p.squash x := fun x => upd_apply _ _ _ _
    have hhas : ∀ s d, Has S (e :: E) p s d → Has S E
        { p with squash := upd p.squash e.1 (union e.2 (p.squash e.1)) } s d := by
      rintro s d (hh | hh | hh)
      · exact Or.inl hh
      · refine Or.inr (Or.inl ?_)
        show s ∈ upd p.squash e.1 (union e.2 (p.squash e.1)) d
        rw [hsq]
        by_cases hd : d = e.1
        · rw [if_pos hd]; subst hd; exact mem_union.2 (Or.inr hh)
        · rw [if_neg hd]; exact hh
      · rcases owed_cons.1 hh with ⟨rfl, hm⟩ | hh
        · refine Or.inr (Or.inl ?_)
          show s ∈ upd p.squash e.1 (union e.2 (p.squash e.1)) e.1
          rw [hsq, if_pos rfl]
          exact mem_union.2 (Or.inl hm)
        · exact Or.inr (Or.inr hh)
    refine ⟨P, ⟨fun e' he' => h.keysE e' (List.mem_cons_of_mem _ he'), h.keysN, ?_, h.cov, ?_, ?_, h.rev,
      ?_, ?_⟩⟩
    · intro x s hs
      change s ∈ upd p.squash e.1 (union e.2 (p.squash e.1)) x at hs
      rw [hsq] at hs
      by_cases hx : x = e.1
      · rw [if_pos hx] at hs; subst hx
        exact ⟨(htasks s hs).1, (htasks s hs).2, het⟩
      · rw [if_neg hx] at hs; exact h.squash x s hs
    · exact fun s hs d hd => hhas s d (h.first s hs d hd)
    · exact fun s x hx d hd => hhas s d (h.flow s x hx d hd)
    · intro x hx hxS h0
      have hxe : x ≠ e.1 := fun hh => hxS (hh ▸ hS)
      change upd p.squash e.1 (union e.2 (p.squash e.1)) x ≠ [] at h0
      rw [hsq, if_neg hxe] at h0
      rcases h.pend x hx hxS h0 with hh | hh | hh
      · exact Or.inl hh
      · rw [List.map_cons, List.mem_cons] at hh
        exact Or.inr (Or.inl (hh.resolve_left hxe))
      · exact Or.inr (Or.inr hh)
    · intro x hx hxS hxP
      have hxe : x ≠ e.1 := fun hh => hxS (hh ▸ hS)
      rcases h.todo x hx hxS hxP with hh | hh | hh
      · exact Or.inl hh
      · rw [List.map_cons, List.mem_cons] at hh
        exact Or.inr (Or.inl (hh.resolve_left hxe))
      · exact Or.inr (Or.inr hh)
  · -- the endpoint is not a setscene task
    generalize hp0 : ({ p with
        cov := fun s => if s ∈ union e.2 (p.squash e.1) then union (p.cov s) [e.1] else p.cov s
        squash := upd p.squash e.1 [] } : PE T) = p0
    have hq : point g S p e =
        (g.deps e.1).foldl (pointDep S e.1 e.2 (union e.2 (p.squash e.1))) p0 := by
      unfold point; simp only [if_neg hS, hp0]
    have c0 : ∀ s x, x ∈ p0.cov s ↔ x ∈ p.cov s ∨ (x = e.1 ∧ s ∈ union e.2 (p.squash e.1)) := by
      intro s x
      subst hp0
      show x ∈ (if s ∈ union e.2 (p.squash e.1) then union (p.cov s) [e.1] else p.cov s) ↔ _
      by_cases hs : s ∈ union e.2 (p.squash e.1)
      · rw [if_pos hs, mem_union]; simp [hs]
      · rw [if_neg hs]; simp [hs]
    have s0 : ∀ x, p0.squash x = if x = e.1 then [] else p.squash x := by
      intro x; subst hp0; exact upd_apply _ _ _ _
    have n0 : p0.new = p.new := by subst hp0; rfl
    have v0 : p0.rev = p.rev := by subst hp0; rfl
    obtain ⟨q1, q2, q3, q4, q5, q6, q7⟩ :=
      pointDeps S e.1 e.2 (union e.2 (p.squash e.1)) (g.deps e.1) p0
    rw [← hq] at q1 q2 q3 q4 q5 q6 q7
    clear hp0
    have hnd : e.1 ∉ g.deps e.1 := ok.noSelf _ het
    have hhas : ∀ s d, Has S (e :: E) p s d → Has S E (point g S p e) s d := by
      rintro s d (⟨hh, hh'⟩ | hh | hh)
      · exact Or.inl ⟨hh, by rw [q1]; exact (c0 _ _).2 (Or.inl hh')⟩
      · by_cases hd : d = e.1
        · subst hd
          exact Or.inl ⟨hS, by rw [q1]; exact (c0 _ _).2 (Or.inr ⟨rfl, mem_union.2 (Or.inr hh)⟩)⟩
        · refine Or.inr (Or.inl ((q3 _ _).2 (Or.inl ?_)))
          rw [s0, if_neg hd]; exact hh
      · rcases owed_cons.1 hh with ⟨rfl, hm⟩ | hh
        · exact Or.inl ⟨hS, by rw [q1]; exact (c0 _ _).2 (Or.inr ⟨rfl, mem_union.2 (Or.inl hm)⟩)⟩
        · exact Or.inr (Or.inr hh)
    refine ⟨e.1 :: P, ⟨fun e' he' => h.keysE e' (List.mem_cons_of_mem _ he'), ?_, ?_, ?_, ?_, ?_, ?_,
      ?_, ?_⟩⟩
    · intro e' he'
      rcases q4 e' he' with hh | ⟨h1, h2, h3⟩
      · rw [n0] at hh; exact h.keysN e' hh
      · refine ⟨ok.closed _ het _ h1, fun s hs => ?_⟩
        rw [h3] at hs
        exact ⟨(hev s hs).1, Via.more (hev s hs).2 hS h1⟩
    · intro x s hs
      rcases (q3 _ _).1 hs with hh | ⟨hh, hh'⟩
      · rw [s0] at hh
        by_cases hx : x = e.1
        · rw [if_pos hx] at hh; simp at hh
        · rw [if_neg hx] at hh; exact h.squash x s hh
      · exact ⟨(htasks s hh').1, Via.more (htasks s hh').2 hS hh, ok.closed _ het _ hh⟩
    · intro s x hx
      rw [q1, c0] at hx
      rcases hx with hx | ⟨rfl, hx⟩
      · exact h.cov s x hx
      · exact ⟨(htasks s hx).1, (htasks s hx).2, hS, het⟩
    · exact fun s hs d hd => hhas s d (h.first s hs d hd)
    · intro s x hx d hd
      rw [q1, c0] at hx
      rcases hx with hx | ⟨rfl, hx⟩
      · exact hhas s d (h.flow s x hx d hd)
      · exact Or.inr (Or.inl ((q3 _ _).2 (Or.inr ⟨hd, hx⟩)))
    · intro x r
      rw [q2, v0, h.rev, List.mem_cons, mem_revdeps]
      constructor
      · rintro ⟨⟨⟨h1, h2⟩, h3, h4⟩, h5⟩
        refine ⟨⟨h1, h2⟩, h3, ?_⟩
        rintro (hh | hh)
        · subst hh; exact h5 h2 rfl
        · exact h4 hh
      · rintro ⟨⟨h1, h2⟩, h3, h4⟩
        exact ⟨⟨⟨h1, h2⟩, h3, fun hh => h4 (Or.inr hh)⟩, fun _ hh => h4 (Or.inl hh)⟩
    · intro x hx hxS hne
      by_cases hr : (point g S p e).rev x = []
      · refine Or.inr ?_
        by_cases hxd : x ∈ g.deps e.1
        · exact Or.inr (q6 x hxd hxS hr)
        · rw [(q7 x hxd).2, s0] at hne
          by_cases hxe : x = e.1
          · rw [if_pos hxe] at hne; exact absurd rfl hne
          · rw [if_neg hxe] at hne
            rw [(q7 x hxd).1, v0] at hr
            rcases h.pend x hx hxS hne with hh | hh | hh
            · exact absurd hr hh
            · rw [List.map_cons, List.mem_cons] at hh
              exact Or.inl (hh.resolve_left hxe)
            · exact Or.inr (q5 x (by rw [n0]; exact hh))
      · exact Or.inl hr
    · intro x hx hxS hxP
      have hxe : x ≠ e.1 := fun hh => hxP (hh ▸ List.mem_cons_self)
      by_cases hr : (point g S p e).rev x = []
      · refine Or.inr ?_
        by_cases hxd : x ∈ g.deps e.1
        · exact Or.inr (q6 x hxd hxS hr)
        · rw [(q7 x hxd).1, v0] at hr
          rcases h.todo x hx hxS (fun hh => hxP (List.mem_cons_of_mem _ hh)) with hh | hh | hh
          · exact absurd hr hh
          · rw [List.map_cons, List.mem_cons] at hh
            exact Or.inl (hh.resolve_left hxe)
          · exact Or.inr (q5 x (by rw [n0]; exact hh))
      · exact Or.inl hr

theorem pinv_fold {g : Graph T} (ok : g.Ok) {S : List T} : ∀ (E : List (T × List T)) {P : List T}
    {p : PE T}, PInv g S P E p → ∃ P', PInv g S P' [] (E.foldl (point g S) p)
  | [], P, p, h => ⟨P, h⟩
  | e :: E, P, p, h => by
    obtain ⟨P', h'⟩ := pinv_point ok h
    exact pinv_fold ok E h'

/-- The new endpoints of a pass are dependencies of its endpoints. -/
theorem new_fold {g : Graph T} {S : List T} : ∀ (E : List (T × List T)) (p : PE T),
    ∀ e ∈ (E.foldl (point g S) p).new, e ∈ p.new ∨ ∃ x ∈ E.map Prod.fst, e.1 ∈ g.deps x
  | [], _, e, he => Or.inl he
  | e0 :: E, p, e, he => by
    rw [List.foldl_cons] at he
    rcases new_fold E _ e he with h | ⟨x, hx, h⟩
    · by_cases hS : e0.1 ∈ S
      · unfold point at h; simp only [if_pos hS] at h; exact Or.inl h
      · unfold point at h; simp only [if_neg hS] at h
        rcases (pointDeps S e0.1 e0.2 _ (g.deps e0.1) _).2.2.2.1 e h with h | h
        · exact Or.inl h
        · exact Or.inr ⟨e0.1, by simp, h.1⟩
    · exact Or.inr ⟨x, by rw [List.map_cons]; exact List.mem_cons_of_mem _ hx, h⟩

/-- The next pass: the new endpoints become the endpoints. -/
theorem pinv_swap {g : Graph T} {S P : List T} {p : PE T} (h : PInv g S P [] p) :
    PInv g S P p.new { p with new := [] } where
  keysE := h.keysN
  keysN := by simp
  squash := h.squash
  cov := h.cov
  first s hs d hd := by
    rcases h.first s hs d hd with hh | hh | ⟨l, hl, _⟩
    · exact Or.inl hh
    · exact Or.inr (Or.inl hh)
    · simp at hl
  flow s x hx d hd := by
    rcases h.flow s x hx d hd with hh | hh | ⟨l, hl, _⟩
    · exact Or.inl hh
    · exact Or.inr (Or.inl hh)
    · simp at hl
  rev := h.rev
  pend x hx hxS h0 := by
    rcases h.pend x hx hxS h0 with hh | hh | hh
    · exact Or.inl hh
    · simp at hh
    · exact Or.inr (Or.inl hh)
  todo x hx hxS h0 := by
    rcases h.todo x hx hxS h0 with hh | hh | hh
    · exact Or.inl hh
    · simp at hh
    · exact Or.inr (Or.inl hh)

theorem pinv_points {g : Graph T} (ok : g.Ok) {S : List T} : ∀ (fuel : Nat) (E : List (T × List T))
    (P : List T) (p : PE T), PInv g S P E { p with new := [] } →
    ∃ P', PInv g S P' [] (points g S (fuel + 1) E p)
  | 0, E, P, p, h => by
    obtain ⟨P', h'⟩ := pinv_fold ok E h
    unfold points
    simp only
    by_cases hn : (E.foldl (point g S) { p with new := [] }).new = []
    · rw [if_pos hn]; exact ⟨P', h'⟩
    · rw [if_neg hn]; unfold points; exact ⟨P', h'⟩
  | fuel + 1, E, P, p, h => by
    obtain ⟨P', h'⟩ := pinv_fold ok E h
    unfold points
    simp only
    by_cases hn : (E.foldl (point g S) { p with new := [] }).new = []
    · rw [if_pos hn]; exact ⟨P', h'⟩
    · rw [if_neg hn]
      exact pinv_points ok fuel _ P' _ (pinv_swap h')

/-- With enough fuel no endpoints are left. -/
theorem points_new {g : Graph T} {S : List T} (rank : T → Nat)
    (hr : ∀ t ∈ g.tasks, ∀ d ∈ g.deps t, rank d < rank t) (ok : g.Ok) :
    ∀ (fuel : Nat) (E : List (T × List T)) (p : PE T),
    (∀ e ∈ E, e.1 ∈ g.tasks ∧ rank e.1 < fuel + 1) → (points g S (fuel + 1) E p).new = []
  | 0, E, p, h => by
    unfold points
    simp only
    by_cases hn : (E.foldl (point g S) { p with new := [] }).new = []
    · rw [if_pos hn]; exact hn
    · exfalso
      refine hn (List.eq_nil_iff_forall_not_mem.2 fun e he => ?_)
      rcases new_fold E _ e he with hh | ⟨x, hx, hh⟩
      · simp at hh
      · obtain ⟨e', he', rfl⟩ := List.mem_map.1 hx
        have h1 := h e' he'
        have h2 := hr _ h1.1 _ hh
        omega
  | fuel + 1, E, p, h => by
    unfold points
    simp only
    by_cases hn : (E.foldl (point g S) { p with new := [] }).new = []
    · rw [if_pos hn]; exact hn
    · rw [if_neg hn]
      refine points_new rank hr ok fuel _ _ fun e he => ?_
      rcases new_fold E _ e he with hh | ⟨x, hx, hh⟩
      · simp at hh
      · obtain ⟨e', he', rfl⟩ := List.mem_map.1 hx
        have h1 := h e' he'
        have h2 := hr _ h1.1 _ hh
        exact ⟨ok.closed _ h1.1 _ hh, by omega⟩

/-! ### The first endpoints -/

theorem startDeps (tid : T) : ∀ (D : List T) (s : (T → List T) × List (T × List T)),
    let q := D.foldl (startDep tid) s
    (∀ y r, r ∈ q.1 y ↔ r ∈ s.1 y ∧ (y ∈ D → r ≠ tid)) ∧
    (∀ y, y ∈ q.2.map Prod.fst ↔ y ∈ s.2.map Prod.fst ∨ y ∈ D) ∧
    (∀ v y, Owed q.2 v y ↔ Owed s.2 v y ∨ (y ∈ D ∧ v = tid))
  | [], s => by simp
  | d :: D, s => by
    obtain ⟨i1, i2, i3⟩ := startDeps tid D (startDep tid s d)
    have r1 : ∀ y r, r ∈ (startDep tid s d).1 y ↔ r ∈ s.1 y ∧ (y = d → r ≠ tid) := by
      intro y r
      show r ∈ upd s.1 d ((s.1 d).filter fun x => x ≠ tid) y ↔ _
      rw [upd_apply]
      by_cases h : y = d
      · rw [if_pos h]; subst h; simp
      · rw [if_neg h]; simp [h]
    have r2 : (startDep tid s d).2 = addKey s.2 d tid := rfl
    rw [List.foldl_cons]
    refine ⟨?_, ?_, ?_⟩
    · intro y r
      rw [i1, r1, List.mem_cons]
      constructor
      · rintro ⟨⟨h1, h2⟩, h3⟩
        exact ⟨h1, fun h => h.elim h2 h3⟩
      · rintro ⟨h1, h2⟩
        exact ⟨⟨h1, fun h => h2 (Or.inl h)⟩, fun h => h2 (Or.inr h)⟩
    · intro y
      rw [i2, r2, keys_addKey, List.mem_cons, or_assoc]
    · intro v y
      rw [i3, r2, owed_addKey, List.mem_cons]
      constructor
      · rintro ((h | ⟨h, h'⟩) | ⟨h, h'⟩)
        · exact Or.inl h
        · exact Or.inr ⟨Or.inl h, h'⟩
        · exact Or.inr ⟨Or.inr h, h'⟩
      · rintro (h | ⟨h | h, h'⟩)
        · exact Or.inl (Or.inl h)
        · exact Or.inl (Or.inr ⟨h, h'⟩)
        · exact Or.inr ⟨h, h'⟩

theorem startAll (g : Graph T) : ∀ (S : List T) (s : (T → List T) × List (T × List T)),
    let q := S.foldl (fun s tid => (g.deps tid).foldl (startDep tid) s) s
    (∀ y r, r ∈ q.1 y ↔ r ∈ s.1 y ∧ (r ∈ S → y ∉ g.deps r)) ∧
    (∀ y, y ∈ q.2.map Prod.fst ↔ y ∈ s.2.map Prod.fst ∨ ∃ t ∈ S, y ∈ g.deps t) ∧
    (∀ v y, Owed q.2 v y ↔ Owed s.2 v y ∨ (v ∈ S ∧ y ∈ g.deps v))
  | [], s => by simp
  | t :: S, s => by
    obtain ⟨i1, i2, i3⟩ := startAll g S ((g.deps t).foldl (startDep t) s)
    obtain ⟨r1, r2, r3⟩ := startDeps t (g.deps t) s
    simp only [List.foldl_cons]
    refine ⟨?_, ?_, ?_⟩
    · intro y r
      rw [i1, r1, List.mem_cons]
      constructor
      · rintro ⟨⟨h1, h2⟩, h3⟩
        refine ⟨h1, fun h => h.elim (fun e he => ?_) h3⟩
        subst e; exact h2 he rfl
      · rintro ⟨h1, h2⟩
        exact ⟨⟨h1, fun h e => h2 (Or.inl e) (e ▸ h)⟩, fun h => h2 (Or.inr h)⟩
    · intro y
      rw [i2, r2]
      simp only [List.mem_cons, exists_eq_or_imp, or_assoc]
    · intro v y
      rw [i3, r3, List.mem_cons]
      constructor
      · rintro ((h | ⟨h, rfl⟩) | ⟨h, h'⟩)
        · exact Or.inl h
        · exact Or.inr ⟨Or.inl rfl, h⟩
        · exact Or.inr ⟨Or.inr h, h'⟩
      · rintro (h | ⟨rfl | h, h'⟩)
        · exact Or.inl (Or.inl h)
        · exact Or.inl (Or.inr ⟨h', rfl⟩)
        · exact Or.inr ⟨h, h'⟩

theorem pinv_start {g : Graph T} (ok : g.Ok) {S : List T} (hS : ∀ s ∈ S, s ∈ g.tasks) :
    PInv g S [] (start g S).2
      { rev := (start g S).1, squash := fun _ => [], cov := fun _ => [], new := [] } := by
  obtain ⟨i1, i2, i3⟩ := startAll g S
    (g.revdeps, (g.tasks.filter fun t => (g.revdeps t).isEmpty ∧ t ∉ S).map fun t => (t, []))
  have i1' : ∀ y r, r ∈ (start g S).1 y ↔ r ∈ g.revdeps y ∧ r ∉ S := by
    intro y r
    have := i1 y r
    unfold start
    rw [this]
    constructor
    · rintro ⟨h1, h2⟩
      exact ⟨h1, fun h => h2 h (mem_revdeps.1 h1).2⟩
    · rintro ⟨h1, h2⟩
      exact ⟨h1, fun h => absurd h h2⟩
  have i2' : ∀ y, y ∈ (start g S).2.map Prod.fst ↔
      (y ∈ g.tasks ∧ g.revdeps y = [] ∧ y ∉ S) ∨ ∃ t ∈ S, y ∈ g.deps t := by
    intro y
    have := i2 y
    unfold start
    rw [this, List.map_map]
    have e : (Prod.fst ∘ fun t : T => (t, ([] : List T))) = id := rfl
    rw [e, List.map_id, List.mem_filter]
    simp
  have i3' : ∀ v y, Owed (start g S).2 v y ↔ v ∈ S ∧ y ∈ g.deps v := by
    intro v y
    have := i3 v y
    unfold start
    rw [this]
    constructor
    · rintro (⟨l, hl, hv⟩ | h)
      · obtain ⟨t, _, he⟩ := List.mem_map.1 hl
        cases he
        simp at hv
      · exact h
    · exact Or.inr
  exact {
    keysE := by
      intro e he
      refine ⟨?_, fun s hs => ?_⟩
      · have : e.1 ∈ (start g S).2.map Prod.fst := List.mem_map.2 ⟨e, he, rfl⟩
        rcases (i2' _).1 this with h | ⟨t, ht, h⟩
        · exact h.1
        · exact ok.closed _ (hS t ht) _ h
      · have := (i3' s e.1).1 ⟨e.2, he, hs⟩
        exact ⟨this.1, Via.one this.2⟩
    keysN := by simp
    squash := by simp
    cov := by simp
    first := fun s hs d hd => Or.inr (Or.inr ((i3' s d).2 ⟨hs, hd⟩))
    flow := by simp
    rev := fun x r => by rw [i1']; simp
    pend := by simp
    todo := by
      intro x hx hxS _
      by_cases hr : (start g S).1 x = []
      · refine Or.inr (Or.inl ((i2' x).2 ?_))
        by_cases h : ∃ t ∈ S, x ∈ g.deps t
        · exact Or.inr h
        · refine Or.inl ⟨hx, List.eq_nil_iff_forall_not_mem.2 fun r hrr => ?_, hxS⟩
          have : r ∈ (start g S).1 x := (i1' _ _).2 ⟨hrr, fun hh => h ⟨r, hh, (mem_revdeps.1 hrr).2⟩⟩
          rw [hr] at this
          simp at this
      · exact Or.inl hr }

theorem pinv_collapse {g : Graph T} (ok : g.Ok) {S : List T} (hS : ∀ s ∈ S, s ∈ g.tasks) :
    ∃ P, PInv g S P [] (collapse g S) :=
  pinv_points ok g.tasks.length _ [] _ (pinv_start ok hS)

/-! ### A rank for tasks -/

/-- In a graph without cycles each task has a larger rank than its dependencies. -/
theorem exists_rank {g : Graph T} (ok : g.Ok) (ac : Acyclic g) : ∃ rank : T → Nat,
    (∀ t ∈ g.tasks, ∀ d ∈ g.deps t, rank d < rank t) ∧ ∀ t, rank t ≤ g.tasks.length := by
  classical
  refine ⟨fun t => (g.tasks.filter fun x => decide (Path g t x)).length, ?_, ?_⟩
  · intro t ht d hd
    have hdt := ok.closed t ht d hd
    have h1 : (d :: g.tasks.filter fun x => decide (Path g d x)).Nodup := by
      refine List.nodup_cons.2 ⟨fun h => ?_, ok.nodup.filter _⟩
      exact ac d hdt (by simpa using (List.mem_filter.1 h).2)
    have h2 : ∀ x ∈ (d :: g.tasks.filter fun x => decide (Path g d x)),
        x ∈ g.tasks.filter fun x => decide (Path g t x) := by
      intro x hx
      rcases List.mem_cons.1 hx with rfl | hx
      · exact List.mem_filter.2 ⟨hdt, by simpa using Path.one hd⟩
      · have := List.mem_filter.1 hx
        exact List.mem_filter.2 ⟨this.1, by simpa using Path.more hd (by simpa using this.2)⟩
    have := nodup_length_le h1 h2
    rw [List.length_cons] at this
    exact this
  · intro t
    exact List.length_filter_le _ _

/-- Without cycles the error at the end is never reached. -/
theorem squash_empty {g : Graph T} (ok : g.Ok) (ac : Acyclic g) {S : List T}
    (hS : ∀ s ∈ S, s ∈ g.tasks) : ∀ x ∈ g.tasks, x ∉ S → (collapse g S).squash x = [] := by
  obtain ⟨P, h⟩ := pinv_collapse ok hS
  obtain ⟨rank, hr, hb⟩ := exists_rank ok ac
  have hnew : (collapse g S).new = [] :=
    points_new rank hr ok g.tasks.length _ _ fun e he =>
      ⟨((pinv_start ok hS).keysE e he).1, by have := hb e.1; omega⟩
  have hU : ∀ x, ¬ (x ∈ g.tasks ∧ x ∉ S ∧ x ∉ P) := by
    refine no_ascent ac (U := fun x => x ∈ g.tasks ∧ x ∉ S ∧ x ∉ P) (fun x h => h.1) ?_
    rintro x ⟨h1, h2, h3⟩
    rcases h.todo x h1 h2 h3 with hh | hh | hh
    · obtain ⟨r, hr'⟩ := List.exists_mem_of_ne_nil _ hh
      obtain ⟨a, b, c⟩ := (h.rev x r).1 hr'
      exact ⟨r, a, (mem_revdeps.1 a).1, b, c⟩
    · simp at hh
    · rw [hnew] at hh; simp at hh
  intro x hx hxS
  refine Classical.byContradiction fun hne => ?_
  rcases h.pend x hx hxS hne with hh | hh | hh
  · obtain ⟨r, hr'⟩ := List.exists_mem_of_ne_nil _ hh
    obtain ⟨a, b, c⟩ := (h.rev x r).1 hr'
    exact hU r ⟨(mem_revdeps.1 a).1, b, c⟩
  · simp at hh
  · rw [hnew] at hh; simp at hh

/-! ### Unskippable tasks -/

theorem mem_unskipRound_aux (g : Graph T) (S : List T) : ∀ (l u : List T) (x : T),
    x ∈ l.foldl (fun u' t => if t ∈ S then u' else union u' (g.deps t)) u ↔
      x ∈ u ∨ ∃ t ∈ l, t ∉ S ∧ x ∈ g.deps t
  | [], u, x => by simp
  | t :: l, u, x => by
    rw [List.foldl_cons, mem_unskipRound_aux g S l]
    by_cases h : t ∈ S
    · rw [if_pos h]; simp [h]
    · rw [if_neg h, mem_union]
      simp only [List.mem_cons, exists_eq_or_imp, h, not_false_eq_true, true_and, or_assoc]

theorem mem_unskipRound {g : Graph T} {S u : List T} {x : T} :
    x ∈ unskipRound g S u ↔ x ∈ u ∨ ∃ t ∈ u, t ∉ S ∧ x ∈ g.deps t :=
  mem_unskipRound_aux g S u u x

theorem unskipLoop_spec {g : Graph T} (ok : g.Ok) {S : List T} (R : T → Prop)
    (hR : ∀ x, R x → x ∉ S → ∀ d ∈ g.deps x, R d) :
    ∀ (fuel : Nat) (u : List T), (∀ x ∈ u, x ∈ g.tasks ∧ R x) → todo g u < fuel →
    (∀ x ∈ u, x ∈ unskipLoop g S fuel u) ∧
    (∀ x ∈ unskipLoop g S fuel u, x ∈ g.tasks ∧ R x) ∧
    (∀ x ∈ unskipLoop g S fuel u, x ∉ S → ∀ d ∈ g.deps x, d ∈ unskipLoop g S fuel u)
  | 0, u, _, hf => absurd hf (by omega)
  | fuel + 1, u, hu, hf => by
    unfold unskipLoop
    by_cases hc : (unskipRound g S u).all (fun x => decide (x ∈ u)) = true
    · rw [if_pos hc]
      refine ⟨fun _ h => h, hu, fun x hx hxS d hd => ?_⟩
      have := List.all_eq_true.1 hc d (mem_unskipRound.2 (Or.inr ⟨x, hx, hxS, hd⟩))
      simpa using this
    · rw [if_neg hc]
      have hu' : ∀ x ∈ unskipRound g S u, x ∈ g.tasks ∧ R x := by
        intro x hx
        rcases mem_unskipRound.1 hx with h | ⟨t, h1, h2, h3⟩
        · exact hu x h
        · exact ⟨ok.closed _ (hu t h1).1 _ h3, hR t (hu t h1).2 h2 x h3⟩
      have hex : ∃ x ∈ unskipRound g S u, x ∉ u := by
        refine Classical.byContradiction fun hn => hc (List.all_eq_true.2 fun x hx => ?_)
        exact decide_eq_true (Classical.byContradiction fun hx' => hn ⟨x, hx, hx'⟩)
      obtain ⟨x, hx, hxu⟩ := hex
      have hlt : todo g (unskipRound g S u) < todo g u := by
        have h1 := todo_cons (hu' x hx).1 hxu
        have h2 : todo g (unskipRound g S u) ≤ todo g (x :: u) := by
          refine todo_mono g fun y hy => ?_
          rcases List.mem_cons.1 hy with rfl | hy
          · exact hx
          · exact mem_unskipRound.2 (Or.inl hy)
        omega
      obtain ⟨i1, i2, i3⟩ := unskipLoop_spec ok R hR fuel (unskipRound g S u) hu' (by omega)
      exact ⟨fun y hy => i1 y (mem_unskipRound.2 (Or.inl hy)), i2, i3⟩

end Bb.Rq
