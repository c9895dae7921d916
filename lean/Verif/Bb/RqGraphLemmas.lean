import Verif.Bb.RqGraphSpec
/-!
# Lemmas about the task graph
-/

namespace Bb.Rq
open Spec

set_option linter.unusedSectionVars false

variable {T : Type} [DecidableEq T]

/-! ### Lists -/

theorem nodup_length_le {l m : List T} (h : l.Nodup) (hs : ∀ x ∈ l, x ∈ m) : l.length ≤ m.length := by
  induction l generalizing m with
  | nil => exact Nat.zero_le _
  | cons a l ih =>
    have ⟨ha, hl⟩ := List.nodup_cons.1 h
    have ham := hs a List.mem_cons_self
    have := ih (m := m.erase a) hl fun x hx => by
      have hne : x ≠ a := fun e => ha (e ▸ hx)
      exact (List.mem_erase_of_ne hne).2 (hs x (List.mem_cons_of_mem _ hx))
    rw [List.length_erase_of_mem ham] at this
    have : 0 < m.length := List.length_pos_of_mem ham
    simp only [List.length_cons]
    omega

/-! ### Paths -/

theorem Path.trans {g : Graph T} {a b c : T} (h : Path g a b) (h' : Path g b c) : Path g a c := by
  induction h with
  | one h => exact .more h h'
  | more h _ ih => exact .more h (ih h')

theorem Path.snoc {g : Graph T} {a b c : T} (h : Path g a b) (h' : c ∈ g.deps b) : Path g a c :=
  Path.trans h (.one h')

theorem path_closed {g : Graph T} (ok : g.Ok) {a b : T} (ha : a ∈ g.tasks) (h : Path g a b) :
    b ∈ g.tasks := by
  induction h with
  | one h => exact ok.closed _ ha _ h
  | more h _ ih => exact ih (ok.closed _ ha _ h)

/-! ### `mark_active` -/

/-- The number of tasks that are not marked. -/
def todo (g : Graph T) (b : List T) : Nat := (g.tasks.filter fun t => t ∉ b).length

theorem todo_mono (g : Graph T) {b b' : List T} (h : ∀ x ∈ b, x ∈ b') : todo g b' ≤ todo g b := by
  unfold todo
  rw [← List.countP_eq_length_filter, ← List.countP_eq_length_filter]
  refine List.countP_mono_left fun x _ hx => ?_
  simp only [decide_eq_true_eq] at hx ⊢
  exact fun hb => hx (h x hb)

theorem todo_cons {g : Graph T} {b : List T} {t : T} (ht : t ∈ g.tasks) (hb : t ∉ b) :
    todo g (t :: b) < todo g b := by
  unfold todo
  have e : (g.tasks.filter fun x => x ∉ t :: b) =
      (g.tasks.filter fun x => x ∉ b).filter fun x => x ≠ t := by
    rw [List.filter_filter]
    congr 1
    funext x
    simp only [List.mem_cons, not_or, Bool.decide_and]
  rw [e]
  have hm : t ∈ g.tasks.filter fun x => x ∉ b := List.mem_filter.2 ⟨ht, by simpa using hb⟩
  generalize (g.tasks.filter fun x => x ∉ b) = l at hm
  clear e
  induction l with
  | nil => cases hm
  | cons a l ih =>
    by_cases e : a = t
    · rw [List.filter_cons_of_neg (by simp [e])]
      exact Nat.lt_succ_of_le (List.length_filter_le _ _)
    · rw [List.filter_cons_of_pos (by simp [e])]
      rcases List.mem_cons.1 hm with h | h
      · exact absurd h.symm e
      · simp only [List.length_cons]
        have := ih h
        omega

/-- What a search from some tasks adds. -/
structure Search (g : Graph T) (from_ : T → Prop) (b r : List T) : Prop where
  sub : ∀ x ∈ b, x ∈ r
  new : ∀ x ∈ r, x ∉ b → from_ x ∧ ∀ d ∈ g.deps x, d ∈ r

theorem search_fold {g : Graph T} {P : T → Prop} (f : T → List T → List T) (l : List T) (b0 : List T)
    (hl : ∀ d ∈ l, ∀ b : List T, (∀ x ∈ b0, x ∈ b) → Search g P b (f d b) ∧ d ∈ f d b) (b : List T)
    (hb : ∀ x ∈ b0, x ∈ b) :
    Search g P b (l.foldl (fun b d => f d b) b) ∧ ∀ d ∈ l, d ∈ l.foldl (fun b d => f d b) b := by
  induction l generalizing b with
  | nil => exact ⟨⟨fun x h => h, fun x h hn => absurd h hn⟩, fun d h => by cases h⟩
  | cons a l ih =>
    obtain ⟨h1, h2⟩ := hl a List.mem_cons_self b hb
    obtain ⟨h3, h4⟩ := ih (fun d hd => hl d (List.mem_cons_of_mem _ hd)) (f a b)
      (fun x hx => h1.sub x (hb x hx))
    simp only [List.foldl_cons]
    refine ⟨⟨fun x h => h3.sub x (h1.sub x h), fun x h hn => ?_⟩, fun d hd => ?_⟩
    · by_cases e : x ∈ f a b
      · obtain ⟨hp, hd⟩ := h1.new x e hn
        exact ⟨hp, fun d hd' => h3.sub d (hd d hd')⟩
      · exact h3.new x h e
    · rcases List.mem_cons.1 hd with rfl | hd
      · exact h3.sub _ h2
      · exact h4 d hd

theorem search_mono {g : Graph T} {P Q : T → Prop} (h : ∀ x, P x → Q x) {b r : List T}
    (s : Search g P b r) : Search g Q b r :=
  ⟨s.sub, fun x hx hn => ⟨h x (s.new x hx hn).1, (s.new x hx hn).2⟩⟩

theorem markActive_search {g : Graph T} (ok : g.Ok) : ∀ (fuel : Nat) (t : T) (b : List T),
    t ∈ g.tasks → todo g b < fuel →
    Search g (Needs g t) b (markActive g fuel t b) ∧ t ∈ markActive g fuel t b := by
  intro fuel
  induction fuel with
  | zero => intro t b _ h; exact absurd h (Nat.not_lt_zero _)
  | succ fuel ih =>
    intro t b ht hf
    rw [markActive]
    by_cases hb : t ∈ b
    · rw [if_pos hb]
      exact ⟨⟨fun x h => h, fun x h hn => absurd h hn⟩, hb⟩
    · rw [if_neg hb]
      have hlt := todo_cons ht hb
      obtain ⟨h1, h2⟩ := search_fold (g := g) (P := Needs g t) (fun d b => markActive g fuel d b)
        (g.deps t) (t :: b) (fun d hd b' hb' => by
          obtain ⟨h1, h2⟩ := ih d b' (ok.closed t ht d hd) (by
            have := todo_mono g hb'
            omega)
          refine ⟨search_mono (fun x hx => ?_) h1, h2⟩
          rcases hx with rfl | hx
          · exact .inr (.one hd)
          · exact .inr (.more hd hx)) (t :: b) (fun x h => h)
      have hmem : t ∈ (g.deps t).foldl (fun b d => markActive g fuel d b) (t :: b) :=
        h1.sub t List.mem_cons_self
      refine ⟨⟨fun x h => h1.sub x (List.mem_cons_of_mem _ h), fun x hx hn => ?_⟩, hmem⟩
      by_cases e : x = t
      · exact ⟨.inl e.symm, fun d hd => h2 d (e ▸ hd)⟩
      · exact h1.new x hx (by simp [e, hn])

/-- A set of marked tasks. -/
structure Marked (g : Graph T) (P : T → Prop) (b : List T) : Prop where
  sound : ∀ x ∈ b, P x
  closed : ∀ x ∈ b, ∀ d ∈ g.deps x, d ∈ b

theorem marked_search {g : Graph T} {P Q : T → Prop} {b r : List T} (m : Marked g P b)
    (s : Search g Q b r) : Marked g (fun x => P x ∨ Q x) r := by
  constructor
  · intro x hx
    by_cases e : x ∈ b
    · exact .inl (m.sound x e)
    · exact .inr (s.new x hx e).1
  · intro x hx d hd
    by_cases e : x ∈ b
    · exact s.sub d (m.closed x e d hd)
    · exact (s.new x hx e).2 d hd

theorem markTarget_marked {g : Graph T} (ok : g.Ok) {P : T → Prop} {b : List T} (m : Marked g P b)
    (tg : Target T) (ht : ∀ t, tg = .run t ∨ tg = .parents t → t ∈ g.tasks) :
    Marked g (fun x => P x ∨ Wanted g tg x) (markTarget g (g.tasks.length + 1) b tg) ∧
      (∀ x ∈ b, x ∈ markTarget g (g.tasks.length + 1) b tg) ∧
      ∀ t, (tg = .run t → t ∈ markTarget g (g.tasks.length + 1) b tg) ∧
        (tg = .parents t → ∀ d ∈ g.deps t, d ∈ markTarget g (g.tasks.length + 1) b tg) := by
  have hf : ∀ b : List T, todo g b < g.tasks.length + 1 := fun b =>
    Nat.lt_succ_of_le (List.length_filter_le _ _)
  cases tg with
  | run t =>
    obtain ⟨h1, h2⟩ := markActive_search ok (g.tasks.length + 1) t b (ht t (.inl rfl)) (hf b)
    refine ⟨marked_search m h1, h1.sub, fun t' => ⟨fun e => (by cases e; exact h2), fun e => by cases e⟩⟩
  | parents t =>
    have htt := ht t (.inr rfl)
    obtain ⟨h1, h2⟩ := search_fold (g := g) (P := Path g t)
      (fun d b => markActive g (g.tasks.length + 1) d b) (g.deps t) b (fun d hd b' _ => by
        obtain ⟨h1, h2⟩ := markActive_search ok (g.tasks.length + 1) d b' (ok.closed t htt d hd) (hf b')
        refine ⟨search_mono (fun x hx => ?_) h1, h2⟩
        rcases hx with rfl | hx
        · exact .one hd
        · exact .more hd hx) b (fun x h => h)
    refine ⟨marked_search m h1, h1.sub, fun t' => ⟨fun e => (by cases e), fun e => by cases e; exact h2⟩⟩

theorem marked_path {g : Graph T} {P : T → Prop} {b : List T} (m : Marked g P b) {x y : T}
    (h : Path g x y) (hx : x ∈ b) : y ∈ b := by
  induction h with
  | one h => exact m.closed _ hx _ h
  | more h _ ih => exact ih (m.closed _ hx _ h)

/-- The marked tasks are those that are wanted. -/
theorem mem_marked {g : Graph T} (ok : g.Ok) (targets : List (Target T))
    (ht : ∀ tg ∈ targets, ∀ t, tg = .run t ∨ tg = .parents t → t ∈ g.tasks) (x : T) :
    x ∈ marked g targets ↔ ∃ tg ∈ targets, Wanted g tg x := by
  have key : ∀ (l : List (Target T)) (b : List T) (P : T → Prop), Marked g P b →
      (∀ tg ∈ l, ∀ t, tg = .run t ∨ tg = .parents t → t ∈ g.tasks) →
      Marked g (fun x => P x ∨ ∃ tg ∈ l, Wanted g tg x) (l.foldl (markTarget g (g.tasks.length + 1)) b) ∧
      (∀ x ∈ b, x ∈ l.foldl (markTarget g (g.tasks.length + 1)) b) ∧
      ∀ x, (∃ tg ∈ l, Wanted g tg x) → x ∈ l.foldl (markTarget g (g.tasks.length + 1)) b := by
    intro l
    induction l with
    | nil =>
      intro b P m _
      refine ⟨⟨fun x hx => .inl (m.sound x hx), m.closed⟩, fun x h => h, fun x hx => ?_⟩
      obtain ⟨_, h, _⟩ := hx
      cases h
    | cons tg l ih =>
      intro b P m hl
      obtain ⟨h1, h2, h3⟩ := markTarget_marked ok m tg (hl tg List.mem_cons_self)
      obtain ⟨h4, h5, h6⟩ := ih _ _ h1 fun tg' h => hl tg' (List.mem_cons_of_mem _ h)
      simp only [List.foldl_cons]
      refine ⟨⟨fun x hx => ?_, h4.closed⟩, fun x hx => h5 x (h2 x hx), fun x hx => ?_⟩
      · rcases h4.sound x hx with (h | h) | ⟨tg', ht', hw⟩
        · exact .inl h
        · exact .inr ⟨tg, List.mem_cons_self, h⟩
        · exact .inr ⟨tg', List.mem_cons_of_mem _ ht', hw⟩
      · obtain ⟨tg', ht', hw⟩ := hx
        rcases List.mem_cons.1 ht' with e | ht'
        · subst e
          apply h5
          cases tg' with
          | run t =>
            have := (h3 t).1 rfl
            rcases hw with rfl | hw
            · exact this
            · exact marked_path h1 hw this
          | parents t =>
            have := (h3 t).2 rfl
            cases hw with
            | one h => exact this _ h
            | more h r => exact marked_path h1 r (this _ h)
        · exact h6 x ⟨tg', ht', hw⟩
  obtain ⟨h1, _, h3⟩ := key targets [] (fun _ => False)
    ⟨fun x h => (by cases h), fun x h => by cases h⟩ ht
  refine ⟨fun h => ?_, h3 x⟩
  rcases h1.sound x h with h | h
  · exact h.elim
  · exact h

end Bb.Rq
