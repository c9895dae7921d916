import Verif.Meta.TermModel

/-!
C293: a shell for developers is opened in the best terminal that works.
C294: it is opened once.
-/

namespace Isar.Meta.Term

open Py

namespace Spec

/-- a terminal works: all it needs is there, and it ends without an error -/
def Works (w : World) (t : Terminal) : Prop := w.present t.name = true ∧ (t.x = true → w.display = true) ∧ w.succeeds t.name = true

/-- `a` is at least as good as `b`: higher priority, or the same and a later name -/
def Better (a b : Terminal) : Prop := b.priority < a.priority ∨ (a.priority = b.priority ∧ strLe b.name a.name = true)

end Spec

theorem before_iff (a b : Terminal) : before a b = true ↔ Spec.Better a b := by
  unfold before Spec.Better
  simp only [Bool.or_eq_true, Bool.and_eq_true, decide_eq_true_eq]

theorem spawn_ok (w : World) (t : Terminal) : (spawn w t).2 = .ok ↔ Spec.Works w t := by
  unfold spawn Spec.Works
  cases w.present t.name <;> cases t.x <;> cases w.display <;> cases w.succeeds t.name <;> decide

theorem spawn_ok_started (w : World) (t : Terminal) (h : (spawn w t).2 = .ok) : (spawn w t).1 = true := by
  revert h
  unfold spawn
  cases w.present t.name <;> cases t.x <;> cases w.display <;> cases w.succeeds t.name <;> decide

theorem sorted (ts : List Terminal) : (prioritized ts).Pairwise fun a b => Spec.Better a b := by
  have h : (prioritized ts).Pairwise fun a b => before a b = true := by
    apply sortBy_sorted
    · intro a b c h1 h2
      rw [before_iff] at *
      unfold Spec.Better at *
      rcases h1 with h1 | ⟨h1, h1'⟩ <;> rcases h2 with h2 | ⟨h2, h2'⟩
      · exact Or.inl (by omega)
      · exact Or.inl (by omega)
      · exact Or.inl (by omega)
      · exact Or.inr ⟨by omega, strLe_trans _ _ _ h2' h1'⟩
    · intro a b
      rw [Bool.or_eq_true, before_iff, before_iff]
      unfold Spec.Better
      rcases Nat.lt_trichotomy a.priority b.priority with h | h | h
      · exact Or.inr (Or.inl h)
      · rcases Bool.or_eq_true _ _ |>.mp (strLe_total a.name b.name) with h' | h'
        · exact Or.inr (Or.inr ⟨h.symm, h'⟩)
        · exact Or.inl (Or.inr ⟨h, h'⟩)
      · exact Or.inl (Or.inl h)
  exact h.imp fun h => (before_iff _ _).mp h

theorem tryAll_ok {w : World} {t : Terminal} {ts : List Terminal} (h : Spec.Works w t) : tryAll w (t :: ts) = ([t.name], some t.name) := by
  have h1 := (spawn_ok w t).mpr h
  have h2 := spawn_ok_started w t h1
  rw [tryAll]
  dsimp only
  rw [if_pos h1, h2]
  rfl

theorem tryAll_next {w : World} {t : Terminal} {ts : List Terminal} (h : ¬ Spec.Works w t) :
    tryAll w (t :: ts) = ((if (spawn w t).1 then [t.name] else []) ++ (tryAll w ts).1, (tryAll w ts).2) := by
  have h1 : ¬ (spawn w t).2 = .ok := fun h' => h ((spawn_ok w t).mp h')
  rw [tryAll]
  dsimp only
  rw [if_neg h1]

theorem works_dec (w : World) (t : Terminal) : Spec.Works w t ∨ ¬ Spec.Works w t := by
  rw [← spawn_ok]
  exact Decidable.em _

theorem tryAll_spec (w : World) : ∀ ts : List Terminal, ts.Pairwise (fun a b => Spec.Better a b) →
    (∀ n, (tryAll w ts).2 = some n → ∃ t ∈ ts, t.name = n ∧ Spec.Works w t ∧ ∀ u ∈ ts, Spec.Works w u → u = t ∨ Spec.Better t u) ∧
    ((tryAll w ts).2 = none ↔ ∀ t ∈ ts, ¬ Spec.Works w t)
  | [], _ => ⟨fun _ h => (by cases h), ⟨fun _ _ h => (by cases h), fun _ => rfl⟩⟩
  | t :: ts, hp => by
    rw [List.pairwise_cons] at hp
    rcases works_dec w t with h | h
    · rw [tryAll_ok h]
      refine ⟨fun n hn => ⟨t, List.mem_cons_self .., Option.some.inj hn, h, fun u hu _ => ?_⟩, ⟨fun h' => (by cases h'), fun h' => absurd h (h' t (List.mem_cons_self ..))⟩⟩
      rcases List.mem_cons.mp hu with hu | hu
      · exact Or.inl hu
      · exact Or.inr (hp.1 u hu)
    · rw [tryAll_next h]
      obtain ⟨h1, h2⟩ := tryAll_spec w ts hp.2
      refine ⟨fun n hn => ?_, ?_⟩
      · obtain ⟨u, hu, hn', hw, hb⟩ := h1 n hn
        refine ⟨u, List.mem_cons_of_mem _ hu, hn', hw, fun v hv hvw => ?_⟩
        rcases List.mem_cons.mp hv with hv | hv
        · exact absurd (hv ▸ hvw) h
        · exact hb v hv hvw
      · rw [show (((if (spawn w t).1 then [t.name] else []) ++ (tryAll w ts).1, (tryAll w ts).2) : List Str × Option Str).2 = (tryAll w ts).2 from rfl, h2]
        constructor
        · intro h' u hu
          rcases List.mem_cons.mp hu with hu | hu
          · rw [hu]; exact h
          · exact h' u hu
        · intro h' u hu
          exact h' u (List.mem_cons_of_mem _ hu)

theorem mem_prioritized (ts : List Terminal) (t : Terminal) : t ∈ prioritized ts ↔ t ∈ ts := (sortBy_perm before ts).mem_iff

/-- **C293**: with the setting "auto" the terminal that is open in the end works and is at least as good as each other one that works; it is an error exactly when none works. -/
theorem best (w : World) (ts : List Terminal) :
    (∀ n, (openTerminal w ts "auto".toList).2 = some n → ∃ t ∈ ts, t.name = n ∧ Spec.Works w t ∧ ∀ u ∈ ts, Spec.Works w u → u = t ∨ Spec.Better t u) ∧
    ((openTerminal w ts "auto".toList).2 = none ↔ ∀ t ∈ ts, ¬ Spec.Works w t) := by
  have he : openTerminal w ts "auto".toList = tryAll w (prioritized ts) := rfl
  rw [he]
  obtain ⟨h1, h2⟩ := tryAll_spec w (prioritized ts) (sorted ts)
  refine ⟨fun n hn => ?_, ?_⟩
  · obtain ⟨t, ht, hn', hw, hb⟩ := h1 n hn
    exact ⟨t, (mem_prioritized ts t).mp ht, hn', hw, fun u hu => hb u ((mem_prioritized ts u).mpr hu)⟩
  · rw [h2]
    exact ⟨fun h t ht => h t ((mem_prioritized ts t).mpr ht), fun h t ht => h t ((mem_prioritized ts t).mp ht)⟩

/-- **C293**: a terminal that is set by its name and works is used, and no other is started. -/
theorem named (w : World) (ts : List Terminal) (t : Terminal) (ht : t ∈ ts) (hu : ∀ u ∈ ts, u.name = t.name → u = t) (h1 : t.name ≠ "none".toList) (h2 : t.name ≠ "auto".toList) (hw : Spec.Works w t) :
    openTerminal w ts t.name = ([t.name], some t.name) := by
  unfold openTerminal
  rw [if_neg (show ¬ t.name = ['n', 'o', 'n', 'e'] from h1), if_neg (show ¬ t.name = ['a', 'u', 't', 'o'] from h2)]
  have hf : ts.find? (fun u => decide (u.name = t.name)) = some t := by
    cases hf : ts.find? (fun u => decide (u.name = t.name)) with
    | none => exact absurd (decide_eq_true rfl) (List.find?_eq_none.mp hf t ht)
    | some u =>
      have := List.find?_some hf
      rw [hu u (List.mem_of_find?_eq_some hf) (of_decide_eq_true this)]
  rw [hf]
  dsimp only
  rw [(spawn_ok w t).mpr hw, spawn_ok_started w t ((spawn_ok w t).mpr hw)]
  rfl

/-- **C293**: a setting that is no name of a terminal is treated like "auto". -/
theorem unknown (w : World) (ts : List Terminal) (setting : Str) (h : ∀ t ∈ ts, t.name ≠ setting) (h1 : setting ≠ "none".toList) : openTerminal w ts setting = openTerminal w ts "auto".toList := by
  show openTerminal w ts setting = tryAll w (prioritized ts)
  unfold openTerminal
  rw [if_neg (show ¬ setting = ['n', 'o', 'n', 'e'] from h1)]
  split
  · rfl
  · rw [show ts.find? (fun t => decide (t.name = setting)) = none from List.find?_eq_none.mpr fun t ht hd => h t ht (of_decide_eq_true hd)]

/-- **C293**: where a terminal that is set by its name is not supported, the best one is opened; where it ends with an error, this is reported and no other is opened. -/
theorem named_not (w : World) (ts : List Terminal) (t : Terminal) (ht : t ∈ ts) (hu : ∀ u ∈ ts, u.name = t.name → u = t) (h1 : t.name ≠ "none".toList) (h2 : t.name ≠ "auto".toList) :
    ((w.present t.name = false ∨ (t.x = true ∧ w.display = false)) → (openTerminal w ts t.name).2 = (openTerminal w ts "auto".toList).2) ∧
    (w.present t.name = true → (t.x = true → w.display = true) → w.succeeds t.name = false → openTerminal w ts t.name = ([t.name], none)) := by
  have hf : ts.find? (fun u => decide (u.name = t.name)) = some t := by
    cases hf : ts.find? (fun u => decide (u.name = t.name)) with
    | none => exact absurd (decide_eq_true rfl) (List.find?_eq_none.mp hf t ht)
    | some u =>
      have := List.find?_some hf
      rw [hu u (List.mem_of_find?_eq_some hf) (of_decide_eq_true this)]
  rw [show openTerminal w ts "auto".toList = tryAll w (prioritized ts) from rfl]
  unfold openTerminal
  rw [if_neg (show ¬ t.name = ['n', 'o', 'n', 'e'] from h1), if_neg (show ¬ t.name = ['a', 'u', 't', 'o'] from h2), hf]
  dsimp only
  constructor
  · intro h
    have hs : (spawn w t).2 = .unsupported := by
      revert h
      unfold spawn
      cases w.present t.name <;> cases t.x <;> cases w.display <;> cases w.succeeds t.name <;> decide
    rw [hs]
  · intro hp hx hs
    have hs : spawn w t = (true, .failed) := by
      revert hp hx hs
      unfold spawn
      cases w.present t.name <;> cases t.x <;> cases w.display <;> cases w.succeeds t.name <;> decide
    rw [hs]
    rfl

/-- **C293**: with the setting "none" nothing is started. -/
theorem disabled (w : World) (ts : List Terminal) : openTerminal w ts "none".toList = ([], none) := rfl

theorem tryAll_once (w : World) : ∀ ts : List Terminal, (∀ t ∈ ts, w.present t.name = true → Spec.Works w t) → (tryAll w ts).1 = (tryAll w ts).2.toList
  | [], _ => rfl
  | t :: ts, h => by
    rcases works_dec w t with hw | hw
    · rw [tryAll_ok hw]; rfl
    · rw [tryAll_next hw]
      have hp : w.present t.name = false := by
        cases hp : w.present t.name with
        | false => rfl
        | true => exact absurd (h t (List.mem_cons_self ..) hp) hw
      have hs : (spawn w t).1 = false := by
        unfold spawn
        rw [if_pos hp]
      rw [hs]
      exact tryAll_once w ts fun u hu => h u (List.mem_cons_of_mem _ hu)

/-- **C294**: when every terminal that is installed works, only the one that is open in the end is started.  Missing: terminals that need a display where there is none, and those that end with an error (`twice`). -/
theorem once_partial (w : World) (ts : List Terminal) (h : ∀ t ∈ ts, w.present t.name = true → Spec.Works w t) :
    (openTerminal w ts "auto".toList).1 = (openTerminal w ts "auto".toList).2.toList :=
  tryAll_once w (prioritized ts) fun t ht => h t ((mem_prioritized ts t).mp ht)

/-- four of the terminals of the code (terminal.py:59-124, 178) -/
def sample : List Terminal := [⟨"gnome".toList, 200, true⟩, ⟨"xterm".toList, 100, true⟩, ⟨"screen".toList, 0, false⟩, ⟨"konsole".toList, 200, true⟩]

/-- **C294 is false of the code**: without a display, the command is started in an installed terminal that needs one, and then in the next; a terminal that ends with an error is followed by the next too. -/
theorem twice : openTerminal ⟨fun n => n = "xterm".toList ∨ n = "screen".toList, false, fun _ => true⟩ sample "auto".toList = (["xterm".toList, "screen".toList], some "screen".toList) ∧
    openTerminal ⟨fun _ => true, true, fun n => n = "gnome".toList⟩ sample "auto".toList = (["konsole".toList, "gnome".toList], some "gnome".toList) := by decide +kernel

example : openTerminal ⟨fun n => n = "xterm".toList ∨ n = "screen".toList, true, fun _ => true⟩ sample "auto".toList = (["xterm".toList], some "xterm".toList) ∧
    openTerminal ⟨fun _ => true, true, fun _ => true⟩ sample "screen".toList = (["screen".toList], some "screen".toList) ∧
    openTerminal ⟨fun _ => true, true, fun _ => true⟩ sample "unknown".toList = (["konsole".toList], some "konsole".toList) := by decide +kernel

end Isar.Meta.Term
