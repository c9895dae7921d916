import Verif.Bb.FetchModel
/-!
# Rules for proofs about the fetcher

`Tri P m Q E`: from every world with `P`, the computation `m` ends in a world with `Q` for its result
or with `E` for its exception.
-/

namespace Bb.Fetch
open Py

variable {α β : Type}

/-- Pre- and postconditions. -/
def Tri (P : World → Prop) (m : M α) (Q : α → World → Prop) (E : Exc → World → Prop) : Prop :=
  ∀ w, P w → (∀ a w', m w = (.ok a, w') → Q a w') ∧ (∀ e w', m w = (.error e, w') → E e w')

theorem bind_def (m : M α) (f : α → M β) (w : World) :
    (m >>= f) w = match m w with
      | (.ok a, w') => f a w'
      | (.error e, w') => (.error e, w') := rfl

variable {P P' : World → Prop} {Q Q' : α → World → Prop} {E E' : Exc → World → Prop}

theorem tri_conseq {m : M α} (h : Tri P' m Q' E') (hp : ∀ w, P w → P' w)
    (hq : ∀ a w, Q' a w → Q a w) (he : ∀ e w, E' e w → E e w) : Tri P m Q E :=
  fun w hw => ⟨fun a w' e => hq a w' ((h w (hp w hw)).1 a w' e),
    fun x w' e => he x w' ((h w (hp w hw)).2 x w' e)⟩

theorem tri_pre {m : M α} (h : Tri P' m Q E) (hp : ∀ w, P w → P' w) : Tri P m Q E :=
  fun w hw => h w (hp w hw)

theorem tri_pure {a : α} (h : ∀ w, P w → Q a w) : Tri P (pure a : M α) Q E :=
  fun w hw => ⟨fun _ _ e => by cases e; exact h w hw, fun _ _ e => by cases e⟩

theorem tri_raise {x : Exc} (h : ∀ w, P w → E x w) : Tri P (raise x : M α) Q E :=
  fun w hw => ⟨fun _ _ e => (by cases e), fun _ _ e => by cases e; exact h w hw⟩

theorem tri_change {f : World → World} {Q : Unit → World → Prop} (h : ∀ w, P w → Q () (f w)) :
    Tri P (change f) Q E :=
  fun w hw => ⟨fun _ _ e => by cases e; exact h w hw, fun _ _ e => by cases e⟩

theorem tri_bind {m : M β} {f : β → M α} {R : β → World → Prop} (h : Tri P m R E)
    (hf : ∀ b, Tri (R b) (f b) Q E) : Tri P (m >>= f) Q E := by
  intro w hw
  rw [bind_def]
  cases hm : m w with
  | mk r w1 =>
    cases r with
    | ok b => exact hf b w1 ((h w hw).1 b w1 hm)
    | error e =>
      refine ⟨fun _ _ x => (by cases x), fun _ _ x => by cases x; exact (h w hw).2 e w1 hm⟩

theorem tri_look {f : World → M α} (h : ∀ w0, P w0 → Tri (fun w => w = w0) (f w0) Q E) :
    Tri P (look >>= f) Q E :=
  fun w hw => h w hw w rfl

theorem tri_catch {m : M α} {h : Exc → M α} {R : Exc → World → Prop} (hm : Tri P m Q R)
    (hh : ∀ e, Tri (R e) (h e) Q E) : Tri P (M.catch m h) Q E := by
  intro w hw
  unfold M.catch
  cases hm' : m w with
  | mk r w1 =>
    cases r with
    | ok b =>
      refine ⟨fun _ _ x => by cases x; exact (hm w hw).1 b w1 hm', fun _ _ x => by cases x⟩
    | error e => exact hh e w1 ((hm w hw).2 e w1 hm')

theorem tri_ite {c : Prop} [Decidable c] {m n : M α} (h : c → Tri P m Q E)
    (h' : ¬ c → Tri P n Q E) : Tri P (if c then m else n) Q E := by
  by_cases hc : c
  · rw [if_pos hc]; exact h hc
  · rw [if_neg hc]; exact h' hc

theorem tri_exists {ι : Type} {P : ι → World → Prop} {m : M α} (h : ∀ i, Tri (P i) m Q E) :
    Tri (fun w => ∃ i, P i w) m Q E :=
  fun w hw => hw.elim fun i hi => h i w hi

theorem tri_and_pre {c : Prop} {m : M α} (h : c → Tri P m Q E) : Tri (fun w => c ∧ P w) m Q E :=
  fun w hw => h hw.1 w hw.2

/-- One operation on the disk.  The script may be shorter and the clock may be further after it. -/
theorem tri_step {Q : Option Bool → World → Prop}
    (hok : ∀ w s n, P w → (∀ e, e ∈ s → e ∈ w.script) → w.now ≤ n →
      Q none { w with script := s, now := n })
    (hf : ∀ w s b, P w → (∀ e, e ∈ s → e ∈ w.script) → .fault b ∈ w.script →
      Q (some b) { w with script := s })
    (hc : ∀ w s, P w → (∀ e, e ∈ s → e ∈ w.script) → .crash ∈ w.script →
      E .crash { w with script := s }) :
    Tri P step Q E := by
  intro w hw
  unfold step
  cases hs : w.script with
  | nil =>
    refine ⟨fun a w' e => ?_, fun _ _ e => by cases e⟩
    cases e
    exact hok w w.script w.now hw (fun _ h => h) (Nat.le_refl _)
  | cons x r =>
    have hsub : ∀ e, e ∈ r → e ∈ w.script := fun e h => by rw [hs]; exact List.mem_cons_of_mem _ h
    cases x with
    | ok t =>
      refine ⟨fun a w' e => ?_, fun _ _ e => by cases e⟩
      cases e
      exact hok w r _ hw hsub (Nat.le_add_right _ _)
    | fault b =>
      refine ⟨fun a w' e => ?_, fun _ _ e => by cases e⟩
      cases e
      exact hf w r b hw hsub (by rw [hs]; exact List.mem_cons_self)
    | crash =>
      refine ⟨fun _ _ e => (by cases e), fun a w' e => ?_⟩
      cases e
      exact hc w r hw hsub (by rw [hs]; exact List.mem_cons_self)

/-- One operation on the disk whose failure is an `IOError`. -/
theorem tri_io {Q : Unit → World → Prop}
    (hok : ∀ w s n, P w → (∀ e, e ∈ s → e ∈ w.script) → w.now ≤ n →
      Q () { w with script := s, now := n })
    (hf : ∀ w s b, P w → (∀ e, e ∈ s → e ∈ w.script) → .fault b ∈ w.script →
      E (.io b) { w with script := s })
    (hc : ∀ w s, P w → (∀ e, e ∈ s → e ∈ w.script) → .crash ∈ w.script →
      E .crash { w with script := s }) :
    Tri P io Q E := by
  refine tri_bind (R := fun r w => match r with
    | none => Q () w
    | some b => E (.io b) w) (tri_step hok hf hc) ?_
  intro r
  cases r with
  | none => exact tri_pure fun w h => h
  | some b => exact tri_raise fun w h => h

end Bb.Fetch
