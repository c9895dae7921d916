import Verif.Bb.FetchLemmas
/-!
# Lemmas about the fetcher: done stamps are honest
-/

namespace Bb.Fetch
open Py

/-- A done stamp that is newer than its file has the checksums of the file. -/
def Honest (hash : Alg → Str → Str) (w : World) : Prop :=
  ∀ p f st s, w.files p = some f → w.stamps p = some st → st.sums = some s → f.mtime < st.mtime →
    ∀ a v, s.lookup a = some v → v = hash a f.data

/-- What always holds; `q` stands for a fetch in which nothing fails. -/
structure Inv (hash : Alg → Str → Str) (q : Prop) (w : World) : Prop where
  honest : Honest hash w
  old : ∀ p st, w.stamps p = some st → st.mtime ≤ w.now
  calm : q → Calm w.script

/-- The done stamp of a path has no checksums. -/
def Blank (w : World) (p : Str) : Prop := ∀ st, w.stamps p = some st → st.sums = none

/-- There is a file, and the done stamp is true for it, whatever the times. -/
def Sealed (hash : Alg → Str → Str) (w : World) (p : Str) : Prop :=
  ∃ f, w.files p = some f ∧ ∀ st s, w.stamps p = some st → st.sums = some s →
    ∀ a v, s.lookup a = some v → v = hash a f.data

/-- The file is the right one, and the done stamp is true. -/
def Vouched (env : Env) (u : Ud) (w : World) : Prop :=
  (∃ f, w.files u.path = some f ∧ Right env u f.data ∧
    ∀ st s, w.stamps u.path = some st → st.sums = some s → TrueFor env s f.data) ∧ ¬ Strict env u

/-- What a function that works on one path leaves alone. -/
structure Fr (p : Str) (w0 w : World) : Prop where
  files : ∀ x, x ≠ p → w.files x = w0.files x
  stamps : ∀ x, x ≠ p → w.stamps x = w0.stamps x

theorem Fr.rfl (p : Str) (w : World) : Fr p w w := ⟨fun _ _ => Eq.refl _, fun _ _ => Eq.refl _⟩

theorem Fr.of_same (p : Str) {w0 w : World} (h : Same w0 w) : Fr p w0 w :=
  ⟨fun x _ => by rw [h.files], fun x _ => by rw [h.stamps]⟩

theorem Fr.trans {p : Str} {w0 w1 w2 : World} (h : Fr p w0 w1) (h' : Fr p w1 w2) : Fr p w0 w2 :=
  ⟨fun x hx => (h'.files x hx).trans (h.files x hx), fun x hx => (h'.stamps x hx).trans (h.stamps x hx)⟩

theorem upd_self {α : Type} (f : Str → Option α) (p : Str) (v : Option α) : upd f p v p = v := by
  unfold upd; exact if_pos rfl

theorem upd_ne {α : Type} (f : Str → Option α) (p x : Str) (v : Option α) (h : x ≠ p) :
    upd f p v x = f x := by
  unfold upd; exact if_neg h

theorem upd_id {α : Type} (f : Str → Option α) (p : Str) : upd f p (f p) = f := by
  funext x
  by_cases h : x = p
  · rw [h, upd_self]
  · rw [upd_ne _ _ _ _ h]

section inv
variable {hash : Alg → Str → Str} {q : Prop} {w0 w : World}

theorem Inv.same (h : Inv hash q w0) (hs : Same w0 w) : Inv hash q w where
  honest := by
    unfold Honest
    rw [hs.files, hs.stamps]
    exact h.honest
  old := by
    rw [hs.stamps]
    exact fun p st e => Nat.le_trans (h.old p st e) hs.now
  calm := fun hq e he => h.calm hq e (hs.script e he)

/-- A done stamp is removed. -/
theorem Inv.unstamp (h : Inv hash q w) (p : Str) :
    Inv hash q { w with stamps := upd w.stamps p none } where
  honest := by
    intro x f st s hf hst hs hlt
    dsimp only at hf hst
    by_cases hx : x = p
    · subst hx
      rw [upd_self] at hst
      cases hst
    · rw [upd_ne _ _ _ _ hx] at hst
      exact h.honest x f st s hf hst hs hlt
  old := by
    intro x st hst
    dsimp only at hst
    by_cases hx : x = p
    · subst hx
      rw [upd_self] at hst
      cases hst
    · rw [upd_ne _ _ _ _ hx] at hst
      exact h.old x st hst
  calm := h.calm

/-- A file is removed. -/
theorem Inv.unfile (h : Inv hash q w) (p : Str) :
    Inv hash q { w with files := upd w.files p none } where
  honest := by
    intro x f st s hf hst hs hlt
    dsimp only at hf hst
    by_cases hx : x = p
    · subst hx
      rw [upd_self] at hf
      cases hf
    · rw [upd_ne _ _ _ _ hx] at hf
      exact h.honest x f st s hf hst hs hlt
  old := h.old
  calm := h.calm

/-- A file is written whose done stamp has no checksums. -/
theorem Inv.file (h : Inv hash q w) (p : Str) (v : Option File) (hb : Blank w p) :
    Inv hash q { w with files := upd w.files p v } where
  honest := by
    intro x f st s hf hst hs hlt
    dsimp only at hf hst
    by_cases hx : x = p
    · subst hx
      rw [hb st hst] at hs
      cases hs
    · rw [upd_ne _ _ _ _ hx] at hf
      exact h.honest x f st s hf hst hs hlt
  old := h.old
  calm := h.calm

theorem Inv.moved (h : Inv hash q w) (p c : Str) : Inv hash q (moveAway p c w) := by
  unfold moveAway
  cases w.files p with
  | none => exact h
  | some f => exact ⟨(h.unfile p).honest, h.old, h.calm⟩

/-- A done stamp is written that is true. -/
theorem Inv.stamp (h : Inv hash q w) (p : Str) (st : Stamp) (ht : st.mtime ≤ w.now)
    (hb : ∀ f s, w.files p = some f → st.sums = some s →
      ∀ a v, s.lookup a = some v → v = hash a f.data) :
    Inv hash q { w with stamps := upd w.stamps p (some st) } where
  honest := by
    intro x f st' s hf hst hs hlt
    dsimp only at hf hst
    by_cases hx : x = p
    · subst hx
      rw [upd_self] at hst
      cases hst
      exact hb f s hf hs
    · rw [upd_ne _ _ _ _ hx] at hst
      exact h.honest x f st' s hf hst hs hlt
  old := by
    intro x st' hst
    dsimp only at hst
    by_cases hx : x = p
    · subst hx
      rw [upd_self] at hst
      cases hst
      exact ht
    · rw [upd_ne _ _ _ _ hx] at hst
      exact h.old x st' hst
  calm := h.calm

end inv

section stamps
variable {env : Env} {q : Prop} {w0 : World}

/-- The writing of a done stamp. -/
theorem tri_writeStamp (hi : Inv env.hash q w0) (p : Str) (s : Sums)
    (hs : ∀ f, w0.files p = some f → TrueFor env s f.data) :
    Tri (Same w0) (writeStamp p s)
      (fun _ w => Inv env.hash q w ∧ Fr p w0 w ∧ w.files = w0.files ∧
        ∃ t, w.stamps p = some ⟨some s, t⟩)
      (fun e w => Inv env.hash q w ∧ Fr p w0 w ∧ w.files = w0.files ∧ Err q False e ∧
        (w.stamps p = w0.stamps p ∨ ∃ t, w.stamps p = some ⟨none, t⟩)) := by
  unfold writeStamp
  refine tri_bind (R := fun _ w => Same w0 w) ?_ ?_
  · refine tri_conseq (tri_io_same (q := q) hi.calm) (fun _ h => h) (fun _ _ h => h) ?_
    rintro e w ⟨h, h1, h2⟩
    refine ⟨hi.same h, Fr.of_same p h, h.files, ?_, Or.inl (by rw [h.stamps])⟩
    rcases h1 with h1 | ⟨b, h1⟩
    · exact Or.inl ⟨h1, h2⟩
    · exact Or.inr (Or.inl ⟨b, h1, h2⟩)
  · intro _
    refine tri_bind (R := fun _ w => ∃ w1, Same w0 w1 ∧
      w = { w1 with stamps := upd w1.stamps p (some ⟨none, w1.now⟩) }) ?_ ?_
    · exact tri_change fun w h => ⟨w, h, rfl⟩
    · intro _
      refine tri_exists fun w1 => tri_and_pre fun h1 => ?_
      have hi1 := hi.same h1
      have hi2 : Inv env.hash q { w1 with stamps := upd w1.stamps p (some ⟨none, w1.now⟩) } :=
        hi1.stamp p _ (Nat.le_refl _) fun f s _ e => by cases e
      refine tri_bind (R := fun _ w =>
        Same { w1 with stamps := upd w1.stamps p (some ⟨none, w1.now⟩) } w) ?_ ?_
      · refine tri_conseq (tri_io_same (q := q) hi2.calm) ?_ (fun _ _ h => h) ?_
        · rintro w rfl
          exact Same.rfl _
        · rintro e w ⟨h, h1', h2⟩
          refine ⟨hi2.same h, ⟨fun x _ => by rw [h.files]; exact congrFun h1.files x,
            fun x hx => ?_⟩, by rw [h.files]; exact h1.files, ?_,
            Or.inr ⟨w1.now, by rw [h.stamps]; exact upd_self _ _ _⟩⟩
          · rw [h.stamps]
            show upd w1.stamps p _ x = _
            rw [upd_ne _ _ _ _ hx, h1.stamps]
          · rcases h1' with h1' | ⟨b, h1'⟩
            · exact Or.inl ⟨h1', h2⟩
            · exact Or.inr (Or.inl ⟨b, h1', h2⟩)
      · intro _
        refine tri_change fun w h => ⟨?_, ⟨fun x _ => ?_, fun x hx => ?_⟩, ?_, w.now, upd_self _ _ _⟩
        · refine (hi2.same h).stamp p _ (Nat.le_refl _) ?_
          intro f s' hf hs'
          cases hs'
          rw [h.files] at hf
          refine hs f ?_
          rw [← h1.files]
          exact hf
        · show w.files x = _
          rw [h.files]
          exact congrFun h1.files x
        · show upd w.stamps p _ x = _
          rw [upd_ne _ _ _ _ hx, h.stamps]
          show upd w1.stamps p _ x = _
          rw [upd_ne _ _ _ _ hx, h1.stamps]
        · show w.files = _
          rw [h.files]
          exact h1.files

theorem tri_removeStamp (hp : ∀ p, env.plain p = true) (hi : Inv env.hash q w0) (p : Str) :
    Tri (Same w0) (removeStamp env p)
      (fun _ w => Inv env.hash q w ∧ Fr p w0 w ∧ w.files = w0.files ∧ w.stamps p = none)
      (fun e w => Same w0 w ∧ (e = .crash ∨ ∃ b, e = .io b) ∧ ¬ q) := by
  unfold removeStamp
  refine tri_look fun w1 h1 => ?_
  rw [hp p, Bool.true_and]
  refine tri_ite (fun hs => ?_) (fun hs => ?_)
  · refine tri_bind (R := fun _ w => Same w0 w) ?_ ?_
    · refine tri_conseq (tri_io_same (q := q) hi.calm) ?_ (fun _ _ h => h) (fun _ _ h => h)
      rintro w rfl
      exact h1
    · intro _
      refine tri_change fun w h => ⟨(hi.same h).unstamp p, ⟨fun x _ => ?_, fun x hx => ?_⟩, h.files,
        upd_self _ _ _⟩
      · show w.files x = _
        rw [h.files]
      · show upd w.stamps p none x = _
        rw [upd_ne _ _ _ _ hx, h.stamps]
  · refine tri_pure ?_
    rintro w rfl
    refine ⟨hi.same h1, Fr.of_same p h1, h1.files, ?_⟩
    cases hn : w.stamps p with
    | none => rfl
    | some st => rw [hn] at hs; exact absurd rfl hs

theorem tri_renameBad (hi : Inv env.hash q w0) (p c : Str) :
    Tri (Same w0) (renameBad p c)
      (fun _ w => Inv env.hash q w ∧ Fr p w0 w ∧ w.stamps = w0.stamps ∧ (q → w.files p = none))
      (fun e w => Same w0 w ∧ e = .crash ∧ ¬ q) := by
  unfold renameBad
  refine tri_look fun w1 h1 => ?_
  refine tri_ite (fun hs => ?_) (fun hs => ?_)
  · refine tri_bind (R := fun r w => Same w0 w ∧ (r ≠ none → ¬ q)) ?_ ?_
    · refine tri_step ?_ ?_ ?_
      · rintro w s n rfl hs' hn
        exact ⟨h1.next hs' hn, fun h => absurd rfl h⟩
      · rintro w s b rfl hs' hf
        exact ⟨h1.next (n := w.now) hs' (Nat.le_refl _),
          fun _ => calm_fault hi.calm (h1.script _ hf)⟩
      · rintro w s rfl hs' hf
        exact ⟨h1.next (n := w.now) hs' (Nat.le_refl _), rfl, calm_crash hi.calm (h1.script _ hf)⟩
    · intro r
      cases r with
      | none =>
        refine tri_change fun w h => ⟨(hi.same h.1).moved p c, ?_, ?_, fun _ => ?_⟩
        · unfold moveAway
          cases hf : w.files p with
          | none => exact Fr.of_same p h.1
          | some f =>
            refine ⟨fun x hx => ?_, fun x _ => by rw [← h.1.stamps]⟩
            show upd w.files p none x = _
            rw [upd_ne _ _ _ _ hx, h.1.files]
        · unfold moveAway
          cases w.files p <;> exact h.1.stamps
        · unfold moveAway
          cases hf : w.files p with
          | none => exact hf
          | some f => exact upd_self _ _ _
      | some b =>
        refine tri_pure fun w h => ⟨hi.same h.1, Fr.of_same p h.1, h.1.stamps, fun hq => ?_⟩
        exact absurd hq (h.2 (by simp))
  · refine tri_pure ?_
    rintro w rfl
    refine ⟨hi.same h1, Fr.of_same p h1, h1.stamps, fun _ => ?_⟩
    cases hn : w.files p with
    | none => rfl
    | some st => rw [hn] at hs; exact absurd rfl hs

/-- The checksums loaded from a done stamp are those of the file. -/
theorem precomputed_true (hi : Inv env.hash q w0) {p : Str} {f : File} (hf : w0.files p = some f) :
    TrueFor env (precomputed w0 p) f.data := by
  unfold precomputed
  rw [hf]
  cases hst : w0.stamps p with
  | none => exact trueFor_nil env _
  | some st =>
    dsimp only
    by_cases hlt : f.mtime < st.mtime
    · rw [if_pos hlt]
      cases hs : st.sums with
      | none => exact trueFor_nil env _
      | some s => exact hi.honest p f st s hf hst hs hlt
    · rw [if_neg hlt]
      exact trueFor_nil env _

theorem precomputed_blank {p : Str} (hb : Blank w0 p) : precomputed w0 p = [] := by
  unfold precomputed
  cases w0.files p with
  | none => rfl
  | some f =>
    cases hst : w0.stamps p with
    | none => rfl
    | some st =>
      dsimp only
      rw [hb st hst]
      split <;> rfl

theorem full_ne_nil (d : Str) : full env d algs ≠ [] := by
  unfold full algs
  simp

/-- If all the checksums were loaded from the done stamp, it has them. -/
theorem precomputed_stamp {p : Str} {s : Sums} (h : s = precomputed w0 p) (hs : s ≠ []) :
    ∃ t, w0.stamps p = some ⟨some s, t⟩ := by
  unfold precomputed at h
  cases hf : w0.files p with
  | none => rw [hf] at h; exact absurd h hs
  | some f =>
    cases hst : w0.stamps p with
    | none => rw [hf, hst] at h; exact absurd h hs
    | some st =>
      rw [hf, hst] at h
      dsimp only at h
      by_cases hlt : f.mtime < st.mtime
      · rw [if_pos hlt] at h
        obtain ⟨so, t⟩ := st
        cases so with
        | none => exact absurd h hs
        | some s' =>
          refine ⟨t, ?_⟩
          rw [h]
          rfl
      · rw [if_neg hlt] at h
        exact absurd h hs

end stamps

end Bb.Fetch
