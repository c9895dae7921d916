import Verif.Bb.FetchLemmas5
/-!
# Lemmas about the fetcher: a right download is left alone
-/

namespace Bb.Fetch
open Py

/-- No file was changed and no request was made. -/
def Keeps (w0 w : World) : Prop := w.files = w0.files ∧ w.contacts = w0.contacts ∧ w.bad = w0.bad

theorem Keeps.rfl (w : World) : Keeps w w := ⟨Eq.refl _, Eq.refl _, Eq.refl _⟩

theorem Keeps.trans {w0 w1 w2 : World} (h : Keeps w0 w1) (h' : Keeps w1 w2) : Keeps w0 w2 :=
  ⟨h'.1.trans h.1, h'.2.1.trans h.2.1, h'.2.2.trans h.2.2⟩

theorem Same.keeps {w0 w : World} (h : Same w0 w) : Keeps w0 w := ⟨h.files, h.contacts, h.bad⟩

theorem tri_and {α : Type} {P P' : World → Prop} {m : M α} {Q Q' : α → World → Prop}
    {E E' : Exc → World → Prop} (h : Tri P m Q E) (h' : Tri P' m Q' E') :
    Tri (fun w => P w ∧ P' w) m (fun a w => Q a w ∧ Q' a w) (fun e w => E e w ∧ E' e w) :=
  fun w hw => ⟨fun a w' e => ⟨(h w hw.1).1 a w' e, (h' w hw.2).1 a w' e⟩,
    fun x w' e => ⟨(h w hw.1).2 x w' e, (h' w hw.2).2 x w' e⟩⟩

theorem steps_keeps (w0 : World) : Steps (Keeps w0) := fun _ _ _ h => h

theorem keeps_io (w0 : World) :
    Tri (Keeps w0) io (fun _ w => Keeps w0 w) (fun e w => Keeps w0 w ∧ ∀ c, e ≠ .checksum c) := by
  intro w hw
  have h := kept_io (steps_keeps w0) w hw
  refine ⟨fun a w' e => by rw [e] at h; exact h, fun e w' he => ⟨by rw [he] at h; exact h, ?_⟩⟩
  intro c hc
  subst hc
  unfold io at he
  rw [bind_def] at he
  unfold step at he
  cases hs : w.script with
  | nil => rw [hs] at he; cases he
  | cons x r =>
    rw [hs] at he
    cases x with
    | ok t => cases he
    | fault b => cases he
    | crash => cases he

theorem keepsTri_writeStamp (w0 : World) (p : Str) (s : Sums) :
    Tri (Keeps w0) (writeStamp p s) (fun _ w => Keeps w0 w)
      (fun e w => Keeps w0 w ∧ ∀ c, e ≠ .checksum c) :=
  tri_bind (keeps_io w0) fun _ => tri_bind (tri_change fun _ h => h) fun _ =>
    tri_bind (keeps_io w0) fun _ => tri_change fun _ h => h

theorem keeps_touch (w0 : World) (p : Str) : Kept (Keeps w0) (touch p) := by
  refine kept_bind (kept_step (steps_keeps w0)) fun r => ?_
  cases r with
  | some b => exact kept_pure _
  | none => exact kept_change fun w h => h

section
variable {env : Env} {u : Ud} {q : Prop} {w0 : World} {f : File}

/-- The check of a right file. -/
theorem keeps_check (hh : HashOk env) (hu : u.ignore = false) (hi : Inv env.hash q w0)
    (hf : w0.files u.path = some f) (hr : Right env u f.data) (pre : Sums)
    (hpre : TrueFor env pre f.data) :
    Tri (Same w0) (verifyChecksum env u pre (fun w => w.files u.path) true)
      (fun _ w => Keeps w0 w) (fun e w => Keeps w0 w ∧ ∀ c, e ≠ .checksum c) := by
  refine tri_conseq (tri_verifyChecksum env hh hi.calm u hu (fun w h => by rw [h.files]) pre true)
    (fun _ h => h) (fun _ _ h => h.1.keeps) ?_
  rintro e w ⟨h, h2⟩
  refine ⟨h.keeps, fun c hc => ?_⟩
  subst hc
  rcases h2 with ⟨h2, _⟩ | ⟨b, h2, _⟩ | ⟨h2, _⟩ | ⟨c, h2, h3⟩
  · cases h2
  · cases h2
  · cases h2
  · exact h3 f hf hpre hr

theorem keeps_verify (hh : HashOk env) (hl : u.isLocal = false) (hu : u.ignore = false)
    (hi : Inv env.hash q w0) (hf : w0.files u.path = some f) (hr : Right env u f.data) :
    Tri (Same w0) (verifyDonestamp env u none) (fun v w => Keeps w0 w ∧ v = true)
      (fun _ w => Keeps w0 w) := by
  unfold verifyDonestamp
  rw [if_neg (by unfold Ud.stamped; rw [hl]; decide)]
  refine tri_look fun w1 h1 => ?_
  have hi1 := hi.same h1
  have hf1 : w1.files u.path = some f := by rw [h1.files]; exact hf
  rw [if_neg (by rw [hf1]; intro h; cases h)]
  refine tri_catch (R := fun e w => Keeps w0 w ∧ ∀ c, e ≠ .checksum c) ?_ ?_
  · refine tri_bind (R := fun _ w => Keeps w0 w) ?_ ?_
    · refine tri_conseq (keeps_check hh hu hi1 hf1 hr _ (precomputed_true hi1 hf1)) ?_ ?_ ?_
      · rintro w rfl; exact Same.rfl _
      · exact fun _ _ h => h1.keeps.trans h
      · exact fun _ _ h => ⟨h1.keeps.trans h.1, h.2⟩
    · intro s
      refine tri_bind (R := fun _ w => Keeps w0 w) ?_ fun _ => tri_pure fun w h => ⟨h, rfl⟩
      unfold onlyIf
      refine tri_ite (fun _ => ?_) (fun _ => tri_pure fun w h => h)
      exact keepsTri_writeStamp w0 u.path s
  · intro e w2 h2
    have : stampFailed env u e = raise e := by
      cases e with
      | checksum c => exact absurd rfl (h2.2 c)
      | crash => rfl
      | io b => rfl
      | noChecksum => rfl
      | network => rfl
      | fetch => rfl
    rw [this]
    exact ⟨fun a w' e => (by cases e), fun x w' e => (by cases e; exact h2.1)⟩

theorem keeps_update (hh : HashOk env) (hu : u.ignore = false)
    (hi : Inv env.hash q w0) (hf : w0.files u.path = some f) (hr : Right env u f.data) :
    Tri (Same w0) (updateStamp env u) (fun _ w => Keeps w0 w) (fun _ w => Keeps w0 w) := by
  unfold updateStamp
  refine tri_ite (fun _ => tri_pure fun w h => h.keeps) (fun _ => ?_)
  refine tri_look fun w1 h1 => ?_
  have hi1 := hi.same h1
  have hf1 : w1.files u.path = some f := by rw [h1.files]; exact hf
  refine tri_ite (fun _ => ?_) (fun _ => ?_)
  · exact tri_pre (kept_tri (keeps_touch w0 u.path)) fun w h => by rw [h]; exact h1.keeps
  · have key : Tri (fun w => w = w1) (do
          let s ← verifyChecksum env u [] (fun w => w.files u.path) true
          writeStamp u.path s) (fun _ w => Keeps w0 w) (fun e w => Keeps w0 w ∧ ∀ c, e ≠ .checksum c) := by
      refine tri_bind (R := fun _ w => Keeps w0 w) ?_ ?_
      · refine tri_conseq (keeps_check hh hu hi1 hf1 hr [] (trueFor_nil env _)) ?_ ?_ ?_
        · rintro w rfl; exact Same.rfl _
        · exact fun _ _ h => h1.keeps.trans h
        · exact fun _ _ h => ⟨h1.keeps.trans h.1, h.2⟩
      · exact fun s => keepsTri_writeStamp w0 u.path s
    refine tri_catch key ?_
    intro e w2 h2
    have : updateFailed env u e = raise e := by
      cases e with
      | checksum c => exact absurd rfl (h2.2 c)
      | crash => rfl
      | io b => rfl
      | noChecksum => rfl
      | network => rfl
      | fetch => rfl
    rw [this]
    exact ⟨fun a w' e => (by cases e), fun x w' e => (by cases e; exact h2.1)⟩

/-- The fetch of a URL whose download is right changes no file and makes no request. -/
theorem keeps_fetchOne (hh : HashOk env) (hp : ∀ p, env.plain p = true) (hl : u.isLocal = false)
    (hu : u.ignore = false) (hi : Inv env.hash q w0) (hf : w0.files u.path = some f)
    (hr : Right env u f.data) :
    Tri (Same w0) (fetchOne env u) (fun _ w => Keeps w0 w) (fun _ w => Keeps w0 w) := by
  have hv : ∀ w1, Inv env.hash q w1 ∧ Keeps w0 w1 → Tri (Same w1) (verifyDonestamp env u none)
      (fun v w => (Inv env.hash q w ∧ Keeps w0 w) ∧ v = true) (fun _ w => Keeps w0 w) := by
    intro w1 h1
    have hf1 : w1.files u.path = some f := by rw [h1.2.1]; exact hf
    refine tri_conseq (tri_and (tri_verify (w0 := w1) hh hp hl hu h1.1)
      (keeps_verify (w0 := w1) hh hl hu h1.1 hf1 hr)) (fun w h => ⟨h, h⟩) ?_ ?_
    · exact fun v w h => ⟨⟨h.1.1, h1.2.trans h.2.1⟩, h.2.2⟩
    · exact fun e w h => h1.2.trans h.2
  unfold fetchOne
  refine tri_bind (R := fun d w => (Inv env.hash q w ∧ Keeps w0 w) ∧ d = true) ?_ ?_
  · unfold firstTry
    refine tri_bind (R := fun v w => (Inv env.hash q w ∧ Keeps w0 w) ∧ v = true)
      (hv w0 ⟨hi, Keeps.rfl w0⟩) fun v => ?_
    refine tri_look fun w1 h1 => ?_
    have hf1 : w1.files u.path = some f := by rw [h1.1.2.1]; exact hf
    rw [if_pos (by rw [h1.2, hf1]; rfl)]
    exact tri_pure fun w h => by rw [h]; exact ⟨h1.1, rfl⟩
  · intro d
    refine tri_bind (R := fun v w => (Inv env.hash q w ∧ Keeps w0 w) ∧ d = true) ?_ ?_
    · intro w h
      unfold recheck
      rw [if_pos h.2]
      exact (tri_conseq (hv w h.1) (fun _ h => h) (fun _ _ h' => ⟨h'.1, h.2⟩) (fun _ _ h => h)) w (Same.rfl w)
    · intro v
      refine tri_look fun w1 h1 => ?_
      refine tri_bind (R := fun d w => (Inv env.hash q w ∧ Keeps w0 w) ∧ d = true) ?_ ?_
      · unfold others
        rw [if_neg (by rw [h1.2]; intro h; cases h.1)]
        exact tri_pure fun w h => by rw [h]; exact h1
      · intro d'
        refine tri_look fun w2 h2 => ?_
        have hf2 : w2.files u.path = some f := by rw [h2.1.2.1]; exact hf
        rw [if_neg (by rw [h2.2, hf2]; intro h; rcases h with h | h <;> cases h)]
        refine tri_conseq (keeps_update (w0 := w2) hh hu h2.1.1 hf2 hr) ?_ ?_ ?_
        · rintro w rfl; exact Same.rfl _
        · exact fun _ _ h => h2.1.2.trans h
        · exact fun _ _ h => h2.1.2.trans h

end

end Bb.Fetch
