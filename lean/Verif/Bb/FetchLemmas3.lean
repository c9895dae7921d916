import Verif.Bb.FetchLemmas2
/-!
# Lemmas about the fetcher: `verify_donestamp`, `update_stamp` and the methods
-/

namespace Bb.Fetch
open Py

theorem Err.mono {q S S' : Prop} {e : Exc} (h : Err q S e) (hs : S → S') : Err q S' e := by
  rcases h with h | h | ⟨h1, h2⟩
  · exact Or.inl h
  · exact Or.inr (Or.inl h)
  · exact Or.inr (Or.inr ⟨h1, hs h2⟩)

theorem err_of {q S : Prop} {e : Exc} (h : (e = .crash ∨ ∃ b, e = .io b) ∧ ¬ q) : Err q S e := by
  rcases h with ⟨h | ⟨b, h⟩, hq⟩
  · exact Or.inl ⟨h, hq⟩
  · exact Or.inr (Or.inl ⟨b, h, hq⟩)

section
variable {env : Env} {q : Prop} {w0 : World} {u : Ud}

theorem tri_start {α : Type} {m : M α} {Q : α → World → Prop} {E : Exc → World → Prop}
    (h : ∀ w0, Tri (Same w0) m Q E) {P : World → Prop} : Tri P m Q E :=
  fun w _ => h w w (Same.rfl w)

/-- A wrong checksum: the file is moved and the done stamp is removed. -/
theorem tri_discard (hp : ∀ p, env.plain p = true) (hi : Inv env.hash q w0) (c : Str) :
    Tri (Same w0) (do renameBad u.path c; removeStamp env u.path)
      (fun _ w => Inv env.hash q w ∧ Fr u.path w0 w ∧ w.stamps u.path = none)
      (fun e w => Inv env.hash q w ∧ Fr u.path w0 w ∧ w.stamps = w0.stamps ∧ Err q False e) := by
  refine tri_bind (R := fun _ w => Inv env.hash q w ∧ Fr u.path w0 w ∧ w.stamps = w0.stamps) ?_ ?_
  · refine tri_conseq (tri_renameBad hi u.path c) (fun _ h => h) (fun _ _ h => ⟨h.1, h.2.1, h.2.2.1⟩) ?_
    rintro e w ⟨h, h1, h2⟩
    exact ⟨hi.same h, Fr.of_same _ h, h.stamps, Or.inl ⟨h1, h2⟩⟩
  · intro _ w1 h1
    have := tri_removeStamp hp h1.1 u.path w1 (Same.rfl w1)
    refine ⟨fun a w' e => ?_, fun e w' he => ?_⟩
    · obtain ⟨h2, h3, _, h4⟩ := this.1 a w' e
      exact ⟨h2, h1.2.1.trans h3, h4⟩
    · obtain ⟨h2, h3⟩ := this.2 e w' he
      exact ⟨h1.1.same h2, h1.2.1.trans (Fr.of_same _ h2), h2.stamps.trans h1.2.2, err_of h3⟩

theorem seq_assoc {α β γ : Type} (m : M α) (f : α → M β) (g : β → M γ) :
    (do let a ← m; let b ← f a; g b) = ((do let a ← m; f a) >>= g) := by
  funext w
  show (m >>= fun a => f a >>= g) w = ((m >>= f) >>= g) w
  rw [bind_def, bind_def, bind_def]
  cases m w with
  | mk r w1 => cases r <;> rfl

/-- `verify_donestamp` for a URL of a recipe. -/
theorem tri_verify (hh : HashOk env) (hp : ∀ p, env.plain p = true) (hl : u.isLocal = false)
    (hu : u.ignore = false) (hi : Inv env.hash q w0) :
    Tri (Same w0) (verifyDonestamp env u none)
      (fun v w => Inv env.hash q w ∧ Fr u.path w0 w ∧ (v = true → Vouched env u w) ∧
        (v = false → w.stamps u.path = none ∧
          ∀ f, w0.files u.path = some f → ¬ Right env u f.data))
      (fun e w => Inv env.hash q w ∧ Fr u.path w0 w ∧ Err q (Strict env u) e) := by
  unfold verifyDonestamp
  rw [if_neg (by unfold Ud.stamped; rw [hl]; decide)]
  refine tri_look fun w1 h1 => ?_
  have hi1 := hi.same h1
  refine tri_ite (fun hn => ?_) (fun hn => ?_)
  · refine tri_bind (R := fun _ w => Inv env.hash q w ∧ Fr u.path w0 w ∧ w.stamps u.path = none) ?_ ?_
    · refine tri_conseq (tri_removeStamp hp hi u.path) ?_ (fun _ _ h => ⟨h.1, h.2.1, h.2.2.2⟩) ?_
      · rintro w rfl; exact h1
      · rintro e w ⟨h, h2⟩
        exact ⟨hi.same h, Fr.of_same _ h, err_of h2⟩
    · intro _
      refine tri_pure fun w h => ⟨h.1, h.2.1, fun e => (by cases e), fun _ => ⟨h.2.2, fun f hf => ?_⟩⟩
      rw [← h1.files] at hf
      rw [hf] at hn
      cases hn
  · cases hf : w1.files u.path with
    | none => rw [hf] at hn; exact absurd rfl hn
    | some f =>
      have hpre := precomputed_true hi1 hf
      have hat : ∀ w, Same w1 w → w.files u.path = w1.files u.path := fun w h => by rw [h.files]
      refine tri_catch (R := fun e w => Inv env.hash q w ∧ Fr u.path w0 w ∧
        (Err q (Strict env u) e ∨ ∃ c, e = .checksum c ∧ ¬ Right env u f.data)) ?_ ?_
      · refine tri_bind (R := fun s w => Same w1 w ∧ ¬ Strict env u ∧ s = full env f.data algs ∧
          Right env u f.data) ?_ ?_
        · refine tri_conseq (tri_verifyChecksum (w0 := w1) (q := q) env hh hi1.calm u hu hat
            (precomputed w1 u.path) true) ?_ ?_ ?_
          · rintro w rfl; exact Same.rfl _
          · rintro s w ⟨h, h2, h3⟩
            exact ⟨h, fun hs => h2 ⟨rfl, hs⟩, h3 f hf hpre⟩
          · rintro e w ⟨h, h2⟩
            refine ⟨hi1.same h, (Fr.of_same _ h1).trans (Fr.of_same _ h), ?_⟩
            rcases h2 with h2 | ⟨b, h2, h3⟩ | ⟨h2, _, h3⟩ | ⟨c, h2, h3⟩
            · exact Or.inl (Or.inl h2)
            · refine Or.inl (Or.inr (Or.inl ⟨b, h2, fun hq => ?_⟩))
              have := h3 hq
              rw [hf] at this
              cases this
            · exact Or.inl (Or.inr (Or.inr ⟨h2, h3⟩))
            · exact Or.inr ⟨c, h2, h3 f hf hpre⟩
        · intro s
          refine tri_bind (R := fun _ w => Inv env.hash q w ∧ Fr u.path w0 w ∧ Vouched env u w) ?_ ?_
          · rintro w ⟨h, hstr, hs, hr⟩
            unfold onlyIf
            by_cases hne : s ≠ precomputed w1 u.path
            · rw [if_pos hne]
              have hiw := hi1.same h
              have := tri_writeStamp hiw u.path s (fun f' hf' => by
                rw [h.files, hf] at hf'
                cases hf'
                rw [hs]
                exact trueFor_full env _ _) w (Same.rfl w)
              refine ⟨fun a w' e => ?_, fun e w' he => ?_⟩
              · obtain ⟨k1, k2, k3, t, k4⟩ := this.1 a w' e
                refine ⟨k1, ((Fr.of_same _ h1).trans (Fr.of_same _ h)).trans k2, ⟨f, ?_, hr, ?_⟩, hstr⟩
                · rw [k3, h.files, hf]
                · intro st s' e1 e2
                  rw [k4] at e1
                  cases e1
                  cases e2
                  rw [hs]
                  exact trueFor_full env _ _
              · obtain ⟨k1, k2, k3, k4, k5⟩ := this.2 e w' he
                exact ⟨k1, ((Fr.of_same _ h1).trans (Fr.of_same _ h)).trans k2,
                  Or.inl (k4.mono fun x => x.elim)⟩
            · rw [if_neg hne]
              have hst := precomputed_stamp (Classical.not_not.1 hne) (hs ▸ full_ne_nil f.data)
              obtain ⟨t, hst⟩ := hst
              refine ⟨fun a w' e => ?_, fun e w' he => (by cases he)⟩
              cases e
              refine ⟨hi1.same h, (Fr.of_same _ h1).trans (Fr.of_same _ h), ⟨f, ?_, hr, ?_⟩, hstr⟩
              · rw [h.files, hf]
              · intro st s' e1 e2
                rw [h.stamps, hst] at e1
                cases e1
                cases e2
                rw [hs]
                exact trueFor_full env _ _
          · intro _
            exact tri_pure fun w h => ⟨h.1, h.2.1, fun _ => h.2.2, fun e => (by cases e)⟩
      · intro e w2 h2
        obtain ⟨hi2, hf2, he⟩ := h2
        rcases he with he | ⟨c, he, hr⟩
        · have : stampFailed env u e = raise e := by
            rcases he with ⟨rfl, _⟩ | ⟨b, rfl, _⟩ | ⟨rfl, _⟩ <;> rfl
          rw [this]
          refine ⟨fun a w' e => (by cases e), fun e' w' he' => ?_⟩
          cases he'
          exact ⟨hi2, hf2, he⟩
        · subst he
          have key : stampFailed env u (.checksum c) =
              ((do renameBad u.path c; removeStamp env u.path) >>= fun _ => pure false) := by
            unfold stampFailed
            exact seq_assoc _ _ _
          rw [key]
          have hd := tri_discard (u := u) hp hi2 c
          have := tri_bind (Q := fun v w => Inv env.hash q w ∧ Fr u.path w2 w ∧ v = false ∧
            w.stamps u.path = none) hd
            (f := fun _ => (pure false : M Bool)) (fun _ => tri_pure fun w h => ⟨h.1, h.2.1, rfl, h.2.2⟩)
            w2 (Same.rfl w2)
          refine ⟨fun a w' e => ?_, fun e w' he => ?_⟩
          · obtain ⟨k1, k2, k3, k4⟩ := this.1 a w' e
            refine ⟨k1, hf2.trans k2, fun e => (by rw [k3] at e; cases e), fun _ => ⟨k4, fun f' hf' => ?_⟩⟩
            rw [← h1.files, hf] at hf'
            cases hf'
            exact hr
          · obtain ⟨k1, k2, k3, k4⟩ := this.2 e w' he
            exact ⟨k1, hf2.trans k2, k4.mono fun x => x.elim⟩

/-- `verify_donestamp` for a mirror. -/
theorem tri_verify_mirror {orig : Ud} (hp : ∀ p, env.plain p = true) (hl : u.isLocal = false)
    (hu : u.ignore = true) (ho : orig.isLocal = false) (hi : Inv env.hash q w0) :
    Tri (Same w0) (verifyDonestamp env u (some orig))
      (fun v w => Inv env.hash q w ∧ Fr u.path w0 w ∧ w.files = w0.files ∧
        (v = true → ∃ f, w.files u.path = some f) ∧ (v = false → w.stamps u.path = none) ∧
        (Blank w0 u.path → w.stamps u.path = w0.stamps u.path ∨ w.stamps u.path = none))
      (fun e w => Inv env.hash q w ∧ Fr u.path w0 w ∧ w.files = w0.files ∧ Err q False e ∧
        (Blank w0 u.path → w.stamps u.path = w0.stamps u.path)) := by
  unfold verifyDonestamp
  rw [if_neg (by
    have h1 : u.stamped = true := by unfold Ud.stamped; rw [hl]; rfl
    have h2 : orig.stamped = true := by unfold Ud.stamped; rw [ho]; rfl
    rw [h1]
    show ¬ ((false || (!orig.stamped)) = true)
    rw [h2]
    decide)]
  refine tri_look fun w1 h1 => ?_
  have hi1 := hi.same h1
  refine tri_ite (fun hn => ?_) (fun hn => ?_)
  · refine tri_bind (R := fun _ w => Inv env.hash q w ∧ Fr u.path w0 w ∧ w.files = w0.files ∧
      w.stamps u.path = none) ?_ ?_
    · refine tri_conseq (tri_removeStamp hp hi u.path) ?_ (fun _ _ h => h) ?_
      · rintro w rfl; exact h1
      · rintro e w ⟨h, h2⟩
        exact ⟨hi.same h, Fr.of_same _ h, h.files, err_of h2, fun _ => by rw [h.stamps]⟩
    · intro _
      exact tri_pure fun w h => ⟨h.1, h.2.1, h.2.2.1, fun e => (by cases e), fun _ => h.2.2.2,
        fun _ => Or.inr h.2.2.2⟩
  · cases hf : w1.files u.path with
    | none => rw [hf] at hn; exact absurd rfl hn
    | some f =>
      refine tri_catch (R := fun e w => Inv env.hash q w ∧ Fr u.path w0 w ∧ w.files = w0.files ∧
        Err q False e ∧ (Blank w0 u.path → w.stamps u.path = w0.stamps u.path)) ?_ ?_
      · refine tri_bind (R := fun s w => Same w1 w ∧ s = []) ?_ ?_
        · refine tri_pre (tri_verifyIgnored env u hu _ _) ?_
          rintro w rfl
          exact Same.rfl _
        · intro s
          refine tri_bind (R := fun _ w => Inv env.hash q w ∧ Fr u.path w0 w ∧ w.files = w0.files ∧
            (Blank w0 u.path → w.stamps u.path = w0.stamps u.path)) ?_ ?_
          · rintro w ⟨h, rfl⟩
            have hsame := h1.trans h
            unfold onlyIf
            by_cases hne : [] ≠ precomputed w1 u.path
            · rw [if_pos hne]
              have hnb : ¬ Blank w0 u.path := fun hb => hne (by
                rw [precomputed_blank]
                intro st hst
                rw [h1.stamps] at hst
                exact hb st hst)
              have := tri_writeStamp (hi.same hsame) u.path []
                (fun f' _ => trueFor_nil env _) w (Same.rfl w)
              refine ⟨fun a w' e => ?_, fun e w' he => ?_⟩
              · obtain ⟨k1, k2, k3, t, k4⟩ := this.1 a w' e
                exact ⟨k1, (Fr.of_same _ hsame).trans k2, k3.trans hsame.files, fun hb => absurd hb hnb⟩
              · obtain ⟨k1, k2, k3, k4, k5⟩ := this.2 e w' he
                exact ⟨k1, (Fr.of_same _ hsame).trans k2, k3.trans hsame.files, k4,
                  fun hb => absurd hb hnb⟩
            · rw [if_neg hne]
              refine ⟨fun a w' e => ?_, fun e w' he => (by cases he)⟩
              cases e
              exact ⟨hi.same hsame, Fr.of_same _ hsame, hsame.files, fun _ => by rw [hsame.stamps]⟩
          · intro _
            refine tri_pure fun w h => ⟨h.1, h.2.1, h.2.2.1, fun _ => ⟨f, ?_⟩, fun e => (by cases e),
              fun hb => Or.inl (h.2.2.2 hb)⟩
            rw [h.2.2.1, ← h1.files, hf]
      · intro e w2 h2
        have : stampFailed env u e = raise e := by
          rcases h2.2.2.2.1 with ⟨rfl, _⟩ | ⟨b, rfl, _⟩ | ⟨rfl, _⟩ <;> rfl
        rw [this]
        refine ⟨fun a w' e => (by cases e), fun e' w' he' => ?_⟩
        cases he'
        exact h2

/-- `update_stamp` for a URL of a recipe. -/
theorem tri_update (hh : HashOk env) (hp : ∀ p, env.plain p = true) (hl : u.isLocal = false)
    (hu : u.ignore = false) (hi : Inv env.hash q w0) {f : File} (hf : w0.files u.path = some f)
    (hs : Blank w0 u.path ∨ Sealed env.hash w0 u.path) :
    Tri (Same w0) (updateStamp env u)
      (fun _ w => Inv env.hash q w ∧ Fr u.path w0 w ∧ w.files = w0.files ∧
        (Blank w u.path ∨ Sealed env.hash w u.path) ∧
        (w0.stamps u.path = none ∨ Vouched env u w0 → Vouched env u w))
      (fun e w => Inv env.hash q w ∧ Fr u.path w0 w ∧ (Blank w0 u.path → Blank w u.path) ∧
        (Err q (Strict env u) e ∨
          ∃ c, e = .checksum c ∧ w.stamps u.path = none ∧ ¬ Right env u f.data)) := by
  unfold updateStamp
  rw [if_neg (by unfold Ud.stamped; rw [hl]; decide)]
  refine tri_look fun w1 h1 => ?_
  have hi1 := hi.same h1
  have hf1 : w1.files u.path = some f := by rw [h1.files, hf]
  have hblank : ∀ {w}, Same w1 w → Blank w0 u.path → Blank w u.path := fun h hb st hst => by
    rw [h.stamps, h1.stamps] at hst
    exact hb st hst
  refine tri_ite (fun hn => ?_) (fun hn => ?_)
  · unfold touch
    refine tri_bind (R := fun r w => Same w1 w) ?_ ?_
    · refine tri_step ?_ ?_ ?_
      · rintro w s n rfl hs' hn
        exact (Same.rfl w).next hs' hn
      · rintro w s b rfl hs' hf
        exact (Same.rfl w).next (n := w.now) hs' (Nat.le_refl _)
      · rintro w s rfl hs' hc
        have := (Same.rfl w).next (n := w.now) hs' (Nat.le_refl _)
        exact ⟨hi1.same this, (Fr.of_same _ h1).trans (Fr.of_same _ this), hblank this,
          Or.inl (Or.inl ⟨rfl, calm_crash hi1.calm hc⟩)⟩
    · intro r
      cases r with
      | none =>
        refine tri_change fun w h => ?_
        have hiw := hi1.same h
        cases hst : w.stamps u.path with
        | none =>
          rw [← h.stamps, hst] at hn
          cases hn
        | some st =>
          have hst0 : w0.stamps u.path = some st := by rw [← h1.stamps, ← h.stamps, hst]
          have hfw : w.files u.path = some f := by rw [h.files, hf1]
          rw [Option.map_some]
          refine ⟨?_, ⟨fun x _ => ?_, fun x hx => ?_⟩, ?_, ?_, ?_⟩
          · refine hiw.stamp u.path _ (Nat.le_refl _) ?_
            intro f' s' hf' hs'
            rcases hs with hb | ⟨f0, hf0, hb⟩
            · rw [hb st hst0] at hs'
              cases hs'
            · rw [hfw] at hf'
              cases hf'
              rw [hf] at hf0
              cases hf0
              exact hb st s' hst0 hs'
          · show w.files x = _
            rw [h.files, h1.files]
          · show upd w.stamps u.path _ x = _
            rw [upd_ne _ _ _ _ hx, h.stamps, h1.stamps]
          · show w.files = _
            rw [h.files, h1.files]
          · rcases hs with hb | ⟨f0, hf0, hb⟩
            · refine Or.inl fun st' hst' => ?_
              dsimp only at hst'
              rw [upd_self] at hst'
              cases hst'
              exact hb st hst0
            · refine Or.inr ⟨f, hfw, fun st' s' hst' hs' => ?_⟩
              dsimp only at hst'
              rw [upd_self] at hst'
              cases hst'
              rw [hf] at hf0
              cases hf0
              exact hb st s' hst0 hs'
          · rintro (hnone | ⟨⟨f0, hf0, hr, hb⟩, hstr⟩)
            · rw [hst0] at hnone
              cases hnone
            · refine ⟨⟨f0, ?_, hr, fun st' s' hst' hs' => ?_⟩, hstr⟩
              · show w.files u.path = _
                rw [h.files, h1.files, hf0]
              · dsimp only at hst'
                rw [upd_self] at hst'
                cases hst'
                exact hb st s' hst0 hs'
      | some b =>
        refine tri_pure fun w h => ?_
        have hsame := h1.trans h
        refine ⟨hi.same hsame, Fr.of_same _ hsame, hsame.files, ?_, ?_⟩
        · rcases hs with hb | ⟨f0, hf0, hb⟩
          · exact Or.inl (hblank h hb)
          · refine Or.inr ⟨f0, by rw [hsame.files, hf0], ?_⟩
            rw [hsame.stamps]
            exact hb
        · rintro (hnone | ⟨⟨f0, hf0, hr, hb⟩, hstr⟩)
          · rw [← h1.stamps] at hnone
            rw [hnone] at hn
            cases hn
          · refine ⟨⟨f0, by rw [hsame.files, hf0], hr, ?_⟩, hstr⟩
            rw [hsame.stamps]
            exact hb
  · have hnone : w1.stamps u.path = none := by
      cases hst : w1.stamps u.path with
      | none => rfl
      | some st => rw [hst] at hn; exact absurd rfl hn
    have hat : ∀ w, Same w1 w → w.files u.path = w1.files u.path := fun w h => by rw [h.files]
    refine tri_catch (R := fun e w => Inv env.hash q w ∧ Fr u.path w0 w ∧ Blank w u.path ∧
      (Err q (Strict env u) e ∨ ∃ c, e = .checksum c ∧ ¬ Right env u f.data)) ?_ ?_
    · refine tri_bind (R := fun s w => Same w1 w ∧ ¬ Strict env u ∧ s = full env f.data algs ∧
        Right env u f.data) ?_ ?_
      · refine tri_conseq (tri_verifyChecksum (w0 := w1) (q := q) env hh hi1.calm u hu hat
          [] true) ?_ ?_ ?_
        · rintro w rfl; exact Same.rfl _
        · rintro s w ⟨h, h2, h3⟩
          exact ⟨h, fun hs => h2 ⟨rfl, hs⟩, h3 f hf1 (trueFor_nil env _)⟩
        · rintro e w ⟨h, h2⟩
          refine ⟨hi1.same h, (Fr.of_same _ h1).trans (Fr.of_same _ h), ?_, ?_⟩
          · intro st hst
            rw [h.stamps, hnone] at hst
            cases hst
          · rcases h2 with h2 | ⟨b, h2, h3⟩ | ⟨h2, _, h3⟩ | ⟨c, h2, h3⟩
            · exact Or.inl (Or.inl h2)
            · refine Or.inl (Or.inr (Or.inl ⟨b, h2, fun hq => ?_⟩))
              have := h3 hq
              rw [hf1] at this
              cases this
            · exact Or.inl (Or.inr (Or.inr ⟨h2, h3⟩))
            · exact Or.inr ⟨c, h2, h3 f hf1 (trueFor_nil env _)⟩
      · intro s w hw
        obtain ⟨h, hstr, hss, hr⟩ := hw
        have hiw := hi1.same h
        have hsame := h1.trans h
        have htrue : TrueFor env s f.data := by rw [hss]; exact trueFor_full env _ _
        have := tri_writeStamp hiw u.path s (fun f' hf' => by
          rw [h.files, hf1] at hf'
          cases hf'
          exact htrue) w (Same.rfl w)
        refine ⟨fun a w' e => ?_, fun e w' he => ?_⟩
        · obtain ⟨k1, k2, k3, t, k4⟩ := this.1 a w' e
          have hfw : w'.files u.path = some f := by rw [k3, hsame.files, hf]
          have hall : ∀ st s', w'.stamps u.path = some st → st.sums = some s' →
              TrueFor env s' f.data := by
            intro st s' e1 e2
            rw [k4] at e1
            cases e1
            cases e2
            exact htrue
          exact ⟨k1, (Fr.of_same _ hsame).trans k2, k3.trans hsame.files,
            Or.inr ⟨f, hfw, hall⟩, fun _ => ⟨⟨f, hfw, hr, hall⟩, hstr⟩⟩
        · obtain ⟨k1, k2, k3, k4, k5⟩ := this.2 e w' he
          refine ⟨k1, (Fr.of_same _ hsame).trans k2, ?_, Or.inl (k4.mono fun x => x.elim)⟩
          intro st hst
          rcases k5 with k5 | ⟨t, k5⟩
          · rw [k5, h.stamps, hnone] at hst
            cases hst
          · rw [k5] at hst
            cases hst
            rfl
    · intro e w2 h2
      obtain ⟨hi2, hf2, hb2, he⟩ := h2
      rcases he with he | ⟨c, he, hr⟩
      · have : updateFailed env u e = raise e := by
          rcases he with ⟨rfl, _⟩ | ⟨b, rfl, _⟩ | ⟨rfl, _⟩ <;> rfl
        rw [this]
        refine ⟨fun a w' e => (by cases e), fun e' w' he' => ?_⟩
        cases he'
        exact ⟨hi2, hf2, fun _ => hb2, Or.inl he⟩
      · subst he
        have key : updateFailed env u (.checksum c) =
            ((do renameBad u.path c; removeStamp env u.path) >>= fun _ => raise (.checksum c)) := by
          unfold updateFailed
          exact seq_assoc _ _ _
        rw [key]
        have hd := tri_discard (u := u) hp hi2 c w2 (Same.rfl w2)
        rw [bind_def]
        cases hm : (do renameBad u.path c; removeStamp env u.path : M Unit) w2 with
        | mk r w3 =>
          cases r with
          | ok a =>
            obtain ⟨k1, k2, k3⟩ := hd.1 a w3 hm
            refine ⟨fun a w' e => (by cases e), fun e' w' he' => ?_⟩
            cases he'
            exact ⟨k1, hf2.trans k2, fun _ st hst => (by rw [k3] at hst; cases hst),
              Or.inr ⟨c, rfl, k3, hr⟩⟩
          | error e =>
            obtain ⟨k1, k2, k3, k4⟩ := hd.2 e w3 hm
            refine ⟨fun a w' e => (by cases e), fun e' w' he' => ?_⟩
            cases he'
            refine ⟨k1, hf2.trans k2, fun _ st hst => ?_, Or.inl (k4.mono fun x => x.elim)⟩
            rw [k3] at hst
            exact hb2 st hst

end

end Bb.Fetch
