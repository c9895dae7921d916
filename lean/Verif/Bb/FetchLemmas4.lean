import Verif.Bb.FetchLemmas3
/-!
# Lemmas about the fetcher: methods, mirrors and `Fetch.download`
-/

namespace Bb.Fetch
open Py

section
variable {env : Env} {q : Prop} {w0 : World} {u : Ud}

/-- Requests and half-written files do not matter for the done stamps. -/
theorem Inv.aside {hash : Alg → Str → Str} {w : World} (h : Inv hash q w) (t : Str → Option File)
    (c : List Str) : Inv hash q { w with tmps := t, contacts := c } :=
  ⟨h.honest, h.old, h.calm⟩

/-- `wget` has written the file with `.tmp` after the name. -/
theorem tri_transfer (hi : Inv env.hash q w0) (hd : q → Delivers env) :
    Tri (fun w => w = w0) (transfer env u)
      (fun _ w => Inv env.hash q w ∧ w.files = w0.files ∧ w.stamps = w0.stamps ∧
        ((∃ k part f, env.answer k u.url = .done part f ∧ w.tmps u.path = some f) ∨ ¬ q))
      (fun e w => Inv env.hash q w ∧ w.files = w0.files ∧ w.stamps = w0.stamps ∧
        (Err q False e ∨ (e = .fetch ∧ ¬ Serves env u))) := by
  unfold transfer
  refine tri_look fun w1 h1 => ?_
  subst h1
  refine tri_bind (R := fun _ w => w = { w1 with contacts := u.url :: w1.contacts })
    (tri_change fun w h => by rw [h]) ?_
  intro _
  cases ha : env.answer w1.contacts.length u.url with
  | fail part =>
    dsimp only
    refine tri_bind (R := fun _ w => w = { w1 with
      contacts := u.url :: w1.contacts, tmps := upd w1.tmps u.path part }) (tri_change fun w h => by rw [h]) ?_
    intro _
    refine tri_raise ?_
    rintro w rfl
    refine ⟨hi.aside _ _, rfl, rfl, Or.inr ⟨rfl, fun hs => ?_⟩⟩
    obtain ⟨p, f, e, _⟩ := hs w1.contacts.length
    rw [ha] at e
    cases e
  | nothing =>
    refine tri_change ?_
    rintro w rfl
    exact ⟨hi.aside _ _, rfl, rfl, Or.inr fun hq => hd hq _ _ ha⟩
  | done part all =>
    dsimp only
    refine tri_bind (R := fun _ w => w = { w1 with
      contacts := u.url :: w1.contacts, tmps := upd w1.tmps u.path (some part) }) (tri_change fun w h => by rw [h]) ?_
    intro _
    have hi2 := hi.aside (upd w1.tmps u.path (some part)) (u.url :: w1.contacts)
    refine tri_bind (R := fun _ w => Same { w1 with
      contacts := u.url :: w1.contacts, tmps := upd w1.tmps u.path (some part) } w) ?_ ?_
    · refine tri_conseq (tri_io_same (q := q) hi2.calm) ?_ (fun _ _ h => h) ?_
      · rintro w rfl; exact Same.rfl _
      · rintro e w ⟨h, h2⟩
        exact ⟨hi2.same h, h.files, h.stamps, Or.inl (err_of h2)⟩
    · intro _
      refine tri_change fun w h => ⟨(hi2.same h).aside _ _, h.files, h.stamps, Or.inl ⟨_, part, all, ha, ?_⟩⟩
      exact upd_self _ _ _

theorem tri_rename (hi : Inv env.hash q w0) {p : Str} (hb : Blank w0 p) :
    Tri (Same w0) (rename p)
      (fun _ w => Inv env.hash q w ∧ Fr p w0 w ∧ w.stamps = w0.stamps ∧
        ∃ f, w0.tmps p = some f ∧ w.files p = some f)
      (fun e w => Inv env.hash q w ∧ Fr p w0 w ∧ w.stamps = w0.stamps ∧
        (Err q False e ∨ (e = .io false ∧ w0.tmps p = none))) := by
  unfold rename
  refine tri_bind (R := fun _ w => Same w0 w) ?_ ?_
  · refine tri_conseq (tri_io_same (q := q) hi.calm) (fun _ h => h) (fun _ _ h => h) ?_
    rintro e w ⟨h, h2⟩
    exact ⟨hi.same h, Fr.of_same _ h, h.stamps, Or.inl (err_of h2)⟩
  · intro _
    refine tri_look fun w1 h1 => ?_
    cases ht : w1.tmps p with
    | none =>
      refine tri_raise ?_
      rintro w rfl
      exact ⟨hi.same h1, Fr.of_same _ h1, h1.stamps, Or.inr ⟨rfl, by rw [← h1.tmps, ht]⟩⟩
    | some f =>
      refine tri_change ?_
      rintro w rfl
      have hbw : Blank w p := fun st hst => by rw [h1.stamps] at hst; exact hb st hst
      refine ⟨((hi.same h1).file p (some f) hbw).aside _ _, ⟨fun x hx => ?_, fun x _ => ?_⟩, ?_, f, ?_, ?_⟩
      · show upd w.files p _ x = _
        rw [upd_ne _ _ _ _ hx, h1.files]
      · show w.stamps x = _
        rw [h1.stamps]
      · exact h1.stamps
      · rw [← h1.tmps, ht]
      · exact upd_self _ _ _

/-- What the method of a URL does. -/
theorem tri_wget (hh : HashOk env) (nn : Bool) (hi : Inv env.hash q w0) (hb : Blank w0 u.path)
    (hd : q → Delivers env) :
    Tri (fun w => w = w0) (wget env nn u)
      (fun _ w => Inv env.hash q w ∧ Fr u.path w0 w ∧ w.stamps = w0.stamps ∧
        ∃ f, w.files u.path = some f ∧ (q → u.ignore = false → Right env u f.data))
      (fun e w => Inv env.hash q w ∧ Fr u.path w0 w ∧ w.stamps = w0.stamps ∧
        (Err q False e ∨ (e = .network ∧ nn = true) ∨ e = .fetch ∨
          (u.ignore = false ∧ ∃ c, e = .checksum c)) ∧
        (q → nn = false → env.trusted u.url = true → Serves env u → False)) := by
  unfold wget
  refine tri_ite (fun hn => ?_) (fun hn => ?_)
  · refine tri_raise ?_
    rintro w rfl
    exact ⟨hi, Fr.rfl _ _, rfl, Or.inr (Or.inl ⟨rfl, hn⟩), fun _ h => by rw [hn] at h; cases h⟩
  · refine tri_ite (fun ht => ?_) (fun ht => ?_)
    · refine tri_raise ?_
      rintro w rfl
      exact ⟨hi, Fr.rfl _ _, rfl, Or.inr (Or.inr (Or.inl rfl)),
        fun _ _ h => by rw [h] at ht; cases ht⟩
    · -- transfer
      refine tri_bind (R := fun _ w => Inv env.hash q w ∧ w.files = w0.files ∧ w.stamps = w0.stamps ∧
        ((∃ k part f, env.answer k u.url = .done part f ∧ w.tmps u.path = some f) ∨ ¬ q)) ?_ ?_
      · refine tri_conseq (tri_transfer hi hd) (fun _ h => h) (fun _ _ h => h) ?_
        rintro e w ⟨h1, h2, h3, h4⟩
        refine ⟨h1, ⟨fun x _ => by rw [h2], fun x _ => by rw [h3]⟩, h3, ?_, ?_⟩
        · rcases h4 with h4 | ⟨h4, _⟩
          · exact Or.inl h4
          · exact Or.inr (Or.inr (Or.inl h4))
        · intro hq _ _ hs
          rcases h4 with (⟨_, h4⟩ | ⟨_, _, h4⟩ | ⟨_, h4⟩) | ⟨_, h4⟩
          · exact h4 hq
          · exact h4 hq
          · exact h4
          · exact h4 hs
      · intro _ w1 hw1
        obtain ⟨hi1, hfi, hsta, htmp⟩ := hw1
        have hfr1 : Fr u.path w0 w1 := ⟨fun x _ => by rw [hfi], fun x _ => by rw [hsta]⟩
        have hb1 : Blank w1 u.path := fun st hst => by rw [hsta] at hst; exact hb st hst
        have hat : ∀ w, Same w1 w → w.tmps u.path = w1.tmps u.path := fun w h => by rw [h.tmps]
        -- what is known of the file
        have hserve : q → Serves env u → ∃ f, w1.tmps u.path = some f ∧ f.data ≠ [] ∧
            Right env u f.data := by
          intro hq hs
          rcases htmp with ⟨k, part, f, ha, htm⟩ | hnq
          · obtain ⟨part', f', ha', hne, hr⟩ := hs k
            rw [ha] at ha'
            cases ha'
            exact ⟨f, htm, hne, hr⟩
          · exact absurd hq hnq
        have hsome : q → w1.tmps u.path ≠ none := by
          intro hq e
          rcases htmp with ⟨k, part, f, ha, htm⟩ | hnq
          · rw [htm] at e; cases e
          · exact hnq hq
        refine tri_bind (P := fun w => w = w1) (R := fun _ w => Same w1 w ∧
          (u.ignore = false → ∀ f, w1.tmps u.path = some f → Right env u f.data)) ?_ ?_ w1 rfl
        · by_cases hu : u.ignore = true
          · refine tri_conseq (tri_verifyIgnored (w0 := w1) env u hu [] false (E := fun _ _ => False))
              ?_ ?_ (fun _ _ h => h.elim)
            · rintro w rfl; exact Same.rfl _
            · rintro s w ⟨h, _⟩
              exact ⟨h, fun e => by rw [hu] at e; cases e⟩
          · have hu' : u.ignore = false := by
              cases h : u.ignore with
              | true => exact absurd h hu
              | false => rfl
            refine tri_conseq (tri_verifyChecksum (w0 := w1) (q := q) env hh hi1.calm u hu' hat
              [] false) ?_ ?_ ?_
            · rintro w rfl; exact Same.rfl _
            · rintro s w ⟨h, _, h3⟩
              exact ⟨h, fun _ f hf => (h3 f hf (trueFor_nil env _)).2⟩
            · rintro e w ⟨h, h2⟩
              refine ⟨hi1.same h, hfr1.trans (Fr.of_same _ h), h.stamps.trans hsta, ?_, ?_⟩
              · rcases h2 with h2 | ⟨b, h2, h3⟩ | ⟨_, h2, _⟩ | ⟨c, h2, _⟩
                · exact Or.inl (Or.inl h2)
                · exact Or.inl (Or.inr (Or.inl ⟨b, h2, fun hq => hsome hq (h3 hq)⟩))
                · cases h2
                · exact Or.inr (Or.inr (Or.inr ⟨hu', c, h2⟩))
              · intro hq _ _ hs
                obtain ⟨f, hf, _, hr⟩ := hserve hq hs
                rcases h2 with ⟨_, h2⟩ | ⟨b, h2, h3⟩ | ⟨_, h2, _⟩ | ⟨c, h2, h3⟩
                · exact h2 hq
                · exact hsome hq (h3 hq)
                · cases h2
                · exact h3 f hf (trueFor_nil env _) hr
        · intro _ w2 hw2
          obtain ⟨h12, hright⟩ := hw2
          have hi2 := hi1.same h12
          have hb2 : Blank w2 u.path := fun st hst => by rw [h12.stamps] at hst; exact hb1 st hst
          have hfr2 := hfr1.trans (Fr.of_same u.path h12)
          have hst2 : w2.stamps = w0.stamps := h12.stamps.trans hsta
          refine tri_bind (P := fun w => w = w2) (R := fun _ w => Inv env.hash q w ∧ Fr u.path w0 w ∧
            w.stamps = w0.stamps ∧ ∃ f, w1.tmps u.path = some f ∧ w.files u.path = some f) ?_ ?_ w2 rfl
          · refine tri_conseq (tri_rename hi2 hb2) ?_ ?_ ?_
            · rintro w rfl; exact Same.rfl _
            · rintro a w ⟨k1, k2, k3, f, k4, k5⟩
              exact ⟨k1, hfr2.trans k2, k3.trans hst2, f, by rw [← h12.tmps, k4], k5⟩
            · rintro e w ⟨k1, k2, k3, k4⟩
              refine ⟨k1, hfr2.trans k2, k3.trans hst2, ?_, ?_⟩
              · rcases k4 with k4 | ⟨k4, k5⟩
                · exact Or.inl k4
                · exact Or.inl (Or.inr (Or.inl ⟨false, k4, fun hq => hsome hq (by rw [← h12.tmps, k5])⟩))
              · intro hq _ _ _
                rcases k4 with (⟨_, k4⟩ | ⟨_, _, k4⟩ | ⟨_, k4⟩) | ⟨_, k5⟩
                · exact k4 hq
                · exact k4 hq
                · exact k4
                · exact hsome hq (by rw [← h12.tmps, k5])
          · intro _
            refine tri_look fun w3 h3 => ?_
            obtain ⟨hi3, hfr3, hst3, f, htm, hf3⟩ := h3
            rw [hf3]
            dsimp only
            refine tri_ite (fun hz => ?_) (fun hz => ?_)
            · have hno : q → nn = false → env.trusted u.url = true → Serves env u → False := by
                intro hq _ _ hs
                obtain ⟨f', hf', hne, _⟩ := hserve hq hs
                rw [htm] at hf'
                cases hf'
                exact hne hz
              refine tri_bind (R := fun _ w => Same w3 w) ?_ ?_
              · refine tri_conseq (tri_io_same (q := q) hi3.calm) ?_ (fun _ _ h => h) ?_
                · rintro w rfl; exact Same.rfl _
                · rintro e w ⟨h, h2⟩
                  exact ⟨hi3.same h, hfr3.trans (Fr.of_same _ h), h.stamps.trans hst3,
                    Or.inl (err_of h2), hno⟩
              · intro _
                refine tri_bind (R := fun _ w => Inv env.hash q w ∧ Fr u.path w0 w ∧
                  w.stamps = w0.stamps) ?_ ?_
                · refine tri_change fun w h => ⟨(hi3.same h).unfile _, hfr3.trans ⟨fun x hx => ?_,
                    fun x _ => ?_⟩, h.stamps.trans hst3⟩
                  · show upd w.files u.path none x = _
                    rw [upd_ne _ _ _ _ hx, h.files]
                  · show w.stamps x = _
                    rw [h.stamps]
                · intro _
                  exact tri_raise fun w h => ⟨h.1, h.2.1, h.2.2, Or.inr (Or.inr (Or.inl rfl)), hno⟩
            · refine tri_pure ?_
              rintro w rfl
              exact ⟨hi3, hfr3, hst3, f, hf3, fun _ hu => hright hu f htm⟩

theorem tri_removeFile (hp : ∀ p, env.plain p = true) (hi : Inv env.hash q w0) (p : Str) :
    Tri (Same w0) (removeFile env p)
      (fun _ w => Inv env.hash q w ∧ Fr p w0 w ∧ w.stamps = w0.stamps)
      (fun e w => Inv env.hash q w ∧ w.stamps = w0.stamps ∧ Err q False e) := by
  unfold removeFile
  refine tri_look fun w1 h1 => ?_
  rw [hp p, Bool.true_and]
  refine tri_ite (fun hs => ?_) (fun hs => ?_)
  · refine tri_bind (R := fun _ w => Same w0 w) ?_ ?_
    · refine tri_conseq (tri_io_same (q := q) hi.calm) ?_ (fun _ _ h => h) ?_
      · rintro w rfl
        exact h1
      · rintro e w ⟨h, h2⟩
        exact ⟨hi.same h, h.stamps, err_of h2⟩
    · intro _
      refine tri_change fun w h => ⟨(hi.same h).unfile p, ⟨fun x hx => ?_, fun x _ => ?_⟩, h.stamps⟩
      · show upd w.files p none x = _
        rw [upd_ne _ _ _ _ hx, h.files]
      · show w.stamps x = _
        rw [h.stamps]
  · refine tri_pure ?_
    rintro w rfl
    exact ⟨hi.same h1, Fr.of_same p h1, h1.stamps⟩

theorem tri_clean (hp : ∀ p, env.plain p = true) (hi : Inv env.hash q w0) :
    Tri (Same w0) (clean env u)
      (fun _ w => Inv env.hash q w ∧ Fr u.path w0 w ∧ w.stamps = w0.stamps)
      (fun e w => Inv env.hash q w ∧ w.stamps = w0.stamps ∧ Err q False e) := by
  unfold clean
  refine tri_ite (fun _ => ?_) (fun _ => tri_removeFile hp hi u.path)
  exact tri_pure fun w h => ⟨hi.same h, Fr.of_same _ h, h.stamps⟩

/-- What holds for the path of a URL while the mirrors are tried. -/
structure Open' (env : Env) (q : Prop) (p : Str) (w : World) : Prop where
  inv : Inv env.hash q w
  blank : Blank w p
  none : q → w.stamps p = none

/-- What holds when a mirror was good. -/
structure Found (env : Env) (q : Prop) (o : Ud) (w : World) : Prop where
  inv : Inv env.hash q w
  file : ∃ f, w.files o.path = some f
  stamp : Blank w o.path ∨ Sealed env.hash w o.path
  vouched : q → w.stamps o.path = none ∨ Vouched env o w

theorem Open'.of_stamps {p : Str} {w w' : World} (h : Open' env q p w) (hi : Inv env.hash q w')
    (hs : w'.stamps p = w.stamps p) : Open' env q p w' where
  inv := hi
  blank := fun st hst => h.blank st (by rw [← hs]; exact hst)
  none := fun hq => by rw [hs]; exact h.none hq

/-- What may go wrong with a mirror. -/
def MirrorErr (env : Env) (q : Prop) (o : Ud) (nn : Bool) (e : Exc) : Prop :=
  Err q (Strict env o) e ∨ (e = .network ∧ nn = true)

theorem tri_ensureSymlink {p t : Str} (ho : Open' env q p w0) {f : File} (hf : w0.files t = some f) :
    Tri (Same w0) (ensureSymlink t p)
      (fun _ w => Open' env q p w ∧ w.stamps = w0.stamps ∧ ∃ f, w.files p = some f)
      (fun e w => Open' env q p w ∧ Err q False e) := by
  unfold ensureSymlink
  refine tri_look fun w1 h1 => ?_
  refine tri_ite (fun hn => ?_) (fun hn => ?_)
  · refine tri_bind (R := fun _ w => Same w0 w) ?_ ?_
    · refine tri_conseq (tri_io_same (q := q) ho.inv.calm) ?_ (fun _ _ h => h) ?_
      · rintro w rfl; exact h1
      · rintro e w ⟨h, h2⟩
        exact ⟨ho.of_stamps (ho.inv.same h) (by rw [h.stamps]), err_of h2⟩
    · intro _
      refine tri_change fun w h => ?_
      have hb : Blank w p := fun st hst => by rw [h.stamps] at hst; exact ho.blank st hst
      refine ⟨ho.of_stamps ((ho.inv.same h).file p _ hb) ?_, h.stamps, f, ?_⟩
      · show w.stamps p = _
        rw [h.stamps]
      · show upd w.files p (w.files t) p = _
        rw [upd_self, h.files, hf]
  · refine tri_pure ?_
    rintro w rfl
    refine ⟨ho.of_stamps (ho.inv.same h1) (by rw [h1.stamps]), h1.stamps, ?_⟩
    cases hf' : w.files p with
    | none => rw [hf'] at hn; exact absurd rfl hn
    | some f' => exact ⟨f', rfl⟩

/-- A mirror's method, when the done stamp of the mirror is not good. -/
theorem tri_mirror_get (hh : HashOk env) (hp : ∀ p, env.plain p = true) {o : Ud}
    (hol : o.isLocal = false) (hu : u.ignore = true) (nn : Bool) (hd : q → Delivers env)
    (ho : Open' env q o.path w0) :
    Tri (Same w0)
      (do
        let v ← verifyDonestamp env u (some o)
        let w ← look
        onlyIf (v = false ∨ w.files u.path = none) (method env nn u))
      (fun _ w => Open' env q o.path w)
      (fun e w => Open' env q o.path w ∧ (Err q False e ∨ (e = .network ∧ nn = true) ∨ e = .fetch)) := by
  by_cases hl : u.isLocal = true
  · -- a `file://` mirror
    have hv : verifyDonestamp env u (some o) = pure true := by
      unfold verifyDonestamp
      exact if_pos (by unfold Ud.stamped; rw [hl]; rfl)
    rw [hv]
    refine tri_bind (R := fun _ w => Same w0 w) (tri_pure fun _ h => h) ?_
    intro v
    refine tri_look fun w1 h1 => ?_
    unfold onlyIf
    have hop := ho.of_stamps (ho.inv.same h1) (by rw [h1.stamps])
    refine tri_ite (fun _ => ?_) (fun _ => tri_pure fun w h => by rw [h]; exact hop)
    unfold method
    rw [if_pos hl]
    refine tri_look fun w2 h2 => ?_
    refine tri_ite (fun _ => tri_raise fun w h => ?_) (fun _ => tri_pure fun w h => ?_)
    · rw [h, h2]; exact ⟨hop, Or.inr (Or.inr rfl)⟩
    · rw [h, h2]; exact hop
  · have hl' : u.isLocal = false := by
      cases h : u.isLocal with
      | true => exact absurd h hl
      | false => rfl
    -- the done stamp of the URL is left alone
    have hstep : ∀ {w w' : World}, Open' env q o.path w → Inv env.hash q w' → Fr u.path w w' →
        (Blank w u.path → w'.stamps u.path = w.stamps u.path ∨ w'.stamps u.path = none) →
        Open' env q o.path w' := by
      intro w w' h hi hfr hb
      by_cases hpp : o.path = u.path
      · have := hb (by rw [← hpp]; exact h.blank)
        rcases this with this | this
        · exact h.of_stamps hi (by rw [hpp]; exact this)
        · refine ⟨hi, ?_, fun _ => by rw [hpp]; exact this⟩
          intro st hst
          rw [hpp, this] at hst
          cases hst
      · exact h.of_stamps hi (hfr.stamps _ hpp)
    refine tri_bind (R := fun v w => Open' env q o.path w ∧
      (v = true → ∃ f, w.files u.path = some f) ∧ (v = false → w.stamps u.path = none)) ?_ ?_
    · refine tri_conseq (tri_verify_mirror hp hl' hu hol ho.inv) (fun _ h => h) ?_ ?_
      · rintro v w ⟨k1, k2, k3, k4, k5, k6⟩
        exact ⟨hstep ho k1 k2 k6, k4, k5⟩
      · rintro e w ⟨k1, k2, k3, k4, k5⟩
        exact ⟨hstep ho k1 k2 (fun hb => Or.inl (k5 hb)), Or.inl k4⟩
    · intro v
      refine tri_look fun w1 h1 => ?_
      obtain ⟨hop, hv1, hv2⟩ := h1
      unfold onlyIf
      refine tri_ite (fun hc => ?_) (fun _ => tri_pure fun w h => by rw [h]; exact hop)
      have hnone : w1.stamps u.path = none := by
        cases v with
        | false => exact hv2 rfl
        | true =>
          obtain ⟨f, hf⟩ := hv1 rfl
          rcases hc with hc | hc
          · cases hc
          · rw [hf] at hc; cases hc
      have hb : Blank w1 u.path := fun st hst => by rw [hnone] at hst; cases hst
      unfold method
      rw [if_neg hl]
      refine tri_conseq (tri_wget hh nn hop.inv hb hd) (fun _ h => h) ?_ ?_
      · rintro a w ⟨k1, k2, k3, k4⟩
        exact hop.of_stamps k1 (by rw [k3])
      · rintro e w ⟨k1, k2, k3, k4, k5⟩
        refine ⟨hop.of_stamps k1 (by rw [k3]), ?_⟩
        rcases k4 with k4 | k4 | k4 | ⟨k4, _⟩
        · exact Or.inl k4
        · exact Or.inr (Or.inl k4)
        · exact Or.inr (Or.inr k4)
        · rw [hu] at k4; cases k4

/-- What is done with the file of a mirror. -/
def useMirror (env : Env) (orig u : Ud) : M Bool := do
  let w ← look
  if (w.files u.path).isNone then pure false
  else if u.path = orig.path then pure true
  else do
    ensureSymlink u.path orig.path
    updateStamp env orig
    pure true

theorem tri_useMirror (hh : HashOk env) (hp : ∀ p, env.plain p = true) {o : Ud}
    (hol : o.isLocal = false) (hoi : o.ignore = false) (ho : Open' env q o.path w0) :
    Tri (fun w => w = w0) (useMirror env o u)
      (fun v w => (v = true → Found env q o w) ∧ (v = false → Open' env q o.path w))
      (fun e w => Open' env q o.path w ∧
        (Err q (Strict env o) e ∨ ((∃ c, e = .checksum c) ∧ u.path ≠ o.path)) ∨
        Inv env.hash q w ∧ Err q (Strict env o) e ∧ ∀ b, e ≠ .io b) := by
  unfold useMirror
  refine tri_look fun w1 h1 => ?_
  subst h1
  refine tri_ite (fun hn => ?_) (fun hn => ?_)
  · refine tri_pure fun w h => ⟨fun e => (by cases e), fun _ => by rw [h]; exact ho⟩
  · cases hf : w1.files u.path with
    | none => rw [hf] at hn; exact absurd rfl hn
    | some f =>
      refine tri_ite (fun hpp => ?_) (fun hpp => ?_)
      · refine tri_pure fun w h => ⟨fun _ => ?_, fun e => (by cases e)⟩
        subst h
        exact ⟨ho.inv, ⟨f, by rw [← hpp]; exact hf⟩, Or.inl ho.blank, fun hq => Or.inl (ho.none hq)⟩
      · refine tri_bind (R := fun _ w => Open' env q o.path w ∧ ∃ f, w.files o.path = some f) ?_ ?_
        · refine tri_conseq (tri_ensureSymlink ho hf) ?_ (fun _ _ h => ⟨h.1, h.2.2⟩) ?_
          · rintro w rfl; exact Same.rfl _
          · rintro e w ⟨h, h2⟩
            exact Or.inl ⟨h, Or.inl (h2.mono fun x => x.elim)⟩
        · intro _
          refine tri_bind (R := fun _ w => Found env q o w) ?_
            (fun _ => tri_pure fun w h => ⟨fun _ => h, fun e => (by cases e)⟩)
          rintro w2 ⟨hop, f2, hf2⟩
          have := tri_update (u := o) hh hp hol hoi hop.inv hf2 (Or.inl hop.blank) w2 (Same.rfl w2)
          refine ⟨fun a w' e => ?_, fun e w' he => ?_⟩
          · obtain ⟨k1, k2, k3, k4, k5⟩ := this.1 a w' e
            exact ⟨k1, ⟨f2, by rw [k3, hf2]⟩, k4, fun hq => Or.inr (k5 (Or.inl (hop.none hq)))⟩
          · obtain ⟨k1, k2, k3, k4⟩ := this.2 e w' he
            rcases k4 with k4 | ⟨c, k4, k5, k6⟩
            · by_cases hq : q
              · refine Or.inr ⟨k1, k4, fun b hb => ?_⟩
                rcases k4 with ⟨k4, _⟩ | ⟨_, _, k4⟩ | ⟨k4, _⟩
                · rw [k4] at hb; cases hb
                · exact k4 hq
                · rw [k4] at hb; cases hb
              · exact Or.inl ⟨⟨k1, k3 hop.blank, fun h => absurd h hq⟩, Or.inl k4⟩
            · exact Or.inl ⟨⟨k1, k3 hop.blank, fun _ => k5⟩, Or.inr ⟨⟨c, k4⟩, hpp⟩⟩

theorem tryMirror_eq (env : Env) (nn : Bool) (o u : Ud) :
    tryMirror env nn o u = M.catch ((do
        let v ← verifyDonestamp env u (some o)
        let w ← look
        onlyIf (v = false ∨ w.files u.path = none) (method env nn u)) >>= fun _ => useMirror env o u)
      (mirrorFailed env u) := by
  unfold tryMirror useMirror
  congr 1
  funext w
  simp only [bind_def]
  cases verifyDonestamp env u (some o) w with
  | mk r w1 =>
    cases r with
    | error e => rfl
    | ok v =>
      simp only [look]

/-- One mirror. -/
theorem tri_tryMirror (hh : HashOk env) (hp : ∀ p, env.plain p = true) {o : Ud}
    (hol : o.isLocal = false) (hoi : o.ignore = false) (hu : u.ignore = true) (nn : Bool)
    (hd : q → Delivers env) :
    Tri (Open' env q o.path) (tryMirror env nn o u)
      (fun v w => (v = true → Found env q o w) ∧ (v = false → Open' env q o.path w))
      (fun e w => Inv env.hash q w ∧ MirrorErr env q o nn e) := by
  rw [tryMirror_eq]
  refine tri_catch (R := fun e w => Open' env q o.path w ∧
      (Err q (Strict env o) e ∨ (e = .network ∧ nn = true) ∨ e = .fetch ∨
        ((∃ c, e = .checksum c) ∧ u.path ≠ o.path)) ∨
      Inv env.hash q w ∧ Err q (Strict env o) e ∧ ∀ b, e ≠ .io b) ?_ ?_
  · intro w0 ho
    refine tri_bind (P := fun w => w = w0) (R := fun _ w => Open' env q o.path w) ?_ ?_ w0 rfl
    · refine tri_conseq (tri_mirror_get hh hp hol hu nn hd ho) ?_ (fun _ _ h => h) ?_
      · rintro w rfl; exact Same.rfl _
      · rintro e w ⟨h, h2⟩
        refine Or.inl ⟨h, ?_⟩
        rcases h2 with h2 | h2 | h2
        · exact Or.inl (h2.mono fun x => x.elim)
        · exact Or.inr (Or.inl h2)
        · exact Or.inr (Or.inr (Or.inl h2))
    · intro _ w1 h1
      have := tri_useMirror (u := u) hh hp hol hoi h1 w1 rfl
      refine ⟨this.1, fun e w' he => ?_⟩
      rcases this.2 e w' he with ⟨k1, k2 | k2⟩ | k
      · exact Or.inl ⟨k1, Or.inl k2⟩
      · exact Or.inl ⟨k1, Or.inr (Or.inr (Or.inr k2))⟩
      · exact Or.inr k
  · intro e w1 h1
    have hraise : ∀ {x}, mirrorFailed env u e = raise e → (x = w1) → Inv env.hash q w1 →
        MirrorErr env q o nn e → _ := fun {x} h hx hi hm =>
      (show (∀ a w', mirrorFailed env u e w1 = (.ok a, w') →
          (a = true → Found env q o w') ∧ (a = false → Open' env q o.path w')) ∧
          (∀ e' w', mirrorFailed env u e w1 = (.error e', w') →
            Inv env.hash q w' ∧ MirrorErr env q o nn e') by
        rw [h]
        refine ⟨fun a w' e => (by cases e), fun e' w' he' => ?_⟩
        cases he'
        exact ⟨hi, hm⟩)
    rcases h1 with ⟨ho, he⟩ | ⟨hi, he, hio⟩
    · -- clean after a failure
      have hclean : ∀ w2, Open' env q o.path w2 →
          (∀ a w', (do clean env u; pure false : M Bool) w2 = (.ok a, w') →
            (a = true → Found env q o w') ∧ (a = false → Open' env q o.path w')) ∧
          (∀ e' w', (do clean env u; pure false : M Bool) w2 = (.error e', w') →
            Inv env.hash q w' ∧ MirrorErr env q o nn e') := by
        intro w2 ho2
        refine tri_bind (P := fun w => w = w2) (R := fun _ w => Open' env q o.path w) ?_ ?_ w2 rfl
        · refine tri_conseq (tri_clean hp ho2.inv) ?_ ?_ ?_
          · rintro w rfl; exact Same.rfl _
          · rintro a w ⟨k1, k2, k3⟩
            exact ho2.of_stamps k1 (by rw [k3])
          · rintro e w ⟨k1, k2, k3⟩
            exact ⟨k1, Or.inl (k3.mono fun x => x.elim)⟩
        · intro _
          exact tri_pure fun w h => ⟨fun e => (by cases e), fun _ => h⟩
      rcases he with he | he | he | ⟨⟨c, he⟩, hpp⟩
      · rcases he with ⟨rfl, hq⟩ | ⟨b, rfl, hq⟩ | ⟨rfl, hs⟩
        · exact hraise rfl rfl ho.inv (Or.inl (Or.inl ⟨rfl, hq⟩))
        · cases b with
          | true =>
            refine ⟨fun a w' e => ?_, fun e' w' he' => (by cases he')⟩
            cases e
            exact ⟨fun e => (by cases e), fun _ => ho⟩
          | false => exact hraise rfl rfl ho.inv (Or.inl (Or.inr (Or.inl ⟨false, rfl, hq⟩)))
        · exact hraise rfl rfl ho.inv (Or.inl (Or.inr (Or.inr ⟨rfl, hs⟩)))
      · obtain ⟨rfl, hn⟩ := he
        exact hraise rfl rfl ho.inv (Or.inr ⟨rfl, hn⟩)
      · subst he
        exact hclean w1 ho
      · subst he
        refine tri_bind (P := fun w => w = w1) (R := fun _ w => Open' env q o.path w) ?_ ?_ w1 rfl
        · refine tri_conseq (tri_renameBad ho.inv u.path c) ?_ ?_ ?_
          · rintro w rfl; exact Same.rfl _
          · rintro a w ⟨k1, k2, k3, k4⟩
            exact ho.of_stamps k1 (by rw [k3])
          · rintro e w ⟨k1, k2, k3⟩
            exact ⟨ho.inv.same k1, Or.inl (Or.inl ⟨k2, k3⟩)⟩
        · intro _ w2 h2
          exact hclean w2 h2
    · rcases he with ⟨rfl, hq⟩ | ⟨b, rfl, hq⟩ | ⟨rfl, hs⟩
      · exact hraise rfl rfl hi (Or.inl (Or.inl ⟨rfl, hq⟩))
      · exact absurd rfl (hio b)
      · exact hraise rfl rfl hi (Or.inl (Or.inr (Or.inr ⟨rfl, hs⟩)))

theorem tri_tryMirrors (hh : HashOk env) (hp : ∀ p, env.plain p = true) {o : Ud}
    (hol : o.isLocal = false) (hoi : o.ignore = false) (nn : Bool) (hd : q → Delivers env)
    (l : List Ud) (hl : ∀ m, m ∈ l → m.ignore = true) :
    Tri (Open' env q o.path) (tryMirrors env nn o l)
      (fun v w => (v = true → Found env q o w) ∧ (v = false → Open' env q o.path w))
      (fun e w => Inv env.hash q w ∧ MirrorErr env q o nn e) := by
  induction l with
  | nil => exact tri_pure fun w h => ⟨fun e => (by cases e), fun _ => h⟩
  | cons m l ih =>
    unfold tryMirrors
    refine tri_bind (tri_tryMirror hh hp hol hoi (hl m List.mem_cons_self) nn hd) ?_
    intro r
    cases r with
    | true => exact tri_pure fun w h => ⟨fun _ => h.1 rfl, fun e => (by cases e)⟩
    | false =>
      refine tri_pre (ih fun x hx => hl x (List.mem_cons_of_mem _ hx)) ?_
      exact fun w h => h.2 rfl

theorem allowed_ignore (nn : Bool) (l : List Ud) :
    ∀ m, m ∈ allowed env nn l → m.ignore = true := by
  intro m hm
  unfold allowed at hm
  obtain ⟨x, _, rfl⟩ := List.mem_map.1 hm
  rfl

/-- The download that is there, or the premirrors. -/
theorem tri_firstTry (hh : HashOk env) (hp : ∀ p, env.plain p = true)
    (hul : u.isLocal = false) (hui : u.ignore = false) (hd : q → Delivers env) :
    Tri (Inv env.hash q) (firstTry env u)
      (fun v w => (v = true → Inv env.hash q w ∧ (∃ f, w.files u.path = some f) ∧
          (Blank w u.path ∨ Sealed env.hash w u.path) ∧ (q → Vouched env u w)) ∧
        (v = false → Open' env q u.path w))
      (fun e w => Inv env.hash q w ∧ MirrorErr env q u env.noNetwork e) := by
  unfold firstTry
  refine tri_bind (R := fun v w => Inv env.hash q w ∧ (v = true → Vouched env u w) ∧
    (v = false → w.stamps u.path = none)) ?_ ?_
  · intro w hw
    have := tri_verify (u := u) hh hp hul hui hw w (Same.rfl w)
    exact ⟨fun a w' e => ⟨(this.1 a w' e).1, (this.1 a w' e).2.2.1,
        fun hv => ((this.1 a w' e).2.2.2 hv).1⟩,
      fun e w' he => ⟨(this.2 e w' he).1, Or.inl (this.2 e w' he).2.2⟩⟩
  · intro v
    refine tri_look fun w1 h1 => ?_
    obtain ⟨hi, hv1, hv2⟩ := h1
    refine tri_ite (fun hc => ?_) (fun hc => ?_)
    · have hvt : v = true := by
        cases v with
        | true => rfl
        | false => cases hc
      refine tri_pure fun w h => ⟨fun _ => ?_, fun e => (by cases e)⟩
      rw [h]
      have hvo := hv1 hvt
      obtain ⟨⟨f, hf, hr, hs⟩, hstr⟩ := hv1 hvt
      exact ⟨hi, ⟨f, hf⟩, Or.inr ⟨f, hf, hs⟩, fun _ => hvo⟩
    · have hvf : w1.stamps u.path = none := by
        cases v with
        | false => exact hv2 rfl
        | true =>
          obtain ⟨⟨f, hf, _⟩, _⟩ := hv1 rfl
          rw [hf] at hc
          exact absurd rfl hc
      have hop : Open' env q u.path w1 :=
        ⟨hi, fun st hst => (by rw [hvf] at hst; cases hst), fun _ => hvf⟩
      refine tri_bind (R := fun v w => (v = true → Found env q u w) ∧
        (v = false → Open' env q u.path w)) ?_ ?_
      · refine tri_pre (tri_tryMirrors hh hp hul hui env.noNetwork hd _ (allowed_ignore _ _)) ?_
        rintro w rfl
        exact hop
      · intro d
        cases d with
        | false => exact tri_pure fun w h => ⟨fun e => (by cases e), fun _ => h.2 rfl⟩
        | true =>
          refine tri_catch (R := fun e w => Inv env.hash q w ∧ (Err q (Strict env u) e ∨
            ∃ c, e = .checksum c ∧ w.stamps u.path = none)) ?_ ?_
          · intro w2 h2
            obtain ⟨hi2, ⟨f2, hf2⟩, hst2, hvo2⟩ := h2.1 rfl
            have := tri_update (u := u) hh hp hul hui hi2 hf2 hst2
            refine tri_bind (P := fun w => w = w2) (R := fun _ w => Inv env.hash q w ∧
              (∃ f, w.files u.path = some f) ∧ (Blank w u.path ∨ Sealed env.hash w u.path) ∧
              (q → Vouched env u w)) ?_
              (fun _ => tri_pure fun w h => ⟨fun _ => h, fun e => (by cases e)⟩) w2 rfl
            refine tri_conseq this ?_ ?_ ?_
            · rintro w rfl; exact Same.rfl _
            · rintro a w ⟨k1, k2, k3, k4, k5⟩
              exact ⟨k1, ⟨f2, by rw [k3, hf2]⟩, k4, fun hq => k5 (hvo2 hq)⟩
            · rintro e w ⟨k1, k2, k3, k4⟩
              refine ⟨k1, ?_⟩
              rcases k4 with k4 | ⟨c, k4, k5, _⟩
              · exact Or.inl k4
              · exact Or.inr ⟨c, k4, k5⟩
          · intro e w3 h3
            obtain ⟨hi3, he⟩ := h3
            rcases he with he | ⟨c, rfl, hn⟩
            · have : premirrorFailed e = raise e := by
                rcases he with ⟨rfl, _⟩ | ⟨b, rfl, _⟩ | ⟨rfl, _⟩ <;> rfl
              rw [this]
              refine ⟨fun a w' e => (by cases e), fun e' w' he' => ?_⟩
              cases he'
              exact ⟨hi3, Or.inl he⟩
            · refine ⟨fun a w' e => ?_, fun e' w' he' => (by cases he')⟩
              cases e
              exact ⟨fun e => (by cases e), fun _ => ⟨hi3,
                fun st hst => (by rw [hn] at hst; cases hst), fun _ => hn⟩⟩

/-- The mirrors after the upstream server. -/
theorem tri_lastTry (hh : HashOk env) (hp : ∀ p, env.plain p = true)
    (hul : u.isLocal = false) (hui : u.ignore = false) (hd : q → Delivers env) (nn : Bool) :
    Tri (Open' env q u.path) (lastTry env nn u false)
      (fun v w => (v = true → Found env q u w) ∧ (v = false → Open' env q u.path w))
      (fun e w => Inv env.hash q w ∧ MirrorErr env q u nn e) := by
  unfold lastTry
  refine tri_bind (R := fun _ w => Open' env q u.path w) ?_
    (fun _ => tri_tryMirrors hh hp hul hui nn hd _ (allowed_ignore _ _))
  unfold onlyIf
  rw [if_pos rfl]
  intro w0 ho
  have := tri_clean (u := u) hp ho.inv w0 (Same.rfl w0)
  exact ⟨fun a w' e => ho.of_stamps (this.1 a w' e).1 (by rw [(this.1 a w' e).2.2]),
    fun e w' he => ⟨(this.2 e w' he).1, Or.inl ((this.2 e w' he).2.2.mono fun x => x.elim)⟩⟩

/-- The upstream server, and then the mirrors. -/
theorem tri_secondTry (hh : HashOk env) (hp : ∀ p, env.plain p = true)
    (hul : u.isLocal = false) (hui : u.ignore = false) (hd : q → Delivers env) (nn : Bool) :
    Tri (Open' env q u.path) (secondTry env nn u false)
      (fun v w => (v = true → Found env q u w) ∧ (v = false → Open' env q u.path w) ∧
        (q → nn = false → env.trusted u.url = true → Serves env u → ¬ Strict env u →
          v = true ∧ Vouched env u w))
      (fun e w => Inv env.hash q w ∧ MirrorErr env q u nn e ∧
        (q → nn = false → env.trusted u.url = true → Serves env u → ¬ Strict env u → False)) := by
  unfold secondTry
  refine tri_catch (R := fun e w => Inv env.hash q w ∧ (Err q (Strict env u) e ∨
      (e = .network ∧ nn = true) ∨
      (Open' env q u.path w ∧ (e = .fetch ∨ ∃ c, e = .checksum c))) ∧
      (q → nn = false → env.trusted u.url = true → Serves env u → ¬ Strict env u → False)) ?_ ?_
  · refine tri_bind (R := fun _ w => Open' env q u.path w) ?_ ?_
    · unfold onlyIf
      refine tri_ite (fun hc => tri_raise fun w h => ?_) (fun _ => tri_pure fun w h => h)
      refine ⟨h.inv, Or.inr (Or.inr ⟨h, Or.inl rfl⟩), fun _ _ ht => ?_⟩
      rw [hc.2] at ht
      cases ht
    · intro _
      refine tri_bind (R := fun _ w => Open' env q u.path w ∧ ∃ f, w.files u.path = some f ∧
        (q → Right env u f.data)) ?_ ?_
      · unfold method
        rw [if_neg (by rw [hul]; decide)]
        intro w0 ho
        have := tri_wget (u := u) hh nn ho.inv ho.blank hd w0 rfl
        refine ⟨fun a w' e => ?_, fun e w' he => ?_⟩
        · obtain ⟨k1, k2, k3, f, k4, k5⟩ := this.1 a w' e
          exact ⟨ho.of_stamps k1 (by rw [k3]), f, k4, fun hq => k5 hq hui⟩
        · obtain ⟨k1, k2, k3, k4, k5⟩ := this.2 e w' he
          have hop := ho.of_stamps k1 (by rw [k3])
          refine ⟨k1, ?_, fun hq hn ht hs _ => k5 hq hn ht hs⟩
          rcases k4 with k4 | k4 | k4 | ⟨_, k4⟩
          · exact Or.inl (k4.mono fun x => x.elim)
          · exact Or.inr (Or.inl k4)
          · exact Or.inr (Or.inr ⟨hop, Or.inl k4⟩)
          · exact Or.inr (Or.inr ⟨hop, Or.inr k4⟩)
      · intro _
        refine tri_bind (R := fun _ w => Found env q u w ∧ (q → Vouched env u w)) ?_
          (fun _ => tri_pure fun w h => ⟨fun _ => h.1, fun e => (by cases e),
            fun hq _ _ _ _ => ⟨rfl, h.2 hq⟩⟩)
        rintro w2 ⟨hop, f2, hf2, hr2⟩
        have := tri_update (u := u) hh hp hul hui hop.inv hf2 (Or.inl hop.blank) w2 (Same.rfl w2)
        refine ⟨fun a w' e => ?_, fun e w' he => ?_⟩
        · obtain ⟨k1, k2, k3, k4, k5⟩ := this.1 a w' e
          exact ⟨⟨k1, ⟨f2, by rw [k3, hf2]⟩, k4, fun hq => Or.inr (k5 (Or.inl (hop.none hq)))⟩,
            fun hq => k5 (Or.inl (hop.none hq))⟩
        · obtain ⟨k1, k2, k3, k4⟩ := this.2 e w' he
          refine ⟨k1, ?_, fun hq _ _ _ hstr => ?_⟩
          · rcases k4 with k4 | ⟨c, k4, k5, _⟩
            · exact Or.inl k4
            · exact Or.inr (Or.inr ⟨⟨k1, k3 hop.blank, fun _ => k5⟩, Or.inr ⟨c, k4⟩⟩)
          · rcases k4 with (⟨_, k4⟩ | ⟨_, _, k4⟩ | ⟨_, k4⟩) | ⟨c, _, _, k4⟩
            · exact k4 hq
            · exact k4 hq
            · exact hstr k4
            · exact k4 (hr2 hq)
  · intro e w1 h1
    obtain ⟨hi, he, hno⟩ := h1
    have hraise : upstreamFailed env nn u false e = raise e → MirrorErr env q u nn e →
        (∀ a w', upstreamFailed env nn u false e w1 = (.ok a, w') →
          (a = true → Found env q u w') ∧ (a = false → Open' env q u.path w') ∧
          (q → nn = false → env.trusted u.url = true → Serves env u → ¬ Strict env u →
            a = true ∧ Vouched env u w')) ∧
        (∀ e' w', upstreamFailed env nn u false e w1 = (.error e', w') →
          Inv env.hash q w' ∧ MirrorErr env q u nn e' ∧
          (q → nn = false → env.trusted u.url = true → Serves env u → ¬ Strict env u → False)) := by
      intro h hm
      rw [h]
      refine ⟨fun a w' e => (by cases e), fun e' w' he' => ?_⟩
      cases he'
      exact ⟨hi, hm, hno⟩
    have hlast : ∀ w2, Open' env q u.path w2 →
        (∀ a w', lastTry env nn u false w2 = (.ok a, w') →
          (a = true → Found env q u w') ∧ (a = false → Open' env q u.path w') ∧
          (q → nn = false → env.trusted u.url = true → Serves env u → ¬ Strict env u →
            a = true ∧ Vouched env u w')) ∧
        (∀ e' w', lastTry env nn u false w2 = (.error e', w') →
          Inv env.hash q w' ∧ MirrorErr env q u nn e' ∧
          (q → nn = false → env.trusted u.url = true → Serves env u → ¬ Strict env u → False)) := by
      intro w2 h2
      have := tri_lastTry hh hp hul hui hd nn w2 h2
      exact ⟨fun a w' e => ⟨(this.1 a w' e).1, (this.1 a w' e).2,
          fun h1 h2 h3 h4 h5 => (hno h1 h2 h3 h4 h5).elim⟩,
        fun e w' he => ⟨(this.2 e w' he).1, (this.2 e w' he).2, hno⟩⟩
    rcases he with he | he | ⟨ho, he | ⟨c, he⟩⟩
    · have : upstreamFailed env nn u false e = raise e := by
        rcases he with ⟨rfl, _⟩ | ⟨b, rfl, _⟩ | ⟨rfl, _⟩ <;> rfl
      exact hraise this (Or.inl he)
    · obtain ⟨rfl, hn⟩ := he
      exact hraise rfl (Or.inr ⟨rfl, hn⟩)
    · subst he
      exact hlast w1 ho
    · subst he
      refine tri_bind (P := fun w => w = w1) (R := fun _ w => Open' env q u.path w) ?_ ?_ w1 rfl
      · refine tri_conseq (tri_renameBad ho.inv u.path c) ?_ ?_ ?_
        · rintro w rfl; exact Same.rfl _
        · rintro a w ⟨k1, k2, k3, k4⟩
          exact ho.of_stamps k1 (by rw [k3])
        · rintro e w ⟨k1, k2, k3⟩
          exact ⟨ho.inv.same k1, Or.inl (Or.inl ⟨k2, k3⟩), hno⟩
      · intro _ w2 h2
        exact hlast w2 h2

/-- One URL that is fetched with `wget`. -/
theorem tri_fetchOne (hh : HashOk env) (hp : ∀ p, env.plain p = true)
    (hul : u.isLocal = false) (hui : u.ignore = false) (hd : q → Delivers env) :
    Tri (Inv env.hash q) (fetchOne env u)
      (fun _ w => Inv env.hash q w ∧ (q → Vouched env u w))
      (fun e w => Inv env.hash q w ∧ (q → ∀ b, e ≠ .io b) ∧
        (q → env.noNetwork = false → env.premirrorOnly = false → env.trusted u.url = true →
          Serves env u → ¬ Strict env u → False)) := by
  have herr : ∀ {nn e}, MirrorErr env q u nn e → q → ∀ b, e ≠ .io b := by
    intro nn e h hq b hb
    subst hb
    rcases h with (⟨h, _⟩ | ⟨_, _, h⟩ | ⟨h, _⟩) | ⟨h, _⟩
    · cases h
    · exact h hq
    · cases h
    · cases h
  have hnone : ∀ {nn e}, MirrorErr env q u nn e → q → nn = false → ¬ Strict env u → False := by
    intro nn e h hq hn hs
    rcases h with (⟨_, h⟩ | ⟨_, _, h⟩ | ⟨_, h⟩) | ⟨_, h⟩
    · exact h hq
    · exact h hq
    · exact hs h
    · rw [hn] at h; cases h
  have hfinal : ∀ w2 f, Inv env.hash q w2 → w2.files u.path = some f →
      (Blank w2 u.path ∨ Sealed env.hash w2 u.path) →
      (q → w2.stamps u.path = none ∨ Vouched env u w2) →
      (q → env.noNetwork = false → env.premirrorOnly = false → env.trusted u.url = true →
        Serves env u → ¬ Strict env u → Vouched env u w2) →
      Tri (fun w => w = w2) (updateStamp env u)
        (fun _ w => Inv env.hash q w ∧ (q → Vouched env u w))
        (fun e w => Inv env.hash q w ∧ (q → ∀ b, e ≠ .io b) ∧
          (q → env.noNetwork = false → env.premirrorOnly = false → env.trusted u.url = true →
            Serves env u → ¬ Strict env u → False)) := by
    intro w2 f hi hf hst hvo hav
    refine tri_conseq (tri_update hh hp hul hui hi hf hst) ?_ ?_ ?_
    · rintro w rfl; exact Same.rfl _
    · rintro a w ⟨k1, k2, k3, k4, k5⟩
      exact ⟨k1, fun hq => k5 (hvo hq)⟩
    · rintro e w ⟨k1, k2, k3, k4⟩
      refine ⟨k1, ?_, ?_⟩
      · intro hq b hb
        rcases k4 with k4 | ⟨c, k4, _⟩
        · exact herr (nn := false) (Or.inl k4) hq b hb
        · rw [hb] at k4; cases k4
      · intro hq h1 h2 h3 h4 h5
        rcases k4 with k4 | ⟨c, _, _, k4⟩
        · exact hnone (nn := false) (Or.inl k4) hq rfl h5
        · obtain ⟨⟨f', hf', hr, _⟩, _⟩ := hav hq h1 h2 h3 h4 h5
          rw [hf] at hf'
          cases hf'
          exact k4 hr
  unfold fetchOne
  refine tri_bind (R := fun v w => (v = true → Inv env.hash q w ∧ (∃ f, w.files u.path = some f) ∧
          (Blank w u.path ∨ Sealed env.hash w u.path) ∧ (q → Vouched env u w)) ∧
        (v = false → Open' env q u.path w)) ?_ ?_
  · refine tri_conseq (tri_firstTry hh hp hul hui hd) (fun _ h => h) (fun _ _ h => h) ?_
    rintro e w ⟨h, h2⟩
    exact ⟨h, herr h2, fun hq hn _ _ _ hs => hnone h2 hq hn hs⟩
  · intro done
    cases done with
    | true =>
      -- a good download is checked again
      refine tri_bind (R := fun v w => Inv env.hash q w ∧ (v = true → Vouched env u w) ∧
        (v = false → w.stamps u.path = none) ∧ (q → v = true)) ?_ ?_
      · intro w0 h0
        obtain ⟨hi0, ⟨f0, hf0⟩, hs0, hv0⟩ := h0.1 rfl
        have := tri_verify (u := u) hh hp hul hui hi0 w0 (Same.rfl w0)
        refine ⟨fun v w' e => ?_, fun e w' he => ?_⟩
        · obtain ⟨k1, k2, k3, k4⟩ := this.1 v w' e
          refine ⟨k1, k3, fun e => (k4 e).1, fun hq => ?_⟩
          cases v with
          | true => rfl
          | false =>
            obtain ⟨⟨f, hf, hr, _⟩, _⟩ := hv0 hq
            exact absurd hr ((k4 rfl).2 f hf)
        · obtain ⟨k1, k2, k3⟩ := this.2 e w' he
          exact ⟨k1, herr (nn := false) (Or.inl k3),
            fun hq _ _ _ _ hs => hnone (nn := false) (Or.inl k3) hq rfl hs⟩
      · intro v
        refine tri_look fun w1 h1 => ?_
        have : others env u true v w1 = pure true := by
          unfold others
          exact if_neg fun h => by cases h.1
        rw [this]
        refine tri_bind (R := fun d w => d = true ∧ w = w1) (tri_pure fun w h => ⟨rfl, h⟩) ?_
        intro d
        refine tri_look fun w2 h2 => ?_
        obtain ⟨rfl, rfl⟩ := h2
        obtain ⟨k1, k2, k3, k4⟩ := h1
        refine tri_ite (fun hc => ?_) (fun hc => ?_)
        · refine tri_raise fun w h => ?_
          rw [h]
          refine ⟨k1, fun _ b e => (by cases e), fun hq _ _ _ _ _ => ?_⟩
          obtain ⟨⟨f, hf, _⟩, _⟩ := k2 (k4 hq)
          rcases hc with hc | hc
          · cases hc
          · rw [hf] at hc; cases hc
        · cases hf : w2.files u.path with
          | none => exact absurd (Or.inr hf) hc
          | some f =>
            have hst : Blank w2 u.path ∨ Sealed env.hash w2 u.path := by
              cases v with
              | true =>
                obtain ⟨⟨f', hf', _, hs⟩, _⟩ := k2 rfl
                exact Or.inr ⟨f', hf', hs⟩
              | false =>
                refine Or.inl fun st hst => ?_
                rw [k3 rfl] at hst
                cases hst
            exact hfinal w2 f k1 hf hst (fun hq => Or.inr (k2 (k4 hq)))
              fun hq _ _ _ _ _ => k2 (k4 hq)
    | false =>
      refine tri_bind (R := fun v w => v = false ∧ Open' env q u.path w)
        (tri_pure fun w h => ⟨rfl, h.2 rfl⟩) ?_
      intro v
      refine tri_look fun w1 h1 => ?_
      obtain ⟨rfl, ho⟩ := h1
      have : others env u false false w1 =
          secondTry env (env.noNetwork || env.premirrorOnly) u false := by
        unfold others
        exact if_pos ⟨rfl, Or.inl rfl⟩
      rw [this]
      have hnn : env.noNetwork = false → env.premirrorOnly = false →
          (env.noNetwork || env.premirrorOnly) = false := fun h1 h2 => by rw [h1, h2]; rfl
      refine tri_bind (R := fun v w => (v = true → Found env q u w) ∧
        (v = false → Open' env q u.path w) ∧
        (q → env.noNetwork = false → env.premirrorOnly = false → env.trusted u.url = true →
          Serves env u → ¬ Strict env u → v = true ∧ Vouched env u w)) ?_ ?_
      · refine tri_conseq (tri_secondTry hh hp hul hui hd _) ?_ ?_ ?_
        · rintro w rfl; exact ho
        · rintro v w ⟨k1, k2, k3⟩
          exact ⟨k1, k2, fun hq h1 h2 h3 h4 h5 => k3 hq (hnn h1 h2) h3 h4 h5⟩
        · rintro e w ⟨k1, k2, k3⟩
          exact ⟨k1, herr k2, fun hq h1 h2 h3 h4 h5 => k3 hq (hnn h1 h2) h3 h4 h5⟩
      · intro d
        refine tri_look fun w2 h2 => ?_
        obtain ⟨k1, k2, k3⟩ := h2
        refine tri_ite (fun hc => ?_) (fun hc => ?_)
        · refine tri_raise fun w h => ?_
          rw [h]
          have hi : Inv env.hash q w2 := by
            cases d with
            | true => exact (k1 rfl).inv
            | false => exact (k2 rfl).inv
          refine ⟨hi, fun _ b e => (by cases e), fun hq h1 h2 h3 h4 h5 => ?_⟩
          have hd := (k3 hq h1 h2 h3 h4 h5).1
          obtain ⟨f, hf⟩ := (k1 hd).file
          rcases hc with hc | hc
          · rw [hd] at hc; cases hc
          · rw [hf] at hc; cases hc
        · have hdt : d = true := by
            cases d with
            | true => rfl
            | false => exact absurd (Or.inl rfl) hc
          obtain ⟨i1, ⟨f, i2⟩, i3, i4⟩ := k1 hdt
          exact hfinal w2 f i1 i2 i3 i4 fun hq h1 h2 h3 h4 h5 => (k3 hq h1 h2 h3 h4 h5).2

end

end Bb.Fetch
