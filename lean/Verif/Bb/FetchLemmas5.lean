import Verif.Bb.FetchFrame
/-!
# Lemmas about the fetcher: lists of URLs and histories
-/

namespace Bb.Fetch
open Py

set_option linter.unusedSectionVars false

section
variable {env : Env} {q : Prop}

/-- The fetch of a `file://` URL changes nothing. -/
theorem fetchOne_local {u : Ud} (hl : u.isLocal = true) (hpre : env.premirrors u = [])
    (hmir : env.mirrors u = []) (w : World) :
    fetchOne env u w = (if (w.files u.path).isSome then .ok () else .error .fetch, w) := by
  have hst : u.stamped = false := by unfold Ud.stamped; rw [hl]; rfl
  have hv : ∀ o, verifyDonestamp env u o = pure true := by
    intro o
    unfold verifyDonestamp
    rw [hst]
    rfl
  have hup : updateStamp env u = pure () := by
    unfold updateStamp
    rw [hst]
    rfl
  have ha : ∀ nn, allowed env nn ([] : List Ud) = [] := fun nn => rfl
  cases hf : w.files u.path with
  | some f =>
    have h1 : firstTry env u w = (.ok true, w) := by
      unfold firstTry
      rw [hv]
      show (if (true && (w.files u.path).isSome) = true then (pure true : M Bool) else _) w = _
      rw [hf]
      rfl
    unfold fetchOne
    rw [bind_def, h1]
    dsimp only
    unfold recheck
    rw [if_pos rfl, hv]
    show (others env u true true w >>= _) w = _
    unfold others
    rw [if_neg (by intro h; cases h.1)]
    show (if true = false ∨ w.files u.path = none then (raise .fetch : M Unit) else updateStamp env u) w = _
    rw [if_neg (by rw [hf]; intro h; rcases h with h | h <;> cases h), hup]
    rfl
  | none =>
    have h1 : firstTry env u w = (.ok false, w) := by
      unfold firstTry
      rw [hv]
      show (if (true && (w.files u.path).isSome) = true then (pure true : M Bool) else _) w = _
      rw [hf, hpre, ha]
      rfl
    have h2 : ∀ nn, secondTry env nn u false w = (.ok false, w) := by
      intro nn
      have hl' : lastTry env nn u false w = (.ok false, w) := by
        unfold lastTry clean
        rw [hl, hmir]
        rfl
      unfold secondTry M.catch
      have : (do
          onlyIf (nn = false ∧ env.trusted u.url = false) (raise .fetch)
          method env nn u
          updateStamp env u
          pure true : M Bool) w = (.error .fetch, w) := by
        unfold onlyIf
        by_cases hc : nn = false ∧ env.trusted u.url = false
        · rw [if_pos hc]; rfl
        · rw [if_neg hc]
          show (method env nn u >>= _) w = _
          rw [bind_def]
          have : method env nn u w = (.error .fetch, w) := by
            unfold method
            rw [if_pos hl]
            show (if (w.files u.path).isNone = true then (raise .fetch : M Unit) else pure ()) w = _
            rw [hf]
            rfl
          rw [this]
      rw [this]
      exact hl'
    unfold fetchOne
    rw [bind_def, h1]
    dsimp only
    unfold recheck
    rw [if_neg (by intro h; cases h)]
    show (others env u false false w >>= _) w = _
    unfold others
    rw [if_pos ⟨rfl, Or.inl rfl⟩, bind_def, h2]
    rfl

/-- A kept property of single URLs is kept by the whole. -/
theorem kept_download {I : World → Prop} (l : List Ud) (h : ∀ u, u ∈ l → Kept I (fetchOne env u)) :
    ∀ b, Kept I (download env l b) := by
  induction l with
  | nil =>
    intro b
    unfold download
    cases b
    · exact kept_pure _
    · exact kept_raise _
  | cons u l ih =>
    intro b w hw
    have h1 := h u List.mem_cons_self w hw
    have ih := ih fun x hx => h x (List.mem_cons_of_mem _ hx)
    unfold download
    cases hm : fetchOne env u w with
    | mk r w1 =>
      rw [hm] at h1
      cases r with
      | ok a => exact ih b w1 h1
      | error e =>
        cases e with
        | io s =>
          cases s
          · exact ih b w1 h1
          · exact h1
        | noChecksum => exact ih true w1 h1
        | crash => exact h1
        | checksum c => exact h1
        | network => exact h1
        | fetch => exact h1

/-- The invariant for one URL. -/
theorem kept_inv_fetchOne {u : Ud} (hh : HashOk env) (hp : ∀ p, env.plain p = true)
    (hui : u.ignore = false) (hul : u.isLocal = true → env.premirrors u = [] ∧ env.mirrors u = [])
    (hd : q → Delivers env) : Kept (Inv env.hash q) (fetchOne env u) := by
  intro w hw
  cases hl : u.isLocal with
  | true =>
    rw [fetchOne_local hl (hul hl).1 (hul hl).2]
    exact hw
  | false =>
    refine tri_kept (P := Inv env.hash q) ?_ hw
    exact tri_conseq (tri_fetchOne hh hp hl hui hd) (fun _ h => h) (fun _ _ h => h.1) (fun _ _ h => h.1)

theorem inv_calm {hash : Alg → Str → Str} {w : World} (h : Inv hash False w) {s : List Ev}
    (hq : q → Calm s) : Inv hash q { w with script := s } :=
  ⟨h.honest, h.old, hq⟩

/-- The invariant holds in every history. -/
theorem history_inv {hash : Alg → Str → Str} {w : World} (h : History hash w) : Inv hash False w := by
  induction h with
  | start h =>
    exact ⟨fun p f st s hf hs => (by rw [h p] at hs; cases hs), fun p st hs => (by rw [h p] at hs; cases hs),
      fun x => x.elim⟩
  | @fetch w env urls script _ he hh hs ih =>
    subst he
    refine kept_download urls (fun u hu => kept_inv_fetchOne hh hs.plain (hs.checked u hu)
      (hs.noLocal u hu) (fun x => x.elim)) false _ ?_
    exact inv_calm ih fun x => x.elim
  | @write w p f _ hf ih =>
    refine ⟨?_, ih.old, fun x => x.elim⟩
    intro x g st s hg hst hs hlt
    dsimp only at hg hst
    by_cases hx : x = p
    · rw [hx, upd_self] at hg
      cases hg
      have := ih.old x st hst
      omega
    · rw [upd_ne _ _ _ _ hx] at hg
      exact ih.honest x g st s hg hst hs hlt
  | @remove w p _ ih => exact ih.unfile p
  | @unstamp w p _ ih => exact ih.unstamp p
  | @wait w n _ hn ih =>
    exact ⟨ih.honest, fun p st hs => Nat.le_trans (ih.old p st hs) hn, fun x => x.elim⟩

/-- The fetch of one URL leaves the files at other paths alone. -/
theorem fetchOne_frame (u : Ud) (p : Str) (hp : ¬ Touches env u p) (w : World) :
    (fetchOne env u w).2.files p = w.files p := by
  refine kept_fetchOne (env := env) (S := Touches env u) (C := fun _ => True)
    (I := fun w' => w'.files p = w.files p) ?_ (Or.inl rfl)
    (fun m hm => ⟨Or.inr (Or.inl ⟨m, hm, rfl⟩), fun _ _ => trivial⟩)
    (fun m hm => ⟨Or.inr (Or.inr ⟨m, hm, rfl⟩), fun _ _ => trivial⟩) (fun _ _ => trivial) w rfl
  have ne : ∀ x, Touches env u x → p ≠ x := fun x hx e => hp (e ▸ hx)
  exact
    { step := fun w s n h => h
      stamp := fun w x v hx h => h
      gone := fun w x hx h => (upd_ne _ _ _ _ (ne x hx)).trans h
      move := fun w x c f hx _ h => (upd_ne _ _ _ _ (ne x hx)).trans h
      link := fun w x t hx _ h => (upd_ne _ _ _ _ (ne x hx)).trans h
      tmp := fun w x v hx h => h
      put := fun w x f k url part hx _ h => (upd_ne _ _ _ _ (ne x hx)).trans h
      contact := fun w url _ h => h }

theorem download_frame (l : List Ud) (p : Str) (hp : ∀ v, v ∈ l → ¬ Touches env v p) (b : Bool)
    (w : World) : (download env l b w).2.files p = w.files p :=
  kept_download (I := fun w' => w'.files p = w.files p) l
    (fun u hu w' h => (fetchOne_frame u p (hp u hu) w').trans h) b w rfl

/-- What a URL is owed: the right file. -/
def Owed (env : Env) (u : Ud) (w : World) : Prop :=
  ∃ f, w.files u.path = some f ∧ (u.isLocal = false → Right env u f.data)

theorem fetchOne_owed {u : Ud} (hh : HashOk env) (hp : ∀ p, env.plain p = true)
    (hui : u.ignore = false) (hul : u.isLocal = true → env.premirrors u = [] ∧ env.mirrors u = [])
    (hd : Delivers env) {w w' : World} (hi : Inv env.hash True w)
    (h : fetchOne env u w = (.ok (), w')) :
    Owed env u w' ∧ (u.isLocal = false → ¬ Strict env u) := by
  cases hl : u.isLocal with
  | true =>
    rw [fetchOne_local hl (hul hl).1 (hul hl).2] at h
    cases hf : w.files u.path with
    | none => rw [hf] at h; cases h
    | some f =>
      rw [hf] at h
      cases h
      exact ⟨⟨f, hf, fun e => by rw [hl] at e; cases e⟩, fun e => by cases e⟩
  | false =>
    obtain ⟨⟨f, hf, hr, _⟩, hs⟩ := ((tri_fetchOne (q := True) hh hp hl hui fun _ => hd) w hi).1 () w' h |>.2 trivial
    exact ⟨⟨f, hf, fun _ => hr⟩, fun _ => hs⟩

theorem fetchOne_noio {u : Ud} (hh : HashOk env) (hp : ∀ p, env.plain p = true)
    (hui : u.ignore = false) (hul : u.isLocal = true → env.premirrors u = [] ∧ env.mirrors u = [])
    (hd : Delivers env) {w w' : World} (hi : Inv env.hash True w) {e : Exc}
    (h : fetchOne env u w = (.error e, w')) : ∀ b, e ≠ .io b := by
  cases hl : u.isLocal with
  | true =>
    rw [fetchOne_local hl (hul hl).1 (hul hl).2] at h
    cases hf : w.files u.path with
    | none => rw [hf] at h; cases h; exact fun b e => by cases e
    | some f => rw [hf] at h; cases h
  | false =>
    exact (((tri_fetchOne (q := True) hh hp hl hui fun _ => hd) w hi).2 e w' h).2.1 trivial

/-- With a checksum missing, the whole fails. -/
theorem download_missing (l : List Ud) (w w' : World) : download env l true w ≠ (.ok (), w') := by
  induction l generalizing w with
  | nil => intro h; cases h
  | cons u l ih =>
    intro h
    unfold download at h
    cases hm : fetchOne env u w with
    | mk r w1 =>
      rw [hm] at h
      cases r with
      | ok a => exact ih w1 h
      | error e =>
        cases e with
        | io s =>
          cases s
          · exact ih w1 h
          · cases h
        | noChecksum => exact ih w1 h
        | crash => cases h
        | checksum c => cases h
        | network => cases h
        | fetch => cases h

/-- In a calm fetch that works, every URL gets what it is owed. -/
theorem download_owed (urls : List Ud) (hh : HashOk env) (hs : Sane env urls) (hd : Delivers env)
    {w w' : World} (hi : Inv env.hash True w) (h : download env urls false w = (.ok (), w')) :
    (∀ u, u ∈ urls → u.isLocal = false → ¬ Strict env u) ∧
      (Apart env urls → ∀ u, u ∈ urls → Owed env u w') := by
  induction urls generalizing w with
  | nil => exact ⟨fun u hu => (nomatch hu), fun _ u hu => (nomatch hu)⟩
  | cons u l ih =>
    have hsl : Sane env l := ⟨hs.plain, fun x hx => hs.checked x (List.mem_cons_of_mem _ hx),
      fun x hx => hs.noLocal x (List.mem_cons_of_mem _ hx)⟩
    have hc := hs.checked u List.mem_cons_self
    have hn := hs.noLocal u List.mem_cons_self
    have hk := kept_inv_fetchOne (q := True) hh hs.plain hc hn (fun _ => hd) w hi
    unfold download at h
    cases hm : fetchOne env u w with
    | mk r w1 =>
      rw [hm] at h hk
      cases r with
      | ok a =>
        obtain ⟨ho, hst⟩ := fetchOne_owed hh hs.plain hc hn hd hi hm
        obtain ⟨i1, i2⟩ := ih hsl hk h
        constructor
        · intro x hx
          rcases List.mem_cons.1 hx with rfl | hx
          · exact hst
          · exact i1 x hx
        · intro ha x hx
          obtain ⟨a1, a2⟩ := List.pairwise_cons.1 ha
          rcases List.mem_cons.1 hx with rfl | hx
          · have hfr := download_frame (env := env) l x.path (fun v hv => a1 v hv) false w1
            dsimp only at h
            rw [h] at hfr
            obtain ⟨f, hf, hr⟩ := ho
            exact ⟨f, hfr.trans hf, hr⟩
          · exact i2 a2 x hx
      | error e =>
        have hne := fetchOne_noio hh hs.plain hc hn hd hi hm
        cases e with
        | io s => exact absurd rfl (hne s)
        | noChecksum => exact absurd h (download_missing l _ _)
        | crash => cases h
        | checksum c => cases h
        | network => cases h
        | fetch => cases h

end

end Bb.Fetch
