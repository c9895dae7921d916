import Verif.Bb.FetchHoare
import Verif.Bb.FetchSpec
/-!
# Lemmas about the fetcher: checksums and done stamps
-/

namespace Bb.Fetch
open Py

/-- Only the clock and the script have changed. -/
structure Same (w0 w : World) : Prop where
  files : w.files = w0.files
  tmps : w.tmps = w0.tmps
  stamps : w.stamps = w0.stamps
  contacts : w.contacts = w0.contacts
  bad : w.bad = w0.bad
  now : w0.now ≤ w.now
  script : ∀ e, e ∈ w.script → e ∈ w0.script

theorem Same.rfl (w : World) : Same w w :=
  ⟨Eq.refl _, Eq.refl _, Eq.refl _, Eq.refl _, Eq.refl _, Nat.le_refl _, fun _ h => h⟩

theorem Same.next {w0 w : World} (h : Same w0 w) {s : List Ev} {n : Nat}
    (hs : ∀ e, e ∈ s → e ∈ w.script) (hn : w.now ≤ n) :
    Same w0 { w with script := s, now := n } :=
  ⟨h.files, h.tmps, h.stamps, h.contacts, h.bad, Nat.le_trans h.now hn, fun e he => h.script e (hs e he)⟩

theorem Same.trans {w0 w1 w2 : World} (h : Same w0 w1) (h' : Same w1 w2) : Same w0 w2 :=
  ⟨h'.files.trans h.files, h'.tmps.trans h.tmps, h'.stamps.trans h.stamps,
    h'.contacts.trans h.contacts, h'.bad.trans h.bad, Nat.le_trans h.now h'.now,
    fun e he => h.script e (h'.script e he)⟩

/-- The exceptions that any operation on the disk may raise, unless all is calm, and the exception
for checksums that are missing. -/
def Err (q S : Prop) (e : Exc) : Prop :=
  (e = .crash ∧ ¬ q) ∨ (∃ b, e = .io b ∧ ¬ q) ∨ (e = .noChecksum ∧ S)

theorem calm_fault {q : Prop} {w : World} (hq : q → Calm w.script) {b : Bool}
    (h : Ev.fault b ∈ w.script) : ¬ q := fun hh => by
  obtain ⟨t, e⟩ := hq hh _ h
  cases e

theorem calm_crash {q : Prop} {w : World} (hq : q → Calm w.script)
    (h : Ev.crash ∈ w.script) : ¬ q := fun hh => by
  obtain ⟨t, e⟩ := hq hh _ h
  cases e

theorem calm_sub {q : Prop} {w : World} {s : List Ev} (hq : q → Calm w.script)
    (h : ∀ e, e ∈ s → e ∈ w.script) : q → Calm s := fun hh e he => hq hh e (h e he)

section
variable {q : Prop} {w0 : World}

theorem tri_io_same (hq : q → Calm w0.script) :
    Tri (Same w0) io (fun _ w => Same w0 w)
      (fun e w => Same w0 w ∧ (e = .crash ∨ ∃ b, e = .io b) ∧ ¬ q) :=
  tri_io (fun _ _ _ h hs hn => h.next hs hn)
    (fun w s b h hs hf => ⟨h.next (n := w.now) hs (Nat.le_refl _), Or.inr ⟨b, rfl⟩,
      calm_fault hq (h.script _ hf)⟩)
    (fun w s h hs hf => ⟨h.next (n := w.now) hs (Nat.le_refl _), Or.inl rfl,
      calm_crash hq (h.script _ hf)⟩)

theorem tri_readFile (hq : q → Calm w0.script) {at' : World → Option File}
    (hat : ∀ w, Same w0 w → at' w = at' w0) :
    Tri (Same w0) (readFile at') (fun d w => Same w0 w ∧ ∃ f, at' w0 = some f ∧ d = f.data)
      (fun e w => Same w0 w ∧ ((e = .crash ∧ ¬ q) ∨ ∃ b, e = .io b ∧ (q → at' w0 = none))) := by
  unfold readFile
  refine tri_bind (R := fun _ w => Same w0 w) ?_ ?_
  · refine tri_conseq (tri_io_same hq) (fun _ h => h) (fun _ _ h => h) ?_
    rintro e w ⟨h, h1 | ⟨b, h1⟩, h2⟩
    · exact ⟨h, Or.inl ⟨h1, h2⟩⟩
    · exact ⟨h, Or.inr ⟨b, h1, fun hh => absurd hh h2⟩⟩
  · intro _
    refine tri_look fun w1 h1 => ?_
    cases hf : at' w1 with
    | none =>
      refine tri_raise ?_
      intro w hw
      subst hw
      exact ⟨h1, Or.inr ⟨false, rfl, fun _ => by rw [← hat w h1, hf]⟩⟩
    | some f =>
      refine tri_pure ?_
      intro w hw
      subst hw
      exact ⟨h1, f, by rw [← hat w h1, hf], rfl⟩

/-- All the checksums of some data. -/
def full (env : Env) (d : Str) (l : List Alg) : Sums := l.map fun a => (a, env.hash a d)

/-- The loaded checksums are those of some data. -/
def TrueFor (env : Env) (pre : Sums) (d : Str) : Prop :=
  ∀ a v, pre.lookup a = some v → v = env.hash a d

theorem trueFor_nil (env : Env) (d : Str) : TrueFor env [] d := fun a v h => by cases h

theorem trueFor_full (env : Env) (d : Str) (l : List Alg) : TrueFor env (full env d l) d := by
  induction l with
  | nil => exact trueFor_nil env d
  | cons b l ih =>
    intro a v h
    unfold full at h
    rw [List.map_cons, List.lookup_cons] at h
    by_cases hab : a = b
    · subst hab
      simp at h
      exact h.symm
    · have : (a == b) = false := by simpa using hab
      rw [this] at h
      exact ih a v h

theorem tri_computeSums (env : Env) (hq : q → Calm w0.script) {at' : World → Option File}
    (hat : ∀ w, Same w0 w → at' w = at' w0) (pre : Sums) (l : List Alg) :
    Tri (Same w0) (computeSums env pre at' l)
      (fun s w => Same w0 w ∧ ∀ f, at' w0 = some f → TrueFor env pre f.data → s = full env f.data l)
      (fun e w => Same w0 w ∧ ((e = .crash ∧ ¬ q) ∨ ∃ b, e = .io b ∧ (q → at' w0 = none))) := by
  induction l with
  | nil => exact tri_pure fun w h => ⟨h, fun _ _ _ => rfl⟩
  | cons a l ih =>
    unfold computeSums
    refine tri_bind (R := fun s w => Same w0 w ∧
      ∀ f, at' w0 = some f → TrueFor env pre f.data → s = env.hash a f.data) ?_ ?_
    · unfold sumOf
      cases hp : pre.lookup a with
      | some s => exact tri_pure fun w h => ⟨h, fun f _ ht => ht a s hp⟩
      | none =>
        refine tri_bind (tri_readFile hq hat) ?_
        intro d
        refine tri_pure ?_
        rintro w ⟨h, f, h1, h2⟩
        refine ⟨h, fun f' h' _ => ?_⟩
        rw [h1] at h'
        cases h'
        rw [h2]
    · intro s
      refine tri_bind (R := fun r w => Same w0 w ∧
        ∀ f, at' w0 = some f → TrueFor env pre f.data →
          s = env.hash a f.data ∧ r = full env f.data l) ?_ ?_
      · intro w hw
        have := ih w hw.1
        refine ⟨fun r w' hr => ⟨(this.1 r w' hr).1, fun f hf ht => ⟨hw.2 f hf ht, ?_⟩⟩, this.2⟩
        exact (this.1 r w' hr).2 f hf ht
      · intro r
        refine tri_pure ?_
        rintro w ⟨h, hh⟩
        refine ⟨h, fun f hf ht => ?_⟩
        obtain ⟨e1, e2⟩ := hh f hf ht
        rw [e1, e2]
        rfl

end

theorem expect_iff (u : Ud) (a : Alg) (s : Str) :
    u.expect a = some s ↔ u.expected a = some s ∧ s ≠ [] := by
  unfold Ud.expect
  by_cases h : u.expected a = some []
  · rw [if_pos h]
    constructor
    · intro e; cases e
    · rintro ⟨e, hn⟩
      rw [h] at e
      cases e
      exact absurd rfl hn
  · rw [if_neg h]
    constructor
    · intro e
      refine ⟨e, fun hs => ?_⟩
      rw [hs] at e
      exact h e
    · exact fun e => e.1

theorem badSum_none (env : Env) (u : Ud) (d : Str) (l : List Alg) (b : Option Str) :
    badSum u (full env d l) b = none ↔
      b = none ∧ ∀ a, a ∈ l → ∀ e, u.expect a = some e → env.hash a d = e := by
  induction l generalizing b with
  | nil => simp [full, badSum]
  | cons a l ih =>
    have : full env d (a :: l) = (a, env.hash a d) :: full env d l := rfl
    rw [this]
    unfold badSum
    cases he : u.expect a with
    | none =>
      dsimp only
      rw [ih]
      constructor
      · rintro ⟨h1, h2⟩
        refine ⟨h1, fun x hx e hxe => ?_⟩
        rcases List.mem_cons.1 hx with rfl | hx
        · rw [he] at hxe; cases hxe
        · exact h2 x hx e hxe
      · rintro ⟨h1, h2⟩
        exact ⟨h1, fun x hx => h2 x (List.mem_cons_of_mem _ hx)⟩
    | some e =>
      dsimp only
      rw [ih]
      by_cases hne : e ≠ env.hash a d
      · rw [if_pos hne]
        constructor
        · rintro ⟨h1, _⟩; cases h1
        · rintro ⟨_, h2⟩
          exact absurd (h2 a List.mem_cons_self e he).symm hne
      · rw [if_neg hne]
        constructor
        · rintro ⟨h1, h2⟩
          refine ⟨h1, fun x hx e' hxe => ?_⟩
          rcases List.mem_cons.1 hx with rfl | hx
          · rw [he] at hxe
            cases hxe
            exact (Classical.not_not.1 hne).symm
          · exact h2 x hx e' hxe
        · rintro ⟨h1, h2⟩
          exact ⟨h1, fun x hx => h2 x (List.mem_cons_of_mem _ hx)⟩

theorem badSum_some (env : Env) (u : Ud) (d : Str) (l : List Alg) (b : Option Str) (s : Str)
    (h : badSum u (full env d l) b = some s) : b = some s ∨ ∃ a, s = env.hash a d := by
  induction l generalizing b with
  | nil => exact Or.inl h
  | cons a l ih =>
    have e : full env d (a :: l) = (a, env.hash a d) :: full env d l := rfl
    rw [e] at h
    unfold badSum at h
    cases he : u.expect a with
    | none =>
      rw [he] at h
      exact ih b h
    | some e =>
      rw [he] at h
      rcases ih _ h with h' | h'
      · by_cases hne : e ≠ env.hash a d
        · rw [if_pos hne] at h'
          cases h'
          exact Or.inr ⟨a, rfl⟩
        · rw [if_neg hne] at h'
          exact Or.inl h'
      · exact Or.inr h'

theorem mem_algs (a : Alg) : a ∈ algs := by cases a <;> decide

theorem badSum_right (env : Env) (u : Ud) (d : Str) :
    badSum u (full env d algs) none = none ↔ Right env u d := by
  rw [badSum_none]
  constructor
  · rintro ⟨_, h⟩ a s hs hn
    exact h a (mem_algs a) s ((expect_iff u a s).2 ⟨hs, hn⟩)
  · intro h
    refine ⟨rfl, fun a _ e he => ?_⟩
    obtain ⟨h1, h2⟩ := (expect_iff u a e).1 he
    exact h a e h1 h2

theorem unsummed_iff (u : Ud) :
    algs.all (fun a => (u.expect a).isNone) = true ↔ Unsummed u := by
  rw [List.all_eq_true]
  constructor
  · intro h a s hs
    have := h a (mem_algs a)
    refine Classical.byContradiction fun hn => ?_
    rw [(expect_iff u a s).2 ⟨hs, hn⟩] at this
    cases this
  · intro h a _
    cases he : u.expect a with
    | none => rfl
    | some s =>
      obtain ⟨h1, h2⟩ := (expect_iff u a s).1 he
      exact absurd (h a s h1) h2

theorem right_of_unsummed (env : Env) {u : Ud} (h : Unsummed u) (d : Str) : Right env u d :=
  fun a s hs hn => absurd (h a s hs) hn

/-- Checksums are demanded and there is none. -/
def Strict (env : Env) (u : Ud) : Prop :=
  env.strict = "1".toList ∧ u.isLocal = false ∧ Unsummed u

section
variable {q : Prop} {w0 : World}

theorem tri_raiseBad (env : Env) (hh : HashOk env) (u : Ud) (sums : Sums)
    (at' : World → Option File) (pre : Sums) (C : Prop) (hC : ¬ C)
    (hs : ∀ f, at' w0 = some f → TrueFor env pre f.data → sums = full env f.data algs) :
    Tri (Same w0) (raiseBad sums (badSum u sums none))
      (fun s w => Same w0 w ∧ ¬ C ∧ ∀ f, at' w0 = some f → TrueFor env pre f.data →
        s = full env f.data algs ∧ Right env u f.data)
      (fun e w => Same w0 w ∧ ∃ c, e = .checksum c ∧
        ∀ f, at' w0 = some f → TrueFor env pre f.data → ¬ Right env u f.data) := by
  cases hb : badSum u sums none with
  | none =>
    refine tri_pure fun w h => ⟨h, hC, fun f hf ht => ?_⟩
    have := hs f hf ht
    refine ⟨this, ?_⟩
    rw [this] at hb
    exact (badSum_right env u f.data).1 hb
  | some s =>
    unfold raiseBad
    refine tri_ite (fun hn => tri_raise fun w h => ⟨h, s, rfl, fun f hf ht hr => ?_⟩)
      (fun hn => tri_pure fun w h => ⟨h, hC, fun f hf ht => ?_⟩)
    · have := hs f hf ht
      rw [this, (badSum_right env u f.data).2 hr] at hb
      cases hb
    · have := hs f hf ht
      rw [this] at hb
      rcases badSum_some env u f.data algs none s hb with h' | ⟨a, h'⟩
      · cases h'
      · exact absurd (Classical.not_not.1 hn) (h' ▸ hh a f.data)

theorem tri_verifyChecksum (env : Env) (hh : HashOk env) (hq : q → Calm w0.script) (u : Ud)
    (hu : u.ignore = false) {at' : World → Option File}
    (hat : ∀ w, Same w0 w → at' w = at' w0) (pre : Sums) (fatal : Bool) :
    Tri (Same w0) (verifyChecksum env u pre at' fatal)
      (fun s w => Same w0 w ∧ ¬ (fatal = true ∧ Strict env u) ∧
        ∀ f, at' w0 = some f → TrueFor env pre f.data →
          s = full env f.data algs ∧ Right env u f.data)
      (fun e w => Same w0 w ∧ ((e = .crash ∧ ¬ q) ∨ (∃ b, e = .io b ∧ (q → at' w0 = none)) ∨
        (e = .noChecksum ∧ fatal = true ∧ Strict env u) ∨
        ∃ c, e = .checksum c ∧
          ∀ f, at' w0 = some f → TrueFor env pre f.data → ¬ Right env u f.data)) := by
  unfold verifyChecksum
  rw [if_neg (by rw [hu]; decide)]
  refine tri_bind (R := fun s w => Same w0 w ∧
    ∀ f, at' w0 = some f → TrueFor env pre f.data → s = full env f.data algs) ?_ ?_
  · refine tri_conseq (tri_computeSums env hq hat pre algs) (fun _ h => h) (fun _ _ h => h) ?_
    rintro e w ⟨h, h1 | h1⟩
    · exact ⟨h, Or.inl h1⟩
    · exact ⟨h, Or.inr (Or.inl h1)⟩
  · intro sums w hw
    have key' := fun hC : ¬ (fatal = true ∧ Strict env u) =>
      tri_conseq (P := Same w0) (tri_raiseBad (w0 := w0) env hh u sums at' pre _ hC hw.2)
        (fun _ h => h) (fun _ _ h => h)
        (E := fun e w => Same w0 w ∧ ((e = .crash ∧ ¬ q) ∨ (∃ b, e = .io b ∧ (q → at' w0 = none)) ∨
          (e = .noChecksum ∧ fatal = true ∧ Strict env u) ∨
          ∃ c, e = .checksum c ∧
            ∀ f, at' w0 = some f → TrueFor env pre f.data → ¬ Right env u f.data))
        (fun _ _ h => ⟨h.1, Or.inr (Or.inr (Or.inr h.2))⟩) w hw.1
    by_cases hc : (fatal && u.recommends && algs.all (fun a => (u.expect a).isNone)) = true
    · rw [if_pos hc]
      simp only [Bool.and_eq_true] at hc
      obtain ⟨⟨hf, hr⟩, ha⟩ := hc
      have hr' : u.isLocal = false := by
        unfold Ud.recommends at hr
        cases hl : u.isLocal with
        | false => rfl
        | true => rw [hl] at hr; cases hr
      have hun := (unsummed_iff u).1 ha
      by_cases h1 : env.strict = "1".toList
      · rw [if_pos h1]
        refine ⟨fun a w' e => (by cases e), fun e w' he => ?_⟩
        cases he
        exact ⟨hw.1, Or.inr (Or.inr (Or.inl ⟨rfl, hf, h1, hr', hun⟩))⟩
      · rw [if_neg h1]
        have hC : ¬ (fatal = true ∧ Strict env u) := fun h => h1 h.2.1
        by_cases h2 : env.strict = "ignore".toList
        · rw [if_pos h2]
          refine ⟨fun a w' e => ?_, fun e w' he => (by cases he)⟩
          cases e
          exact ⟨hw.1, hC, fun f hf' ht => ⟨hw.2 f hf' ht, right_of_unsummed env hun _⟩⟩
        · rw [if_neg h2]
          exact key' hC
    · rw [if_neg hc]
      refine key' ?_
      rintro ⟨h1, h2, h3, h4⟩
      refine hc ?_
      rw [h1, (unsummed_iff u).2 h4]
      unfold Ud.recommends
      rw [h3]
      rfl

theorem tri_verifyIgnored (env : Env) (u : Ud) (hu : u.ignore = true) {at' : World → Option File}
    (pre : Sums) (fatal : Bool) {E : Exc → World → Prop} :
    Tri (Same w0) (verifyChecksum env u pre at' fatal) (fun s w => Same w0 w ∧ s = []) E := by
  unfold verifyChecksum
  rw [if_pos hu]
  exact tri_pure fun w h => ⟨h, rfl⟩

end

end Bb.Fetch
