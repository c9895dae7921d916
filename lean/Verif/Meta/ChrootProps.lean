import Verif.Meta.ChrootModel
/-!
# Properties of what prevents daemons in the root file system
-/

namespace Meta.Chroot

namespace Spec

/-- A root file system as it is unpacked: start-stop-daemon is there, there is no policy for services, no names with ".REAL" and no
diversions of the three names. -/
structure Fresh (s : State) : Prop where
  ssd : (get s { dir := .sbin, name := .ssd }).isSome = true
  noPolicy : ∀ d r, s.files { dir := d, name := .policy, real := r } = none
  noRealSsd : ∀ d, s.files { dir := d, name := .ssd, real := true } = none
  noRealInitctl : ∀ d, s.files { dir := d, name := .initctl, real := true } = none
  noDivert : ∀ p ∈ s.db, ∃ n, p.name = .other n

/-- A file of a package that does not get in the way: it has another name, or it is start-stop-daemon or initctl under the name that
is diverted, which is /sbin. -/
def Allowed (x : Path × File) : Prop :=
  (∃ n, x.1.name = .other n) ∨ (x.1.name = .ssd ∧ x.1.dir = .sbin ∧ x.1.real = false) ∨
    (x.1.name = .initctl ∧ x.1.dir = .sbin ∧ x.1.real = false ∧ x.2.exec = true)

end Spec

theorem canon_name (m : Bool) (p : Path) : (canon m p).name = p.name ∧ (canon m p).real = p.real := by
  unfold canon; split <;> exact ⟨rfl, rfl⟩

theorem canon_ne_name {m : Bool} {p q : Path} (h : p.name ≠ q.name) : canon m p ≠ canon m q := by
  intro he
  have := congrArg Path.name he
  rw [(canon_name m p).1, (canon_name m q).1] at this
  exact h this

theorem canon_ne_real {m : Bool} {p q : Path} (h : p.real ≠ q.real) : canon m p ≠ canon m q := by
  intro he
  have := congrArg Path.real he
  rw [(canon_name m p).2, (canon_name m q).2] at this
  exact h this

theorem get_put_same (s : State) (p : Path) (v : Option File) : get (put s p v) p = v := by simp [get, put]

theorem get_put_name (s : State) {p q : Path} (v : Option File) (h : q.name ≠ p.name) : get (put s p v) q = get s q := by
  simp [get, put, canon_ne_name h]

theorem get_put_real (s : State) {p q : Path} (v : Option File) (h : q.real ≠ p.real) : get (put s p v) q = get s q := by
  simp [get, put, canon_ne_real h]

/-- With the setup done (`s`) and without (`t`), given whether initctl is diverted. -/
structure Rel (di : Bool) (s t : State) : Prop where
  merged : s.merged = t.merged
  db : s.db = (if di then [initctl, ssd] else [ssd]) ++ t.db
  others : ∀ q : Path, (∃ n, q.name = .other n) → s.files q = t.files q
  policyS : ∀ q : Path, q.name = .policy → q ≠ canon t.merged policy → s.files q = t.files q
  policyT : ∀ q : Path, q.name = .policy → t.files q = none
  ssdS : ∀ q : Path, q.name = .ssd → q ≠ canon t.merged ssd → q ≠ canon t.merged ssd.toReal → s.files q = t.files q
  ssdReal : s.files (canon t.merged ssd.toReal) = t.files (canon t.merged ssd)
  ssdThere : (t.files (canon t.merged ssd)).isSome = true
  ssdT : t.files (canon t.merged ssd.toReal) = none
  iniS : ∀ q : Path, q.name = .initctl → (di = true → q ≠ canon t.merged initctl ∧ q ≠ canon t.merged initctl.toReal) → s.files q = t.files q
  iniReal : di = true → s.files (canon t.merged initctl.toReal) = t.files (canon t.merged initctl) ∧ isExec (t.files (canon t.merged initctl)) = true
  iniT : t.files (canon t.merged initctl.toReal) = none
  noDivert : ∀ p ∈ t.db, ∃ n, p.name = .other n

theorem divertAdd_new (s : State) (p : Path) (f : File) (hd : p ∉ s.db) (hf : get s p = some f) (hr : get s p.toReal = none) :
    divertAdd s p = some { put (put s p.toReal (some f)) p none with db := p :: s.db } := by
  unfold divertAdd
  rw [if_neg hd, if_neg (by simp [hr]), hf]

theorem ssd_canon_real (m : Bool) : canon m ssd.toReal ≠ canon m ssd := canon_ne_real (by decide)
theorem ini_canon_real (m : Bool) : canon m initctl.toReal ≠ canon m initctl := canon_ne_real (by decide)

/-- The setup succeeds on what is unpacked. -/
theorem setup_rel (t : State) (h : Spec.Fresh t) : ∃ di s, setup t = some s ∧ Rel di s t := by
  obtain ⟨h1, h2, h3, h4, h5⟩ := h
  have hp : get t policySbin = none := by
    unfold get
    obtain ⟨d, hd⟩ : ∃ d, canon t.merged policySbin = { dir := d, name := .policy, real := false } := by
      unfold canon policySbin; split <;> exact ⟨_, rfl⟩
    rw [hd]; exact h2 d false
  have e1 : setupPolicy t = some (put t policy (some (fake .policy))) := by
    unfold setupPolicy; rw [hp]; rfl
  obtain ⟨fs, hfs⟩ : ∃ f, get t ssd = some f := Option.isSome_iff_exists.mp h1
  have hr : get t ssd.toReal = none := by
    unfold get
    obtain ⟨d, hd⟩ : ∃ d, canon t.merged ssd.toReal = { dir := d, name := .ssd, real := true } := by
      unfold canon ssd Path.toReal; split <;> exact ⟨_, rfl⟩
    rw [hd]; exact h3 d
  have hri : get t initctl.toReal = none := by
    unfold get
    obtain ⟨d, hd⟩ : ∃ d, canon t.merged initctl.toReal = { dir := d, name := .initctl, real := true } := by
      unfold canon initctl Path.toReal; split <;> exact ⟨_, rfl⟩
    rw [hd]; exact h4 d
  have hnd : ∀ p : Path, (∀ n, p.name ≠ .other n) → p ∉ t.db := by
    intro p hp hm
    obtain ⟨n, hn⟩ := h5 p hm
    exact hp n hn
  let s1 := put t policy (some (fake .policy))
  let s2 := put { put (put s1 ssd.toReal (some fs)) ssd none with db := ssd :: t.db } ssd (some (fake .ssd))
  have e2 : setupSsd s1 = some s2 := by
    unfold setupSsd
    have a1 : get s1 ssd = some fs := by rw [get_put_name _ _ (by decide), hfs]
    rw [a1]
    have := divertAdd_new s1 ssd fs (hnd ssd (fun _ h => nomatch h)) a1 (by rw [get_put_name _ _ (by decide), hr])
    simp only [Option.isSome_some, if_true]
    rw [this]
    rfl
  have g2 : ∀ q : Path, q.name = .initctl → get s2 q = get t q := by
    intro q hq
    show get (put _ _ _) q = _
    rw [get_put_name _ _ (by rw [hq]; decide)]
    show get (put (put s1 ssd.toReal (some fs)) ssd none) q = _
    rw [get_put_name _ _ (by rw [hq]; decide), get_put_name _ _ (by rw [hq]; decide), get_put_name _ _ (by rw [hq]; decide)]
  have base : setup t = setupInitctl s2 := by
    unfold setup; rw [e1]; show (setupSsd s1).bind setupInitctl = _; rw [e2]; rfl
  have n1 : ∀ m, canon m policy ≠ canon m ssd := fun m => canon_ne_name (by decide)
  cases hi : isExec (get t initctl) with
  | false =>
    refine ⟨false, s2, ?_, ?_⟩
    · rw [base]; unfold setupInitctl; rw [g2 _ rfl, hi]; rfl
    · refine ⟨rfl, rfl, ?_, ?_, ?_, ?_, ?_, ?_, hr, ?_, by simp, hri, h5⟩
      · rintro q ⟨n, hn⟩
        have : ∀ p : Path, (∀ n, p.name ≠ .other n) → q ≠ canon t.merged p := by
          intro p hp he; rw [he, (canon_name _ _).1] at hn; exact hp n hn
        simp [s2, s1, put, this ssd (fun _ h => nomatch h), this ssd.toReal (fun _ h => nomatch h), this policy (fun _ h => nomatch h)]
      · intro q hq hne
        have : ∀ p : Path, p.name ≠ .policy → q ≠ canon t.merged p := by
          intro p hp he; rw [he, (canon_name _ _).1] at hq; exact hp hq
        simp [s2, s1, put, this ssd (by decide), this ssd.toReal (by decide), hne]
      · rintro ⟨d, n, r⟩ hq; cases hq; exact h2 d r
      · intro q hq n1 n2
        have : ∀ p : Path, p.name ≠ .ssd → q ≠ canon t.merged p := by
          intro p hp he; rw [he, (canon_name _ _).1] at hq; exact hp hq
        simp [s2, s1, put, n1, n2, this policy (by decide)]
      · have := ssd_canon_real t.merged
        simp [s2, s1, put, this]
        exact hfs.symm
      · show (get t ssd).isSome = true; rw [hfs]; rfl
      · intro q hq _
        have : ∀ p : Path, p.name ≠ .initctl → q ≠ canon t.merged p := by
          intro p hp he; rw [he, (canon_name _ _).1] at hq; exact hp hq
        simp [s2, s1, put, this ssd (by decide), this ssd.toReal (by decide), this policy (by decide)]
  | true =>
    obtain ⟨fi, hfi⟩ : ∃ f, get t initctl = some f := by
      cases hg : get t initctl with
      | none => rw [hg] at hi; cases hi
      | some f => exact ⟨f, rfl⟩
    let s3 := put { put (put s2 initctl.toReal (some fi)) initctl none with db := initctl :: s2.db } initctl (some (fake .initctl))
    refine ⟨true, s3, ?_, ?_⟩
    · rw [base]
      unfold setupInitctl
      rw [g2 _ rfl, hi, if_pos rfl]
      have := divertAdd_new s2 initctl fi (by
        show initctl ∉ ssd :: t.db
        intro hm
        rcases List.mem_cons.mp hm with he | hm
        · exact absurd he (by decide)
        · exact hnd initctl (fun _ h => nomatch h) hm) (by rw [g2 _ rfl, hfi]) (by rw [g2 _ rfl, hri])
      rw [this]
      rfl
    · refine ⟨rfl, rfl, ?_, ?_, ?_, ?_, ?_, ?_, hr, ?_, ?_, hri, h5⟩
      · rintro q ⟨n, hn⟩
        have : ∀ p : Path, (∀ n, p.name ≠ .other n) → q ≠ canon t.merged p := by
          intro p hp he; rw [he, (canon_name _ _).1] at hn; exact hp n hn
        simp [s3, s2, s1, put, this ssd (fun _ h => nomatch h), this ssd.toReal (fun _ h => nomatch h), this policy (fun _ h => nomatch h), this initctl (fun _ h => nomatch h),
          this initctl.toReal (fun _ h => nomatch h)]
      · intro q hq hne
        have : ∀ p : Path, p.name ≠ .policy → q ≠ canon t.merged p := by
          intro p hp he; rw [he, (canon_name _ _).1] at hq; exact hp hq
        simp [s3, s2, s1, put, this ssd (by decide), this ssd.toReal (by decide), this initctl (by decide), this initctl.toReal (by decide), hne]
      · rintro ⟨d, n, r⟩ hq; cases hq; exact h2 d r
      · intro q hq n1 n2
        have : ∀ p : Path, p.name ≠ .ssd → q ≠ canon t.merged p := by
          intro p hp he; rw [he, (canon_name _ _).1] at hq; exact hp hq
        simp [s3, s2, s1, put, n1, n2, this policy (by decide), this initctl (by decide), this initctl.toReal (by decide)]
      · have a1 := ssd_canon_real t.merged
        have a2 : canon t.merged ssd.toReal ≠ canon t.merged initctl := canon_ne_name (by decide)
        have a3 : canon t.merged ssd.toReal ≠ canon t.merged initctl.toReal := canon_ne_name (by decide)
        simp [s3, s2, s1, put, a1, a2, a3]
        exact hfs.symm
      · show (get t ssd).isSome = true; rw [hfs]; rfl
      · intro q hq hne
        have : ∀ p : Path, p.name ≠ .initctl → q ≠ canon t.merged p := by
          intro p hp he; rw [he, (canon_name _ _).1] at hq; exact hp hq
        simp [s3, s2, s1, put, this ssd (by decide), this ssd.toReal (by decide), this policy (by decide), (hne rfl).1, (hne rfl).2]
      · intro _
        have a1 := ini_canon_real t.merged
        refine ⟨?_, hi⟩
        simp [s3, s2, s1, put, a1]
        exact hfi.symm

theorem mem_db {di : Bool} {s t : State} (h : Rel di s t) (p : Path) (hp : ∃ n, p.name = .other n) : p ∈ s.db ↔ p ∈ t.db := by
  obtain ⟨n, hn⟩ := hp
  rw [h.db]
  constructor
  · intro hm
    rcases List.mem_append.mp hm with hm | hm
    · exfalso
      cases di <;> simp [ssd, initctl] at hm
      · rw [hm] at hn; cases hn
      · rcases hm with hm | hm <;> (rw [hm] at hn; cases hn)
    · exact hm
  · exact fun hm => List.mem_append.mpr (Or.inr hm)

theorem ssd_mem {di : Bool} {s t : State} (h : Rel di s t) : ssd ∈ s.db ∧ ssd ∉ t.db := by
  refine ⟨?_, fun hm => ?_⟩
  · rw [h.db]; cases di <;> simp
  · obtain ⟨n, hn⟩ := h.noDivert _ hm; cases hn

theorem ini_mem {di : Bool} {s t : State} (h : Rel di s t) : (initctl ∈ s.db ↔ di = true) ∧ initctl ∉ t.db := by
  have : initctl ∉ t.db := fun hm => by obtain ⟨n, hn⟩ := h.noDivert _ hm; cases hn
  refine ⟨?_, this⟩
  rw [h.db]
  cases di with
  | true => simp
  | false =>
    simp [this]
    decide

theorem unpack_rel {di : Bool} {s t : State} (h : Rel di s t) (x : Path × File) (hx : Spec.Allowed x) : Rel di (unpack s x) (unpack t x) := by
  obtain ⟨p, f⟩ := x
  have hm := h.merged
  rcases hx with hx | ⟨hn, hd, hr⟩ | ⟨hn, hd, hr, he⟩
  · have hmem := mem_db h p hx
    obtain ⟨n, hn⟩ := hx
    simp only at hn
    unfold unpack
    simp only [hmem]
    generalize hp : (if p ∈ t.db then p.toReal else p) = p'
    have hn' : p'.name = .other n := by
      rw [← hp]; split <;> exact hn
    have hne : ∀ q : Path, q.name ≠ .other n → canon t.merged q ≠ canon t.merged p' := fun q hq => canon_ne_name (by rw [hn']; exact hq)
    have hq : ∀ q : Path, q.name ≠ .other n → q ≠ canon t.merged p' := by
      intro q hq he; rw [he, (canon_name _ _).1] at hq; exact hq hn'
    refine ⟨hm, h.db, ?_, ?_, ?_, ?_, ?_, ?_, ?_, ?_, ?_, ?_, h.noDivert⟩
    · intro q hq; simp only [put, hm]; rw [h.others q hq]
    · intro q hq' hne'; simp only [put, hm]; rw [h.policyS q hq' hne']
    · intro q hq'; simp only [put]; rw [if_neg (hq q (by rw [hq']; exact fun h => nomatch h))]; exact h.policyT q hq'
    · intro q hq' h1 h2; simp only [put, hm]; rw [h.ssdS q hq' h1 h2]
    · simp only [put, hm]; rw [if_neg (hne ssd.toReal (fun h => nomatch h)), if_neg (hne ssd (fun h => nomatch h))]; exact h.ssdReal
    · simp only [put]; rw [if_neg (hne ssd (fun h => nomatch h))]; exact h.ssdThere
    · simp only [put]; rw [if_neg (hne ssd.toReal (fun h => nomatch h))]; exact h.ssdT
    · intro q hq' h1; simp only [put, hm]; rw [h.iniS q hq' h1]
    · intro hdi; simp only [put, hm]; rw [if_neg (hne initctl.toReal (fun h => nomatch h)), if_neg (hne initctl (fun h => nomatch h))]; exact h.iniReal hdi
    · simp only [put]; rw [if_neg (hne initctl.toReal (fun h => nomatch h))]; exact h.iniT
  · obtain rfl : p = ssd := by
      obtain ⟨d, n, r⟩ := p; simp only at hn hd hr; subst hn hd hr; rfl
    unfold unpack
    simp only [(ssd_mem h).1, (ssd_mem h).2, if_true, if_false]
    have c1 := ssd_canon_real t.merged
    have c2 : canon t.merged initctl ≠ canon t.merged ssd := canon_ne_name (by decide)
    have c3 : canon t.merged initctl.toReal ≠ canon t.merged ssd := canon_ne_name (by decide)
    have c4 : canon t.merged initctl.toReal ≠ canon t.merged ssd.toReal := canon_ne_name (by decide)
    have c5 : ∀ q : Path, q.name ≠ .ssd → q ≠ canon t.merged ssd ∧ q ≠ canon t.merged ssd.toReal := by
      intro q hq
      exact ⟨fun he => by rw [he, (canon_name _ _).1] at hq; exact hq rfl, fun he => by rw [he, (canon_name _ _).1] at hq; exact hq rfl⟩
    refine ⟨hm, h.db, ?_, ?_, ?_, ?_, ?_, ?_, ?_, ?_, ?_, ?_, h.noDivert⟩
    · rintro q ⟨n, hq⟩; obtain ⟨e1, e2⟩ := c5 q (by rw [hq]; exact fun h => nomatch h); simp only [put, hm]; rw [if_neg e1, if_neg e2]; exact h.others q ⟨n, hq⟩
    · intro q hq hne; obtain ⟨e1, e2⟩ := c5 q (by rw [hq]; exact fun h => nomatch h); simp only [put, hm]; rw [if_neg e1, if_neg e2]; exact h.policyS q hq hne
    · intro q hq; obtain ⟨e1, e2⟩ := c5 q (by rw [hq]; exact fun h => nomatch h); simp only [put]; rw [if_neg e1]; exact h.policyT q hq
    · intro q hq h1 h2; simp only [put, hm] at h1 h2 ⊢; rw [if_neg h1, if_neg h2]; exact h.ssdS q hq h1 h2
    · simp [put, hm]
    · simp [put]
    · simp only [put]; rw [if_neg c1]; exact h.ssdT
    · intro q hq h1; obtain ⟨e1, e2⟩ := c5 q (by rw [hq]; exact fun h => nomatch h); simp only [put, hm]; rw [if_neg e1, if_neg e2]; exact h.iniS q hq h1
    · intro hdi; simp only [put, hm]; rw [if_neg c4, if_neg c2]; exact h.iniReal hdi
    · simp only [put]; rw [if_neg c3]; exact h.iniT
  · obtain rfl : p = initctl := by
      obtain ⟨d, n, r⟩ := p; simp only at hn hd hr; subst hn hd hr; rfl
    have c1 := ini_canon_real t.merged
    have c5 : ∀ q : Path, q.name ≠ .initctl → q ≠ canon t.merged initctl ∧ q ≠ canon t.merged initctl.toReal := by
      intro q hq
      exact ⟨fun he => by rw [he, (canon_name _ _).1] at hq; exact hq rfl, fun he => by rw [he, (canon_name _ _).1] at hq; exact hq rfl⟩
    have k1 := c5 (canon t.merged ssd) (by rw [(canon_name _ _).1]; decide)
    have k2 := c5 (canon t.merged ssd.toReal) (by rw [(canon_name _ _).1]; decide)
    unfold unpack
    simp only [(ini_mem h).1, (ini_mem h).2, if_false]
    cases di with
    | true =>
      simp only [if_true]
      refine ⟨hm, h.db, ?_, ?_, ?_, ?_, ?_, ?_, ?_, ?_, ?_, ?_, h.noDivert⟩
      · rintro q ⟨n, hq⟩; obtain ⟨e1, e2⟩ := c5 q (by rw [hq]; exact fun h => nomatch h); simp only [put, hm]; rw [if_neg e1, if_neg e2]; exact h.others q ⟨n, hq⟩
      · intro q hq hne; obtain ⟨e1, e2⟩ := c5 q (by rw [hq]; exact fun h => nomatch h); simp only [put, hm]; rw [if_neg e1, if_neg e2]; exact h.policyS q hq hne
      · intro q hq; obtain ⟨e1, e2⟩ := c5 q (by rw [hq]; exact fun h => nomatch h); simp only [put]; rw [if_neg e1]; exact h.policyT q hq
      · intro q hq h1 h2; obtain ⟨e1, e2⟩ := c5 q (by rw [hq]; exact fun h => nomatch h); simp only [put, hm]; rw [if_neg e1, if_neg e2]; exact h.ssdS q hq h1 h2
      · simp only [put, hm]; rw [if_neg k2.2, if_neg k1.1]; exact h.ssdReal
      · simp only [put]; rw [if_neg k1.1]; exact h.ssdThere
      · simp only [put]; rw [if_neg k2.1]; exact h.ssdT
      · intro q hq h1; have h1' := h1 rfl; simp only [put, hm] at h1' ⊢; rw [if_neg h1'.1, if_neg h1'.2]; exact h.iniS q hq (fun _ => h1')
      · intro _; simp [put, hm, isExec]; exact he
      · simp only [put]; rw [if_neg c1]; exact h.iniT
    | false =>
      simp only [Bool.false_eq_true, if_false]
      refine ⟨hm, h.db, ?_, ?_, ?_, ?_, ?_, ?_, ?_, ?_, ?_, ?_, h.noDivert⟩
      · rintro q ⟨n, hq⟩; simp only [put, hm]; rw [h.others q ⟨n, hq⟩]
      · intro q hq hne; simp only [put, hm]; rw [h.policyS q hq hne]
      · intro q hq; obtain ⟨e1, e2⟩ := c5 q (by rw [hq]; exact fun h => nomatch h); simp only [put]; rw [if_neg e1]; exact h.policyT q hq
      · intro q hq h1 h2; simp only [put, hm]; rw [h.ssdS q hq h1 h2]
      · simp only [put, hm]; rw [if_neg k2.1, if_neg k1.1]; exact h.ssdReal
      · simp only [put]; rw [if_neg k1.1]; exact h.ssdThere
      · simp only [put]; rw [if_neg k2.1]; exact h.ssdT
      · intro q hq h1; simp only [put, hm]; rw [h.iniS q hq (by simp)]
      · intro hdi; cases hdi
      · simp only [put]; rw [if_neg c1]; exact h.iniT

theorem unpackAll_rel (xs : List (Path × File)) : ∀ {di : Bool} {s t : State}, Rel di s t → (∀ x ∈ xs, Spec.Allowed x) →
    Rel di (unpackAll s xs) (unpackAll t xs) := by
  induction xs with
  | nil => intro di s t h _; exact h
  | cons x xs ih => intro di s t h hx; exact ih (unpack_rel h x (hx x (by simp))) (fun y hy => hx y (by simp [hy]))

theorem policy_notin {di : Bool} {s t : State} (h : Rel di s t) : policy ∉ s.db := by
  rw [h.db]
  intro hm
  rcases List.mem_append.mp hm with hm | hm
  · cases di <;> revert hm <;> decide
  · obtain ⟨n, hn⟩ := h.noDivert _ hm; cases hn

theorem state_ext {s t : State} (h1 : s.merged = t.merged) (h2 : ∀ q, s.files q = t.files q) (h3 : s.db = t.db) : s = t := by
  obtain ⟨m, f, d⟩ := s
  obtain ⟨m', f', d'⟩ := t
  simp only at h1 h2 h3
  obtain rfl := h1
  obtain rfl := h3
  obtain rfl : f = f' := funext h2
  rfl

/-- The cleanup removes exactly what the setup did. -/
theorem cleanup_rel {di : Bool} {s t : State} (h : Rel di s t) : cleanup s = t := by
  have hm := h.merged
  have e1 : undivert s policy = put s policy none := by
    have hn := policy_notin h
    unfold undivert divertRemove
    exact if_neg hn
  obtain ⟨fs, hfs⟩ := Option.isSome_iff_exists.mp h.ssdThere
  let s1 := put s policy none
  have g1 : get (put s1 ssd none) ssd.toReal = some fs := by
    rw [get_put_real _ _ (by decide), get_put_name _ _ (by decide)]
    show s.files (canon s.merged ssd.toReal) = _
    rw [hm, h.ssdReal, hfs]
  let s2 : State := { put (put (put s1 ssd none) ssd (some fs)) ssd.toReal none with db := s.db.erase ssd }
  have e2 : undivert s1 ssd = s2 := by
    unfold undivert divertRemove
    rw [if_pos (show ssd ∈ (put s1 ssd none).db from (ssd_mem h).1), g1]
    rfl
  have g2 : ∀ q : Path, q.name = .initctl → get s2 q = get s q := by
    intro q hq
    show get (put (put (put s1 ssd none) ssd (some fs)) ssd.toReal none) q = _
    rw [get_put_name _ _ (by rw [hq]; decide), get_put_name _ _ (by rw [hq]; decide), get_put_name _ _ (by rw [hq]; decide),
      get_put_name _ _ (by rw [hq]; decide)]
  have base : cleanup s = cleanupInitctl s2 := by unfold cleanup; rw [e1, e2]
  rw [base]
  have c1 := ssd_canon_real t.merged
  have f2 : ∀ q : Path, q.name ≠ .initctl → s2.files q = t.files q := by
    intro q hq
    simp only [s2, s1, put, hm]
    by_cases k1 : q = canon t.merged ssd.toReal
    · rw [if_pos k1, k1, h.ssdT]
    · rw [if_neg k1]
      by_cases k2 : q = canon t.merged ssd
      · rw [if_pos k2, k2, hfs]
      · rw [if_neg k2, if_neg k2]
        by_cases k3 : q = canon t.merged policy
        · rw [if_pos k3]; exact (h.policyT q (by rw [k3, (canon_name _ _).1]; rfl)).symm
        · rw [if_neg k3]
          cases hn : q.name with
          | policy => exact h.policyS q hn k3
          | ssd => exact h.ssdS q hn k2 k1
          | initctl => exact absurd hn hq
          | other n => exact h.others q ⟨n, hn⟩
  have gi : get s initctl.toReal = s.files (canon t.merged initctl.toReal) := by unfold get; rw [hm]
  cases hdi : di with
  | false =>
    subst hdi
    have gn : get s2 initctl.toReal = none := by
      rw [g2 _ rfl, gi, h.iniS _ (by rw [(canon_name _ _).1]; rfl) (by simp), h.iniT]
    have : cleanupInitctl s2 = s2 := by unfold cleanupInitctl; rw [gn]; rfl
    rw [this]
    refine state_ext hm ?_ ?_
    · intro q
      by_cases hq : q.name = .initctl
      · have k1 : q ≠ canon t.merged ssd.toReal := by intro he; rw [he, (canon_name _ _).1] at hq; cases hq
        have k2 : q ≠ canon t.merged ssd := by intro he; rw [he, (canon_name _ _).1] at hq; cases hq
        have k3 : q ≠ canon t.merged policy := by intro he; rw [he, (canon_name _ _).1] at hq; cases hq
        simp only [s2, s1, put, hm]
        rw [if_neg k1, if_neg k2, if_neg k2, if_neg k3]
        exact h.iniS q hq (by simp)
      · exact f2 q hq
    · show s.db.erase ssd = t.db
      rw [h.db]
      simp
  | true =>
    subst hdi
    obtain ⟨r1, r2⟩ := h.iniReal rfl
    obtain ⟨fi, hfi⟩ : ∃ f, t.files (canon t.merged initctl) = some f := by
      cases hg : t.files (canon t.merged initctl) with
      | none => rw [hg] at r2; cases r2
      | some f => exact ⟨f, rfl⟩
    have gn : get s2 initctl.toReal = some fi := by rw [g2 _ rfl, gi, r1, hfi]
    have hx : isExec (get s2 initctl.toReal) = true := by rw [gn, ← hfi]; exact r2
    have g3 : get (put s2 initctl none) initctl.toReal = some fi := by rw [get_put_real _ _ (by decide), gn]
    have hin : initctl ∈ (put s2 initctl none).db := by
      show initctl ∈ s.db.erase ssd
      rw [h.db]
      simp [show (initctl == ssd) = false from by decide]
    have : cleanupInitctl s2 = { put (put (put s2 initctl none) initctl (some fi)) initctl.toReal none with db := (s.db.erase ssd).erase initctl } := by
      unfold cleanupInitctl
      rw [hx, if_pos rfl]
      unfold undivert divertRemove
      rw [if_pos hin, g3]
      rfl
    rw [this]
    refine state_ext hm ?_ ?_
    · intro q
      have m2 : s2.merged = t.merged := hm
      simp only [put, m2]
      by_cases k1 : q = canon t.merged initctl.toReal
      · rw [if_pos k1, k1, h.iniT]
      · rw [if_neg k1]
        by_cases k2 : q = canon t.merged initctl
        · rw [if_pos k2, k2, hfi]
        · rw [if_neg k2, if_neg k2]
          by_cases hq : q.name = .initctl
          · have j1 : q ≠ canon t.merged ssd.toReal := by intro he; rw [he, (canon_name _ _).1] at hq; cases hq
            have j2 : q ≠ canon t.merged ssd := by intro he; rw [he, (canon_name _ _).1] at hq; cases hq
            have j3 : q ≠ canon t.merged policy := by intro he; rw [he, (canon_name _ _).1] at hq; cases hq
            simp only [s2, s1, put, hm]
            rw [if_neg j1, if_neg j2, if_neg j2, if_neg j3]
            exact h.iniS q hq (fun _ => ⟨k2, k1⟩)
          · exact f2 q hq
    · show (s.db.erase ssd).erase initctl = t.db
      rw [h.db]
      simp [show (initctl == ssd) = false from by decide]

/-- C244 (partial). If the root file system is set up, packages are unpacked that have start-stop-daemon and initctl under the names that
are diverted, and the root file system is cleaned up, it is the same as if the packages had been unpacked without all this. -/
theorem clean_partial (t : State) (h : Spec.Fresh t) (xs : List (Path × File)) (hx : ∀ x ∈ xs, Spec.Allowed x) :
    ∃ s, setup t = some s ∧ cleanup (unpackAll s xs) = unpackAll t xs := by
  obtain ⟨di, s, hs, hr⟩ := setup_rel t h
  exact ⟨s, hs, cleanup_rel (unpackAll_rel xs hr hx)⟩

/-- C244. In between, start-stop-daemon and the policy are those that do nothing, whatever packages are unpacked. -/
theorem prevented_partial (t s : State) (h : Spec.Fresh t) (hs : setup t = some s) (xs : List (Path × File))
    (hx : ∀ x ∈ xs, (x.1.name = .ssd ∧ x.1 = ssd) ∨ ∃ n, x.1.name = .other n) :
    get (unpackAll s xs) ssd = some (fake .ssd) ∧ get (unpackAll s xs) policy = some (fake .policy) := by
  have start : get s ssd = some (fake .ssd) ∧ get s policy = some (fake .policy) := by
    unfold setup at hs
    cases h1 : setupPolicy t with
    | none => rw [h1] at hs; cases hs
    | some a =>
      rw [h1] at hs
      have ga : get a policy = some (fake .policy) := by
        unfold setupPolicy at h1
        obtain ⟨b, -, rfl⟩ := Option.map_eq_some_iff.mp h1
        exact get_put_same _ _ _
      simp only [Option.bind_some] at hs
      cases h2 : setupSsd a with
      | none => rw [h2] at hs; cases hs
      | some b =>
        rw [h2] at hs
        have divKeep : ∀ (x y : State) (p q : Path), q.name ≠ p.name → divertAdd x p = some y → get y q = get x q := by
          intro x y p q hq hd
          unfold divertAdd at hd
          split at hd
          · cases hd; rfl
          · split at hd
            · cases hd
            · split at hd
              · cases hd
                show get (put (put x p.toReal _) p none) q = _
                rw [get_put_name _ _ hq, get_put_name x (p := p.toReal) _ (by exact hq)]
              · cases hd; rfl
        have gb : get b ssd = some (fake .ssd) ∧ get b policy = some (fake .policy) := by
          unfold setupSsd at h2
          obtain ⟨c, hc, rfl⟩ := Option.map_eq_some_iff.mp h2
          refine ⟨get_put_same _ _ _, ?_⟩
          rw [get_put_name _ _ (by decide)]
          split at hc
          · rw [divKeep a c ssd policy (by decide) hc, ga]
          · cases hc; exact ga
        simp only [Option.bind_some] at hs
        unfold setupInitctl at hs
        split at hs
        · obtain ⟨c, hc, rfl⟩ := Option.map_eq_some_iff.mp hs
          rw [get_put_name _ _ (by decide), get_put_name _ _ (by decide), divKeep b c initctl _ (by decide) hc,
            divKeep b c initctl _ (by decide) hc]
          exact gb
        · cases hs; exact gb
  have hdb : ssd ∈ s.db := by
    obtain ⟨di, s', hs', hr⟩ := setup_rel t h
    rw [hs] at hs'
    cases hs'
    exact (ssd_mem hr).1
  clear hs
  induction xs generalizing s with
  | nil => exact start
  | cons x xs ih =>
    refine ih (unpack s x) (fun y hy => hx y (by simp [hy])) ?_ hdb
    rcases hx x (by simp) with ⟨-, he⟩ | ⟨n, hn⟩
    · unfold unpack
      rw [he, if_pos hdb, get_put_real _ _ (by decide), get_put_name _ _ (by decide)]
      exact start
    · unfold unpack
      have hn' : (if x.1 ∈ s.db then x.1.toReal else x.1).name = .other n := by split <;> exact hn
      rw [get_put_name _ _ (by rw [hn']; exact fun h => nomatch h), get_put_name _ _ (by rw [hn']; exact fun h => nomatch h)]
      exact start

/-! ## Where it fails -/

/-- A root file system with start-stop-daemon alone. -/
def small (m : Bool) (f : File) : State :=
  { merged := m, files := fun q => if q = canon m ssd then some f else none, db := [] }

theorem small_fresh (m : Bool) (f : File) : Spec.Fresh (small m f) := by
  refine ⟨by simp [small, get, ssd], ?_, ?_, ?_, by simp [small]⟩
  · intro d r
    show (if _ then _ else _) = _
    rw [if_neg]
    cases m <;> simp [canon, ssd]
  · intro d
    show (if _ then _ else _) = _
    rw [if_neg]
    cases m <;> simp [canon, ssd]
  · intro d
    show (if _ then _ else _) = _
    rw [if_neg]
    cases m <;> simp [canon, ssd]

/-- A package with a new start-stop-daemon and another file. -/
example : Spec.Fresh (small true ⟨7, true⟩) ∧ ∀ x ∈ [(ssd, (⟨8, true⟩ : File)), ({ dir := .other 1, name := .other 2 }, ⟨9, false⟩)], Spec.Allowed x := by
  refine ⟨small_fresh _ _, ?_⟩
  intro x hx
  simp at hx
  rcases hx with rfl | rfl
  · exact Or.inr (Or.inl ⟨rfl, rfl, rfl⟩)
  · exact Or.inl ⟨2, rfl⟩

/-- C244. If /sbin is /usr/sbin and a package has /usr/sbin/start-stop-daemon, dpkg does not see the diversion: while packages are installed
the real one is in place, and after the cleanup the old one is there in place of that of the package. -/
theorem alias_lost (f g : File) : ∃ s, setup (small true f) = some s ∧
    get (unpack s ({ dir := .usrSbin, name := .ssd }, g)) ssd = some g ∧
    get (cleanup (unpack s ({ dir := .usrSbin, name := .ssd }, g))) ssd = some f ∧
    get (unpack (small true f) ({ dir := .usrSbin, name := .ssd }, g)) ssd = some g := by
  exact ⟨_, rfl, rfl, rfl, rfl⟩

/-- C244. If there is no start-stop-daemon when the root file system is set up and a package has it, the cleanup removes it. -/
theorem late_lost (m : Bool) (g : File) : ∃ s, setup { merged := m, files := fun _ => none, db := [] } = some s ∧
    get (cleanup (unpack s (ssd, g))) ssd = none ∧ get (unpack { merged := m, files := fun _ => none, db := [] } (ssd, g)) ssd = some g := by
  cases m <;> exact ⟨_, rfl, rfl, rfl⟩

/-- C244. A policy for services that is there before is lost: with /sbin and /usr/sbin apart it is overwritten and removed, and with one
for both it is diverted under one name and never brought back, since the cleanup asks for the other. -/
theorem policy_lost (m : Bool) (f g : File) :
    ∃ s, setup { merged := m, files := fun q => if q = policy then some g else if q = canon m ssd then some f else none, db := [] } = some s ∧
      get (cleanup s) policy = none ∧ get (cleanup s) policySbin = none := by
  cases m <;> exact ⟨_, rfl, rfl, rfl⟩

/-! ## Interruption -/

/-- C245. If the finalization is not interrupted, it does what the cleanup does; if the script is gone, nothing. -/
theorem finalize_once (r : Root) : finalize r = { s := if r.script then cleanup r.s else r.s, script := false } := by
  obtain ⟨s, b⟩ := r
  cases b <;> rfl

theorem finalize_twice (r : Root) : finalize (finalize r) = finalize r := by
  rw [finalize_once, finalize_once]; simp

theorem put_put (s : State) (p : Path) (a b : Option File) : put (put s p a) p b = put s p b := by
  unfold put
  simp only [State.mk.injEq, true_and, and_true]
  funext q
  by_cases h : q = canon s.merged p <;> simp [h]

/-- C245 (partial). If the finalization is interrupted before the diversion of start-stop-daemon is removed, or after the script is, and is run
again, the result is the same as without. -/
theorem interrupted_partial (n : Nat) (r : Root) (hr : r.script = true) (hd : policy ∉ r.s.db) (hn : n ≤ 3 ∨ 6 ≤ n) :
    finalize (interrupted n r) = finalize r := by
  obtain ⟨s, b⟩ := r
  cases hr
  have hp : ∀ x : State, x.db = s.db → divertRemove x policy = x := by
    intro x hx
    unfold divertRemove
    rw [if_neg (by rw [hx]; exact hd)]
  rcases hn with hn | hn
  · have hcl : ∀ x : State, x.db = s.db → put (put x policy none) ssd none = put (put s policy none) ssd none → finalize ⟨x, true⟩ = finalize ⟨s, true⟩ := by
      intro x hx he
      rw [finalize_once, finalize_once]
      simp only [if_true]
      unfold cleanup undivert
      rw [hp _ (by exact hx), hp (put s policy none) rfl, he]
    have e0 : finalize ⟨put s policy none, true⟩ = finalize ⟨s, true⟩ := hcl _ rfl (by rw [put_put])
    match n, hn with
    | 0, _ => rfl
    | 1, _ => exact e0
    | 2, _ => show finalize ⟨divertRemove (put s policy none) policy, true⟩ = _; rw [hp (put s policy none) rfl]; exact e0
    | 3, _ =>
      show finalize ⟨put (divertRemove (put s policy none) policy) ssd none, true⟩ = _
      rw [hp (put s policy none) rfl]
      refine hcl _ rfl ?_
      have hne : ∀ m, canon m ssd ≠ canon m policy := fun m => canon_ne_name (by decide)
      unfold put
      simp only [State.mk.injEq, true_and, and_true]
      funext q
      by_cases k : q = canon s.merged ssd
      · rw [if_pos k, if_pos k]
      · rw [if_neg k, if_neg k]
        by_cases k' : q = canon s.merged policy
        · rw [if_pos k', if_pos k']
        · rw [if_neg k', if_neg k']
  · have : interrupted n ⟨s, true⟩ = finalize ⟨s, true⟩ := by
      unfold interrupted finalize
      rw [List.take_of_length_le (by simp [steps]; omega)]
    rw [this, finalize_twice]

example : policy ∉ (small true ⟨7, true⟩).db := by decide

theorem undivert_db (s : State) (p : Path) : (divertRemove s p).db = s.db.erase p := by
  unfold divertRemove
  split
  · split <;> rfl
  · rename_i h; rw [List.erase_of_not_mem h]

/-- What the cleanup does without a diversion. -/
theorem cleanup_gone (x : State) (h : ssd ∉ x.db) : get (cleanup x) ssd = none := by
  have h1 : ssd ∉ (put (undivert x policy) ssd none).db := by
    show ssd ∉ (divertRemove (put x policy none) policy).db
    rw [undivert_db]
    exact fun hm => h (List.mem_of_mem_erase hm)
  have h2 : undivert (undivert x policy) ssd = put (undivert x policy) ssd none := by
    conv => lhs; unfold undivert
    unfold divertRemove
    exact if_neg h1
  unfold cleanup
  rw [h2]
  have g : get (put (undivert x policy) ssd none) ssd = none := get_put_same _ _ _
  generalize put (undivert x policy) ssd none = y at g
  unfold cleanupInitctl
  split
  · unfold undivert divertRemove
    split
    · split
      · show get (put (put (put y initctl none) initctl _) initctl.toReal none) ssd = none
        rw [get_put_name _ _ (by decide), get_put_name _ _ (by decide), get_put_name _ _ (by decide), g]
      · show get (put y initctl none) ssd = none
        rw [get_put_name _ _ (by decide), g]
    · rw [get_put_name _ _ (by decide), g]
  · exact g

/-- C245. If it is interrupted in between, the second run removes the real start-stop-daemon. -/
theorem interrupted_lost (t : State) (h : Spec.Fresh t) (xs : List (Path × File)) (hx : ∀ x ∈ xs, Spec.Allowed x) (n : Nat) (hn : n = 4 ∨ n = 5) :
    ∃ s, setup t = some s ∧ (get (finalize ⟨unpackAll s xs, true⟩).s ssd).isSome = true ∧
      get (finalize (interrupted n ⟨unpackAll s xs, true⟩)).s ssd = none := by
  obtain ⟨di, s, hs, hr⟩ := setup_rel t h
  have hr := unpackAll_rel xs hr hx
  refine ⟨s, hs, ?_, ?_⟩
  · rw [finalize_once]
    show (get (cleanup (unpackAll s xs)) ssd).isSome = true
    rw [cleanup_rel hr]
    exact hr.ssdThere
  · generalize unpackAll s xs = x at hr
    have e4 : ssd ∉ (divertRemove (put (divertRemove (put x policy none) policy) ssd none) ssd).db := by
      rw [undivert_db]
      show ssd ∉ ((divertRemove (put x policy none) policy).db).erase ssd
      rw [undivert_db]
      show ssd ∉ (x.db.erase policy).erase ssd
      rw [List.erase_of_not_mem (policy_notin hr), hr.db]
      have := (ssd_mem hr).2
      cases di with
      | false => simpa using this
      | true =>
        simp only [if_true, List.cons_append, List.nil_append]
        rw [List.erase_cons_tail (by decide)]
        simp only [List.erase_cons_head, List.mem_cons, not_or]
        exact ⟨by decide, this⟩
    rcases hn with rfl | rfl
    · show get (finalize ⟨divertRemove (put (divertRemove (put x policy none) policy) ssd none) ssd, true⟩).s ssd = none
      rw [finalize_once]
      exact cleanup_gone _ e4
    · show get (finalize ⟨cleanupInitctl (divertRemove (put (divertRemove (put x policy none) policy) ssd none) ssd), true⟩).s ssd = none
      rw [finalize_once]
      refine cleanup_gone _ ?_
      unfold cleanupInitctl
      split
      · unfold undivert
        rw [undivert_db]
        exact fun hm => e4 (List.mem_of_mem_erase hm)
      · exact e4

end Meta.Chroot
