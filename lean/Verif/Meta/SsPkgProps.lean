import Verif.Meta.SsPkgModel
/-!
# Archives in the shared state cache are whole
-/

namespace Meta.SsPkg

theorem upd_same {α : Type} (f : Nat → α) (i : Nat) (a : α) : upd f i a i = a := if_pos rfl

theorem upd_other {α : Type} (f : Nat → α) {i j : Nat} (a : α) (h : j ≠ i) : upd f i a j = f j := if_neg h

/-- The file of the process is written to the end. -/
def Written : Pc → Prop
  | .start => False
  | .mktemp => False
  | .tar _ => False
  | .finished => False
  | .stopped => False
  | _ => True

/-- What holds at all times.  `ms` are archives of mirrors. -/
structure Inv (arch : Nat → List Nat) (ms : List (List Nat)) (w : World) : Prop where
  part : ∀ i l, w.pc i = .tar l → w.content i ++ l = arch i
  full : ∀ i, Written (w.pc i) → w.content i = arch i
  mine : ∀ i, w.pkg = .file i → w.content i = arch i ∧ w.pc i ≠ .start ∧ w.pc i ≠ .mktemp ∧
    ∀ l, w.pc i ≠ .tar l
  other : ∀ c, w.pkg = .mirror c → c ∈ ms

/-- Only archives of `ms` come from mirrors. -/
def MirrorsGive (ms : List (List Nat)) (evs : List Ev) : Prop := ∀ c, Ev.mirrored c ∈ evs → c ∈ ms

theorem inv_init (arch : Nat → List Nat) (ms : List (List Nat)) (pkg : Entry)
    (h : ∀ i, pkg ≠ .file i) (hm : ∀ c, pkg = .mirror c → c ∈ ms) : Inv arch ms (init pkg) where
  part := fun _ _ h => nomatch h
  full := fun _ h => h.elim
  mine := fun i e => absurd e (h i)
  other := hm

/-- A step that changes only where a process is. -/
theorem inv_pc {arch : Nat → List Nat} {ms : List (List Nat)} {w : World} (h : Inv arch ms w) {i : Nat}
    {pc : Pc} (hw : Written pc → w.content i = arch i) (h1 : pc ≠ .start)
    (h2 : w.pkg = .file i → pc ≠ .mktemp)
    (h3 : ∀ l, pc = .tar l → w.content i ++ l = arch i ∧ w.pkg ≠ .file i) :
    Inv arch ms { w with pc := upd w.pc i pc } where
  part := fun j l e => by
    by_cases hj : j = i
    · subst hj
      exact (h3 l ((upd_same _ _ _).symm.trans e)).1
    · exact h.part j l (by rw [← upd_other w.pc pc hj]; exact e)
  full := fun j e => by
    by_cases hj : j = i
    · subst hj
      exact hw ((upd_same w.pc j pc) ▸ e)
    · exact h.full j (by rw [← upd_other w.pc pc hj]; exact e)
  mine := fun j e => by
    obtain ⟨a, b, c, d⟩ := h.mine j e
    show w.content j = arch j ∧ upd w.pc i pc j ≠ .start ∧ upd w.pc i pc j ≠ .mktemp ∧
      ∀ l, upd w.pc i pc j ≠ .tar l
    by_cases hj : j = i
    · subst hj
      rw [upd_same]
      exact ⟨a, h1, h2 e, fun l hl => (h3 l hl).2 e⟩
    · rw [upd_other _ _ hj]
      exact ⟨a, b, c, d⟩
  other := h.other

/-- A step that changes only what the name stands for. -/
theorem inv_pkg {arch : Nat → List Nat} {ms : List (List Nat)} {w : World} (h : Inv arch ms w) {e : Entry}
    (hf : ∀ i, e = .file i → Written (w.pc i)) (hm : ∀ c, e = .mirror c → c ∈ ms) :
    Inv arch ms { w with pkg := e } where
  part := h.part
  full := h.full
  mine := fun i hi => by
    have hw := hf i hi
    refine ⟨h.full i hw, ?_, ?_, ?_⟩
    · intro c; rw [show w.pc i = .start from c] at hw; exact hw
    · intro c; rw [show w.pc i = .mktemp from c] at hw; exact hw
    · intro l c; rw [show w.pc i = .tar l from c] at hw; exact hw
  other := hm

theorem inv_proc {arch : Nat → List Nat} {ms : List (List Nat)} {w : World} (h : Inv arch ms w) (i : Nat)
    (bad : Bool) : Inv arch ms (procStep arch w i bad) := by
  unfold procStep
  have stop : Inv arch ms { w with pc := upd w.pc i .stopped } :=
    inv_pc h (fun e => e.elim) (fun e => nomatch e) (fun _ e => nomatch e) (fun _ e => nomatch e)
  -- a step from a place where the file is written to another such place
  have go : Written (w.pc i) → ∀ pc, Written pc → Inv arch ms { w with pc := upd w.pc i pc } := by
    intro hw pc hp
    refine inv_pc h (fun _ => h.full i hw) ?_ ?_ ?_
    · rintro rfl; exact hp
    · rintro _ rfl; exact hp
    · rintro l rfl; exact hp.elim
  cases hpc : w.pc i with
  | start =>
    dsimp only
    refine inv_pc h ?_ ?_ ?_ ?_
    · split <;> exact fun e => e.elim
    · split <;> exact fun e => nomatch e
    · intro e; exact absurd hpc (h.mine i e).2.1
    · split <;> exact fun _ e => nomatch e
  | mktemp =>
    dsimp only
    split
    · exact stop
    · have hne : w.pkg ≠ .file i := fun e => (h.mine i e).2.2.1 hpc
      constructor
      · intro j l e
        replace e : upd w.pc i (.tar (arch i)) j = .tar l := e
        show upd w.content i [] j ++ l = arch j
        by_cases hj : j = i
        · subst hj
          rw [upd_same] at e ⊢
          rw [← Pc.tar.inj e]; rfl
        · rw [upd_other _ _ hj] at e ⊢
          exact h.part j l e
      · intro j e
        replace e : Written (upd w.pc i (.tar (arch i)) j) := e
        show upd w.content i [] j = arch j
        by_cases hj : j = i
        · subst hj
          rw [upd_same] at e
          exact e.elim
        · rw [upd_other _ _ hj] at e ⊢
          exact h.full j e
      · intro j e
        have hj : j ≠ i := fun c => hne (c ▸ e)
        show upd w.content i [] j = arch j ∧ upd w.pc i (.tar (arch i)) j ≠ .start ∧
          upd w.pc i (.tar (arch i)) j ≠ .mktemp ∧ ∀ l, upd w.pc i (.tar (arch i)) j ≠ .tar l
        rw [upd_other _ _ hj, upd_other _ _ hj]
        exact h.mine j e
      · exact h.other
  | tar left =>
    dsimp only
    split
    · exact stop
    · have hne : w.pkg ≠ .file i := fun e => (h.mine i e).2.2.2 _ hpc
      have hp := h.part i left hpc
      cases left with
      | nil =>
        rw [List.append_nil] at hp
        exact inv_pc h (fun _ => hp) (fun e => nomatch e) (fun _ e => nomatch e) (fun _ e => nomatch e)
      | cons b left =>
        constructor
        · intro j l e
          replace e : upd w.pc i (.tar left) j = .tar l := e
          show upd w.content i (w.content i ++ [b]) j ++ l = arch j
          by_cases hj : j = i
          · subst hj
            rw [upd_same] at e ⊢
            rw [← Pc.tar.inj e, List.append_assoc]
            exact hp
          · rw [upd_other _ _ hj] at e ⊢
            exact h.part j l e
        · intro j e
          replace e : Written (upd w.pc i (.tar left) j) := e
          show upd w.content i (w.content i ++ [b]) j = arch j
          by_cases hj : j = i
          · subst hj
            rw [upd_same] at e
            exact e.elim
          · rw [upd_other _ _ hj] at e ⊢
            exact h.full j e
        · intro j e
          have hj : j ≠ i := fun c => hne (c ▸ e)
          show upd w.content i (w.content i ++ [b]) j = arch j ∧ upd w.pc i (.tar left) j ≠ .start ∧
            upd w.pc i (.tar left) j ≠ .mktemp ∧ ∀ l, upd w.pc i (.tar left) j ≠ .tar l
          rw [upd_other _ _ hj, upd_other _ _ hj]
          exact h.mine j e
        · exact h.other
  | isLink => exact go (by rw [hpc]; trivial) _ (by split <;> trivial)
  | isDangling => exact go (by rw [hpc]; trivial) _ (by split <;> trivial)
  | isAbsent => exact go (by rw [hpc]; trivial) _ (by split <;> trivial)
  | linkForce =>
    have g := go (by rw [hpc]; trivial) .remove trivial
    dsimp only
    split
    · exact g
    · exact inv_pkg g (fun j e => by
        rw [← Entry.file.inj e]
        show Written (upd w.pc i .remove i)
        rw [upd_same]; trivial) (fun _ e => nomatch e)
  | link =>
    have g := go (by rw [hpc]; trivial) .remove trivial
    dsimp only
    split
    · exact g
    · by_cases ha : w.pkg = .absent
      · rw [if_pos ha]
        exact inv_pkg g (fun j e => by
          rw [← Entry.file.inj e]
          show Written (upd w.pc i .remove i)
          rw [upd_same]; trivial) (fun _ e => nomatch e)
      · rw [if_neg ha]; exact g
  | remove =>
    dsimp only
    split
    · exact stop
    · have g := inv_pc (pc := .finished) (i := i) h (fun e => e.elim) (fun e => nomatch e)
        (fun _ e => nomatch e) (fun _ e => nomatch e)
      exact ⟨g.part, g.full, g.mine, g.other⟩
  | finished => exact h
  | stopped => exact h

theorem inv_step {arch : Nat → List Nat} {ms : List (List Nat)} {w : World} (h : Inv arch ms w) (e : Ev)
    (hm : ∀ c, e = .mirrored c → c ∈ ms) : Inv arch ms (step arch w e) := by
  cases e with
  | step i bad => exact inv_proc h i bad
  | kill i => exact inv_pc h (fun e => e.elim) (fun e => nomatch e) (fun _ e => nomatch e) (fun _ e => nomatch e)
  | mirrored c =>
    unfold step
    dsimp only
    split
    · exact inv_pkg h (fun _ e => nomatch e) (fun d e => Entry.mirror.inj e ▸ hm c rfl)
    · exact h
  | mirrorGone =>
    unfold step
    dsimp only
    split
    · exact inv_pkg h (fun _ e => nomatch e) (fun _ e => nomatch e)
    · exact h
  | removed => exact inv_pkg h (fun _ e => nomatch e) (fun _ e => nomatch e)

theorem inv_run {arch : Nat → List Nat} {ms : List (List Nat)} (evs : List Ev) : ∀ {w : World},
    Inv arch ms w → MirrorsGive ms evs → Inv arch ms (run arch w evs) := by
  induction evs with
  | nil => exact fun h _ => h
  | cons e evs ih =>
    intro w h hm
    exact ih (inv_step h e fun c hc => hm c (by rw [hc]; exact List.mem_cons_self))
      fun c hc => hm c (List.mem_cons_of_mem _ hc)

/-- A file that can be read under the name of the archive does not change any more. -/
theorem frozen {arch : Nat → List Nat} {i : Nat} (e : Ev) {w : World}
    (h : w.content i = arch i ∧ w.pc i ≠ .start ∧ w.pc i ≠ .mktemp ∧ ∀ l, w.pc i ≠ .tar l) :
    (step arch w e).content i = arch i ∧ (step arch w e).pc i ≠ .start ∧ (step arch w e).pc i ≠ .mktemp ∧
      ∀ l, (step arch w e).pc i ≠ .tar l := by
  obtain ⟨h1, h2, h3, h4⟩ := h
  have key : ∀ {w' : World} {j : Nat} {pc : Pc}, w'.content i = arch i → w'.pc = upd w.pc j pc →
      (j = i → pc ≠ .start ∧ pc ≠ .mktemp ∧ ∀ l, pc ≠ .tar l) →
      w'.content i = arch i ∧ w'.pc i ≠ .start ∧ w'.pc i ≠ .mktemp ∧ ∀ l, w'.pc i ≠ .tar l := by
    intro w' j pc a b c
    rw [b]
    by_cases hj : i = j
    · subst hj
      rw [upd_same]
      exact ⟨a, c rfl⟩
    · rw [upd_other _ _ hj]
      exact ⟨a, h2, h3, h4⟩
  cases e with
  | kill j => exact key h1 rfl fun _ => ⟨(nomatch ·), (nomatch ·), fun _ => (nomatch ·)⟩
  | mirrored c =>
    unfold step
    dsimp only
    split
    · exact ⟨h1, h2, h3, h4⟩
    · exact ⟨h1, h2, h3, h4⟩
  | mirrorGone =>
    unfold step
    dsimp only
    split
    · exact ⟨h1, h2, h3, h4⟩
    · exact ⟨h1, h2, h3, h4⟩
  | removed => exact ⟨h1, h2, h3, h4⟩
  | step j bad =>
    unfold step procStep
    dsimp only
    cases hpc : w.pc j with
    | start => exact key h1 rfl fun hj => absurd (hj ▸ hpc) h2
    | mktemp =>
      dsimp only
      split
      · exact key h1 rfl fun _ => ⟨(nomatch ·), (nomatch ·), fun _ => (nomatch ·)⟩
      · have hj : i ≠ j := fun hj => h3 (hj ▸ hpc)
        exact key (show upd w.content j [] i = arch i from (upd_other _ _ hj).trans h1) rfl
          fun c => absurd c.symm hj
    | tar left =>
      have hj : i ≠ j := fun hj => h4 left (hj ▸ hpc)
      dsimp only
      split
      · exact key h1 rfl fun _ => ⟨(nomatch ·), (nomatch ·), fun _ => (nomatch ·)⟩
      · cases left with
        | nil => exact key h1 rfl fun _ => ⟨(nomatch ·), (nomatch ·), fun _ => (nomatch ·)⟩
        | cons b left =>
          exact key (show upd w.content j (w.content j ++ [b]) i = arch i from (upd_other _ _ hj).trans h1)
            rfl fun c => absurd c.symm hj
    | isLink => refine key h1 rfl fun _ => ?_; split <;> exact ⟨(nomatch ·), (nomatch ·), fun _ => (nomatch ·)⟩
    | isDangling =>
      refine key h1 rfl fun _ => ?_; split <;> exact ⟨(nomatch ·), (nomatch ·), fun _ => (nomatch ·)⟩
    | isAbsent =>
      refine key h1 rfl fun _ => ?_; split <;> exact ⟨(nomatch ·), (nomatch ·), fun _ => (nomatch ·)⟩
    | linkForce =>
      dsimp only
      split <;> exact key h1 rfl fun _ => ⟨(nomatch ·), (nomatch ·), fun _ => (nomatch ·)⟩
    | link =>
      dsimp only
      split <;> exact key h1 rfl fun _ => ⟨(nomatch ·), (nomatch ·), fun _ => (nomatch ·)⟩
    | remove =>
      dsimp only
      split <;> exact key h1 rfl fun _ => ⟨(nomatch ·), (nomatch ·), fun _ => (nomatch ·)⟩
    | finished => exact ⟨h1, h2, h3, h4⟩
    | stopped => exact ⟨h1, h2, h3, h4⟩

theorem frozen_run {arch : Nat → List Nat} {i : Nat} (evs : List Ev) : ∀ {w : World},
    (w.content i = arch i ∧ w.pc i ≠ .start ∧ w.pc i ≠ .mktemp ∧ ∀ l, w.pc i ≠ .tar l) →
    (run arch w evs).content i = arch i := by
  induction evs with
  | nil => exact fun h => h.1
  | cons e evs ih => exact fun h => ih (frozen e h)

theorem run_append (arch : Nat → List Nat) (w : World) (a b : List Ev) :
    run arch w (a ++ b) = run arch (run arch w a) b := List.foldl_append

/-- The archive is what one of the processes packs, to the last byte, or an archive of a mirror. -/
def WholeArchive (arch : Nat → List Nat) (ms : List (List Nat)) (c : List Nat) : Prop :=
  (∃ i, c = arch i) ∨ c ∈ ms

/-- The name is free in the beginning, or a link. -/
def FreshOrLink (ms : List (List Nat)) (pkg : Entry) : Prop :=
  pkg = .absent ∨ pkg = .dangling ∨ ∃ c, pkg = .mirror c ∧ c ∈ ms

/-- **C111.**  Whoever opens the archive at any moment reads a whole archive, however many processes write
it at the same time, whatever step of them fails and whenever they are killed, and whatever happens while
it is read. -/
theorem always_whole (arch : Nat → List Nat) (ms : List (List Nat)) (pkg : Entry) (before after : List Ev)
    (hp : FreshOrLink ms pkg) (hm : MirrorsGive ms before) (f : Handle)
    (ho : openPkg (run arch (init pkg) before) = some f) :
    WholeArchive arch ms (read (run arch (init pkg) (before ++ after)) f) := by
  have hi : Inv arch ms (init pkg) := by
    refine inv_init arch ms pkg ?_ ?_
    · rcases hp with rfl | rfl | ⟨c, rfl, _⟩ <;> exact fun _ e => nomatch e
    · rcases hp with rfl | rfl | ⟨c, rfl, hc⟩
      · exact fun _ e => nomatch e
      · exact fun _ e => nomatch e
      · exact fun d e => Entry.mirror.inj e ▸ hc
  have h := inv_run before hi hm
  rw [run_append]
  generalize run arch (init pkg) before = w at h ho
  unfold openPkg at ho
  cases hk : w.pkg with
  | absent => rw [hk] at ho; cases ho
  | dangling => rw [hk] at ho; cases ho
  | mirror c =>
    rw [hk] at ho
    rw [← Option.some.inj ho]
    exact Or.inr (h.other c hk)
  | file i =>
    rw [hk] at ho
    rw [← Option.some.inj ho]
    exact Or.inl ⟨i, frozen_run after (h.mine i hk)⟩

/-! ## A task that has finished has an archive in the cache -/

/-- Nothing is removed, and no step fails. -/
def Undisturbed (evs : List Ev) : Prop :=
  ∀ e, e ∈ evs → e ≠ .removed ∧ e ≠ .mirrorGone ∧ ∀ i, e ≠ .step i true

structure Avail (w : World) : Prop where
  done : ∀ i, w.pc i = .finished ∨ w.pc i = .remove → isThere w.pkg = true
  nodangle : w.pkg = .dangling → ∀ i, w.pc i ≠ .isAbsent ∧ w.pc i ≠ .link
  clean : ∀ i, w.pc i = .finished → w.tmp i = false
  early : ∀ i, w.pc i = .start ∨ w.pc i = .mktemp → w.tmp i = false

theorem not_dangling_of_there {e : Entry} (h : isThere e = true) : e ≠ .dangling := by
  rintro rfl; cases h

/-- A step of a process that changes where it is and perhaps the name. -/
theorem avail_pc {w : World} (h : Avail w) {i : Nat} {pc : Pc} {e : Entry}
    (he : isThere w.pkg = true → isThere e = true) (hd : e = .dangling → w.pkg = .dangling)
    (h1 : pc = .finished ∨ pc = .remove → isThere e = true)
    (h2 : e = .dangling → pc ≠ .isAbsent ∧ pc ≠ .link)
    (h3 : pc = .finished → w.tmp i = false) (h4 : pc = .start ∨ pc = .mktemp → w.tmp i = false) :
    Avail { w with pkg := e, pc := upd w.pc i pc } where
  done := fun j hj => by
    replace hj : upd w.pc i pc j = .finished ∨ upd w.pc i pc j = .remove := hj
    by_cases c : j = i
    · subst c; rw [upd_same] at hj; exact h1 hj
    · rw [upd_other _ _ c] at hj; exact he (h.done j hj)
  nodangle := fun hk j => by
    show upd w.pc i pc j ≠ .isAbsent ∧ upd w.pc i pc j ≠ .link
    by_cases c : j = i
    · subst c; rw [upd_same]; exact h2 hk
    · rw [upd_other _ _ c]; exact h.nodangle (hd hk) j
  clean := fun j hj => by
    replace hj : upd w.pc i pc j = .finished := hj
    by_cases c : j = i
    · subst c; rw [upd_same] at hj; exact h3 hj
    · rw [upd_other _ _ c] at hj; exact h.clean j hj
  early := fun j hj => by
    replace hj : upd w.pc i pc j = .start ∨ upd w.pc i pc j = .mktemp := hj
    by_cases c : j = i
    · subst c; rw [upd_same] at hj; exact h4 hj
    · rw [upd_other _ _ c] at hj; exact h.early j hj

/-- Files and temporary names of other processes do not matter. -/
theorem avail_tmp {w : World} (h : Avail w) {i : Nat} {b : Bool} {c : Nat → List Nat}
    (h1 : w.pc i = .finished → b = false) (h2 : w.pc i = .start ∨ w.pc i = .mktemp → b = false) :
    Avail { w with tmp := upd w.tmp i b, content := c } where
  done := h.done
  nodangle := h.nodangle
  clean := fun j hj => by
    show upd w.tmp i b j = false
    by_cases c : j = i
    · subst c; rw [upd_same]; exact h1 hj
    · rw [upd_other _ _ c]; exact h.clean j hj
  early := fun j hj => by
    show upd w.tmp i b j = false
    by_cases c : j = i
    · subst c; rw [upd_same]; exact h2 hj
    · rw [upd_other _ _ c]; exact h.early j hj

theorem avail_proc {arch : Nat → List Nat} {w : World} (h : Avail w) (i : Nat) :
    Avail (procStep arch w i false) := by
  unfold procStep
  cases hpc : w.pc i with
  | start =>
    have ht := h.early i (Or.inl hpc)
    refine avail_pc h id id ?_ ?_ (fun _ => ht) (fun _ => ht)
    · split
      · exact fun _ => by assumption
      · exact fun e => by rcases e with e | e <;> cases e
    · split <;> exact fun _ => ⟨(nomatch ·), (nomatch ·)⟩
  | mktemp =>
    have g := avail_pc (e := w.pkg) (i := i) (pc := .tar (arch i)) h id id
      (fun e => by rcases e with e | e <;> cases e) (fun _ => ⟨(nomatch ·), (nomatch ·)⟩)
      (fun e => nomatch e) (fun e => by rcases e with e | e <;> cases e)
    have hi : upd w.pc i (.tar (arch i)) i = .tar (arch i) := upd_same _ _ _
    exact avail_tmp (i := i) (b := true) (c := upd w.content i []) g
      (fun e => by rw [show upd w.pc i (.tar (arch i)) i = .finished from e] at hi; cases hi)
      (fun e => by
        rcases e with e | e
        · rw [show upd w.pc i (.tar (arch i)) i = .start from e] at hi; cases hi
        · rw [show upd w.pc i (.tar (arch i)) i = .mktemp from e] at hi; cases hi)
  | tar left =>
    cases left with
    | nil =>
      exact avail_pc h id id (fun e => by rcases e with e | e <;> cases e)
        (fun _ => ⟨(nomatch ·), (nomatch ·)⟩) (fun e => nomatch e) (fun e => by rcases e with e | e <;> cases e)
    | cons b left =>
      have g := avail_pc (e := w.pkg) (i := i) (pc := .tar left) h id id
        (fun e => by rcases e with e | e <;> cases e) (fun _ => ⟨(nomatch ·), (nomatch ·)⟩)
        (fun e => nomatch e) (fun e => by rcases e with e | e <;> cases e)
      exact ⟨g.done, g.nodangle, g.clean, g.early⟩
  | isLink =>
    refine avail_pc h id id ?_ ?_ ?_ ?_
    · split <;> exact fun e => by rcases e with e | e <;> cases e
    · intro hd
      rw [hd]
      exact ⟨(nomatch ·), (nomatch ·)⟩
    · split <;> exact (nomatch ·)
    · split <;> exact fun e => by rcases e with e | e <;> cases e
  | isDangling =>
    refine avail_pc h id id ?_ ?_ ?_ ?_
    · split <;> exact fun e => by rcases e with e | e <;> cases e
    · intro hd
      rw [hd]
      exact ⟨(nomatch ·), (nomatch ·)⟩
    · split <;> exact (nomatch ·)
    · split <;> exact fun e => by rcases e with e | e <;> cases e
  | isAbsent =>
    refine avail_pc h id id ?_ ?_ ?_ ?_
    · split
      · exact fun _ => by assumption
      · exact fun e => by rcases e with e | e <;> cases e
    · intro hd; exact absurd hpc (h.nodangle hd i).1
    · split <;> exact (nomatch ·)
    · split <;> exact fun e => by rcases e with e | e <;> cases e
  | linkForce =>
    exact avail_pc h (fun _ => rfl) (fun e => nomatch e) (fun _ => rfl) (fun e => nomatch e)
      (fun e => nomatch e) (fun e => by rcases e with e | e <;> cases e)
  | link =>
    have hnd : w.pkg ≠ .dangling := fun hd => (h.nodangle hd i).2 hpc
    have ht : isThere (if w.pkg = .absent then .file i else w.pkg) = true := by
      cases hk : w.pkg with
      | absent => rfl
      | dangling => exact absurd hk hnd
      | mirror c => rfl
      | file j => rfl
    exact avail_pc h (fun _ => ht) (fun e => absurd e (not_dangling_of_there ht)) (fun _ => ht)
      (fun e => absurd e (not_dangling_of_there ht)) (fun e => nomatch e)
      (fun e => by rcases e with e | e <;> cases e)
  | remove =>
    have hd := h.done i (Or.inr hpc)
    have g : Avail { w with tmp := upd w.tmp i false, content := w.content } :=
      avail_tmp h (fun _ => rfl) (fun _ => rfl)
    exact avail_pc (i := i) (pc := .finished) g id id (fun _ => hd) (fun e => absurd e (not_dangling_of_there hd))
      (fun _ => upd_same _ _ _) (fun e => by rcases e with e | e <;> cases e)
  | finished => exact h
  | stopped => exact h

theorem avail_run {arch : Nat → List Nat} (evs : List Ev) : ∀ {w : World}, Avail w → Undisturbed evs →
    Avail (run arch w evs) := by
  induction evs with
  | nil => exact fun h _ => h
  | cons e evs ih =>
    intro w h hu
    refine ih ?_ fun e he => hu e (List.mem_cons_of_mem _ he)
    obtain ⟨h1, h2, h3⟩ := hu e List.mem_cons_self
    cases e with
    | step i bad =>
      cases bad with
      | true => exact absurd rfl (h3 i)
      | false => exact avail_proc h i
    | kill i =>
      exact avail_pc h id id (fun e => by rcases e with e | e <;> cases e)
        (fun _ => ⟨(nomatch ·), (nomatch ·)⟩) (fun e => nomatch e) (fun e => by rcases e with e | e <;> cases e)
    | mirrored c =>
      unfold step
      dsimp only
      split
      · exact ⟨fun _ _ => rfl, (nomatch ·), h.clean, h.early⟩
      · exact h
    | mirrorGone => exact absurd rfl h2
    | removed => exact absurd rfl h1

/-- **C112.**  When the function has returned for a process, the archive is in the cache and its temporary
file is gone, whatever the other processes do, and also if some are killed.  Missing: failures of `ln`
(`failure_hidden`). -/
theorem finished_available_partial (arch : Nat → List Nat) (pkg : Entry) (evs : List Ev) (i : Nat)
    (hu : Undisturbed evs) (hf : (run arch (init pkg) evs).pc i = .finished) :
    (∃ f, openPkg (run arch (init pkg) evs) = some f) ∧ (run arch (init pkg) evs).tmp i = false := by
  have h0 : Avail (init pkg) := by
    refine ⟨?_, fun _ _ => ⟨(nomatch ·), (nomatch ·)⟩, fun _ => (nomatch ·), fun _ _ => rfl⟩
    intro i hi
    rcases hi with h | h <;> cases h
  have h := avail_run (arch := arch) evs h0 hu
  refine ⟨?_, h.clean i hf⟩
  have ht := h.done i (Or.inl hf)
  unfold openPkg
  generalize (run arch (init pkg) evs).pkg = e at ht
  cases e with
  | absent => cases ht
  | dangling => cases ht
  | mirror c => exact ⟨_, rfl⟩
  | file j => exact ⟨_, rfl⟩

/-- All steps of a process that packs two bytes. -/
def steps (i : Nat) : List Ev := List.replicate 9 (.step i false)

/-- What two processes pack in the examples. -/
def exArch : Nat → List Nat := fun i => if i = 0 then [1, 2] else [3]

/-- Two processes at the same time: the second is first, and both finish. -/
example : openPkg (run exArch (init .absent)
      ([.step 0 false, .step 0 false, .step 0 false] ++ steps 1 ++ steps 0)) = some (.file 1) ∧
    (run exArch (init .absent)
      ([.step 0 false, .step 0 false, .step 0 false] ++ steps 1 ++ steps 0)).pc 0 = .finished ∧
    (run exArch (init .absent)
      ([.step 0 false, .step 0 false, .step 0 false] ++ steps 1 ++ steps 0)).pc 1 = .finished := by
  decide +kernel

/-- A link to nothing is replaced. -/
example : openPkg (run exArch (init .dangling) (steps 0)) = some (.file 0) ∧
    read (run exArch (init .dangling) (steps 0)) (.file 0) = [1, 2] := by decide +kernel

/-- A process that is killed leaves no archive, and another one makes it. -/
example : openPkg (run exArch (init .absent) [.step 0 false, .step 0 false, .step 0 false, .kill 0]) = none ∧
    openPkg (run exArch (init .absent)
      ([.step 0 false, .step 0 false, .step 0 false, .kill 0] ++ steps 1)) = some (.file 1) := by
  decide +kernel

/-- The hypotheses of the theorems are met by these. -/
example : Undisturbed ([.step 0 false, .step 0 false, .step 0 false, .kill 0] ++ steps 1) := by
  intro e he
  simp only [List.cons_append, List.nil_append, List.mem_cons, steps] at he
  rcases he with rfl | rfl | rfl | rfl | he
  · exact ⟨(nomatch ·), (nomatch ·), fun _ => (nomatch ·)⟩
  · exact ⟨(nomatch ·), (nomatch ·), fun _ => (nomatch ·)⟩
  · exact ⟨(nomatch ·), (nomatch ·), fun _ => (nomatch ·)⟩
  · exact ⟨(nomatch ·), (nomatch ·), fun _ => (nomatch ·)⟩
  · rw [List.eq_of_mem_replicate he]
    exact ⟨(nomatch ·), (nomatch ·), fun _ => (nomatch ·)⟩

/-- **C112** is not true as it stands: `ln ... || true` hides every failure, also on file systems without
hard links; the function returns, and there is no archive. -/
theorem failure_hidden : ∃ evs, (∀ e, e ∈ evs → e ≠ .removed ∧ e ≠ .mirrorGone) ∧
    (run exArch (init .absent) evs).pc 0 = .finished ∧ openPkg (run exArch (init .absent) evs) = none :=
  ⟨[.step 0 false, .step 0 false, .step 0 false, .step 0 false, .step 0 false, .step 0 false, .step 0 false,
    .step 0 true, .step 0 false], by decide, by decide +kernel, by decide +kernel⟩

/-- A process that is killed or fails while it packs leaves its temporary file, and no later run removes
it. -/
theorem leftover (arch : Nat → List Nat) (evs : List Ev) :
    (run arch (init .absent) ([.step 0 false, .step 0 false, .kill 0] ++ evs)).tmp 0 = true := by
  rw [run_append]
  have key : ∀ (evs : List Ev) (w : World), w.tmp 0 = true → w.pc 0 = .stopped →
      (run arch w evs).tmp 0 = true := by
    intro evs
    induction evs with
    | nil => exact fun _ h _ => h
    | cons e evs ih =>
      intro w ht hp
      have hupd : ∀ (j : Nat) (pc : Pc), w.pc j ≠ .stopped → upd w.pc j pc 0 = .stopped := by
        intro j pc hj
        rw [upd_other]
        · exact hp
        · rintro rfl; exact hj hp
      have hs : (step arch w e).tmp 0 = true ∧ (step arch w e).pc 0 = .stopped := by
        cases e with
        | kill i =>
          refine ⟨ht, ?_⟩
          show upd w.pc i .stopped 0 = .stopped
          unfold upd
          split
          · rfl
          · exact hp
        | mirrored c => unfold step; dsimp only; split <;> exact ⟨ht, hp⟩
        | mirrorGone => unfold step; dsimp only; split <;> exact ⟨ht, hp⟩
        | removed => exact ⟨ht, hp⟩
        | step i bad =>
          unfold step procStep
          dsimp only
          cases hpc : w.pc i with
          | start => exact ⟨ht, hupd _ _ (by rw [hpc]; exact (nomatch ·))⟩
          | mktemp =>
            dsimp only
            have hi : w.pc i ≠ .stopped := by rw [hpc]; exact (nomatch ·)
            split
            · exact ⟨ht, hupd _ _ hi⟩
            · refine ⟨?_, hupd _ _ hi⟩
              show upd w.tmp i true 0 = true
              unfold upd; split
              · rfl
              · exact ht
          | tar left =>
            dsimp only
            have hi : w.pc i ≠ .stopped := by rw [hpc]; exact (nomatch ·)
            split
            · exact ⟨ht, hupd _ _ hi⟩
            · cases left <;> exact ⟨ht, hupd _ _ hi⟩
          | isLink => exact ⟨ht, hupd _ _ (by rw [hpc]; exact (nomatch ·))⟩
          | isDangling => exact ⟨ht, hupd _ _ (by rw [hpc]; exact (nomatch ·))⟩
          | isAbsent => exact ⟨ht, hupd _ _ (by rw [hpc]; exact (nomatch ·))⟩
          | linkForce => dsimp only; split <;> exact ⟨ht, hupd _ _ (by rw [hpc]; exact (nomatch ·))⟩
          | link => dsimp only; split <;> exact ⟨ht, hupd _ _ (by rw [hpc]; exact (nomatch ·))⟩
          | remove =>
            dsimp only
            have hi : w.pc i ≠ .stopped := by rw [hpc]; exact (nomatch ·)
            split
            · exact ⟨ht, hupd _ _ hi⟩
            · refine ⟨?_, hupd _ _ hi⟩
              show upd w.tmp i false 0 = true
              rw [upd_other]
              · exact ht
              · rintro rfl; exact hi hp
          | finished => exact ⟨ht, hp⟩
          | stopped => exact ⟨ht, hp⟩
      exact ih _ hs.1 hs.2
  exact key evs _ rfl rfl

end Meta.SsPkg
