import Verif.Bb.EvalModel
/-!
# Classes are inherited once
-/

namespace Bb.Eval
open Py

/-- Where a state may be left. -/
def Out.All (p : St → Prop) : Out → Prop
  | .done st => p st
  | .missing st => p st
  | _ => True

namespace Spec

/-- How often a file has been entered. -/
def entered (st : St) (f : Str) : Nat := st.trace.count (.enter f)

/-- Classes are inherited, not included. -/
def Proper (files : Str → Option File) (isClass : Str → Bool) : Prop :=
  ∀ f file, files f = some file → ∀ nd, nd ∈ file.nodes →
    (∀ fs force, nd = .include fs force → ∀ g, g ∈ fs → isClass g = false) ∧
    (∀ cs, nd = .inherit cs → ∀ g, g ∈ cs → isClass g = true)

/-- Inclusions do not go round in circles: every file is higher than those that it includes. -/
def Layered (files : Str → Option File) (rank : Str → Nat) : Prop :=
  ∀ f file, files f = some file → ∀ fs force, .include fs force ∈ file.nodes → ∀ g, g ∈ fs → g ≠ f → rank g < rank f

end Spec
open Spec

/-- Classes have been entered once if they have been inherited. -/
def Inv (isClass : Str → Bool) (st : St) : Prop :=
  ∀ c, isClass c = true → entered st c = if c ∈ st.inherited then 1 else 0

/-- The same, before a file is entered: it has not been entered yet. -/
def Pre (isClass : Str → Bool) (f : Str) (st : St) : Prop :=
  ∀ c, isClass c = true → entered st c = if c ∈ st.inherited ∧ c ≠ f then 1 else 0

/-- What an evaluation of a file may do to these. -/
def Post (isClass : Str → Bool) (f : Str) : Out → Prop
  | .done st => Inv isClass st
  | .missing st => isClass f = false → Inv isClass st
  | _ => True

theorem pre_include {isClass : Str → Bool} {f : Str} {st : St} (hf : isClass f = false) (h : Inv isClass st) : Pre isClass f st := by
  intro c hc
  have hne : c ≠ f := fun e => by rw [e, hf] at hc; cases hc
  rw [h c hc]
  by_cases hm : c ∈ st.inherited
  · rw [if_pos hm, if_pos ⟨hm, hne⟩]
  · rw [if_neg hm, if_neg (fun h => hm h.1)]

theorem pre_inherit {isClass : Str → Bool} {f : Str} {st : St} (hf : f ∉ st.inherited) (h : Inv isClass st) :
    Pre isClass f { st with inherited := st.inherited ++ [f] } := by
  intro c hc
  show entered st c = if c ∈ st.inherited ++ [f] ∧ c ≠ f then 1 else 0
  rw [h c hc]
  by_cases hm : c ∈ st.inherited
  · rw [if_pos hm, if_pos ⟨List.mem_append_left _ hm, fun e => hf (e ▸ hm)⟩]
  · rw [if_neg hm, if_neg]
    rintro ⟨h1, h2⟩
    rcases List.mem_append.1 h1 with h1 | h1
    · exact hm h1
    · exact h2 (List.mem_singleton.1 h1)

theorem includeAll_inv {isClass : Str → Bool} {h : Str → St → Out} (hh : ∀ f st, Pre isClass f st → Post isClass f (h f st))
    {parent : Str} {force : Bool} : ∀ {fs : List Str}, (∀ f, f ∈ fs → isClass f = false) → ∀ {st : St}, Inv isClass st →
      (includeAll h parent force fs st).All (Inv isClass)
  | [], _, st, hp => hp
  | f :: fs, hf, st, hp => by
    have ih : ∀ {st : St}, Inv isClass st → (includeAll h parent force fs st).All (Inv isClass) :=
      includeAll_inv hh fun g hg => hf g (List.mem_cons_of_mem _ hg)
    have h1 := hh f st (pre_include (hf f List.mem_cons_self) hp)
    unfold includeAll
    split
    · exact ih hp
    · cases ho : h f st with
      | done st' => rw [ho] at h1; exact ih h1
      | missing st' =>
        rw [ho] at h1
        dsimp only
        split
        · exact trivial
        · exact ih (h1 (hf f List.mem_cons_self))
      | error => exact trivial
      | deep => exact trivial

theorem inheritAll_inv {files : Str → Option File} {isClass : Str → Bool} {h : Str → St → Out}
    (hh : ∀ f st, Pre isClass f st → Post isClass f (h f st)) : ∀ {cs : List Str} {st : St}, Inv isClass st →
      (inheritAll files h cs st).All (Inv isClass)
  | [], st, hp => hp
  | c :: cs, st, hp => by
    have ih : ∀ {st : St}, Inv isClass st → (inheritAll files h cs st).All (Inv isClass) := inheritAll_inv hh
    unfold inheritAll
    split
    · exact trivial
    split
    · exact ih hp
    · rename_i hc
      have h1 := hh c _ (pre_inherit hc hp)
      cases ho : h c { st with inherited := st.inherited ++ [c] } with
      | done st' => rw [ho] at h1; exact ih h1
      | missing st' => exact trivial
      | error => exact trivial
      | deep => exact trivial

theorem evalNodes_inv {files : Str → Option File} {isClass : Str → Bool} {h : Str → St → Out} {parent : Str}
    (hh : ∀ f st, Pre isClass f st → Post isClass f (h f st)) : ∀ {ns : List Node},
      (∀ nd, nd ∈ ns → ∀ fs force, nd = .include fs force → ∀ g, g ∈ fs → isClass g = false) → ∀ {st : St}, Inv isClass st →
      (evalNodes files h parent ns st).All (Inv isClass)
  | [], _, st, hp => hp
  | nd :: ns, hn, st, hp => by
    have ih : ∀ {st : St}, Inv isClass st → (evalNodes files h parent ns st).All (Inv isClass) :=
      evalNodes_inv hh fun x hx => hn x (List.mem_cons_of_mem _ hx)
    have h1 : (evalNode files h parent nd st).All (Inv isClass) := by
      cases nd with
      | text x =>
        intro c hc
        show (st.trace ++ [Ev.text x]).count (Ev.enter c) = _
        rw [List.count_append]
        exact hp c hc
      | «include» fs force => exact includeAll_inv hh (hn _ List.mem_cons_self fs force rfl) hp
      | inherit cs => exact inheritAll_inv hh hp
    unfold evalNodes
    cases ho : evalNode files h parent nd st with
    | done st' => rw [ho] at h1; exact ih h1
    | missing st' => rw [ho] at h1; exact h1
    | error => exact trivial
    | deep => exact trivial

theorem handle_inv {files : Str → Option File} {isClass : Str → Bool} (hp : Proper files isClass) :
    ∀ (n : Nat) (f : Str) (st : St), Pre isClass f st → Post isClass f (handle files isClass n f st)
  | 0, _, _, _ => trivial
  | n + 1, f, st, h => by
    unfold handle
    cases hf : files f with
    | none =>
      dsimp only
      intro hc c hcl
      have hne : c ≠ f := fun e => by rw [e, hc] at hcl; cases hcl
      have := h c hcl
      show entered st c = if c ∈ st.inherited then 1 else 0
      rw [this]
      by_cases hm : c ∈ st.inherited
      · rw [if_pos hm, if_pos ⟨hm, hne⟩]
      · rw [if_neg hm, if_neg (fun h => hm h.1)]
    | some file =>
      dsimp only
      have h1 : Inv isClass { inherited := if isClass f = true ∧ f ∉ st.inherited then st.inherited ++ [f] else st.inherited
                              inFunc := file.opened
                              trace := st.trace ++ [.enter f] } := by
        intro c hc
        show (st.trace ++ [Ev.enter f]).count (Ev.enter c) = if c ∈ (if isClass f = true ∧ f ∉ st.inherited then st.inherited ++ [f] else st.inherited) then 1 else 0
        have h2 : (st.trace).count (Ev.enter c) = _ := h c hc
        rw [List.count_append, h2]
        by_cases he : c = f
        · subst he
          have hm : c ∈ (if isClass c = true ∧ c ∉ st.inherited then st.inherited ++ [c] else st.inherited) := by
            split
            · exact List.mem_append_right _ List.mem_cons_self
            · rename_i hx
              exact Classical.not_not.1 fun h => hx ⟨hc, h⟩
          rw [if_pos hm, if_neg (fun h => h.2 rfl)]
          simp
        · have h3 : List.count (Ev.enter c) [Ev.enter f] = 0 :=
            List.count_eq_zero.2 fun hm => he (by have := List.mem_singleton.1 hm; injection this)
          rw [h3, Nat.add_zero]
          have h4 : c ∈ (if isClass f = true ∧ f ∉ st.inherited then st.inherited ++ [f] else st.inherited) ↔ c ∈ st.inherited := by
            split
            · rw [List.mem_append, List.mem_singleton]
              exact ⟨fun h => h.elim id (fun e => absurd e he), Or.inl⟩
            · exact Iff.rfl
          by_cases hm : c ∈ st.inherited
          · rw [if_pos ⟨hm, he⟩, if_pos (h4.2 hm)]
          · rw [if_neg (fun h => hm h.1), if_neg (fun h => hm (h4.1 h))]
      have h2 := evalNodes_inv (files := files) (parent := f) (handle_inv hp n) (fun nd hnd => (hp f file hf nd hnd).1) h1
      cases ho : evalNodes files (handle files isClass n) f file.nodes
        { inherited := if isClass f = true ∧ f ∉ st.inherited then st.inherited ++ [f] else st.inherited
          inFunc := file.opened
          trace := st.trace ++ [.enter f] } with
      | done st' =>
        rw [ho] at h2
        dsimp only
        split
        · exact trivial
        · exact h2
      | missing st' => rw [ho] at h2; exact fun _ => h2
      | error => exact trivial
      | deep => exact trivial

def start : St := ⟨[], false, []⟩

/-- C144: however often a class is inherited, and by how many files, its statements are evaluated once; and not at all if
it is not inherited. -/
theorem class_once {files : Str → Option File} {isClass : Str → Bool} (hp : Proper files isClass) {n : Nat} {f : Str} {st : St}
    (hf : isClass f = false) (h : handle files isClass n f start = .done st) (c : Str) (hc : isClass c = true) :
    entered st c = if c ∈ st.inherited then 1 else 0 := by
  have h1 := handle_inv hp n f start (pre_include hf (fun c _ => rfl))
  rw [h] at h1
  exact h1 c hc

/-! ## It comes to an end -/

/-- Nothing is forgotten. -/
def Grows (st : St) (o : Out) : Prop := o.All fun st' => ∀ c, c ∈ st.inherited → c ∈ st'.inherited

/-- The classes that are not inherited yet. -/
def left (classes : List Str) (st : St) : Nat := (classes.filter fun c => c ∉ st.inherited).length

theorem left_le {classes : List Str} {st st' : St} (h : ∀ c, c ∈ st.inherited → c ∈ st'.inherited) : left classes st' ≤ left classes st := by
  unfold left
  induction classes with
  | nil => exact Nat.le_refl _
  | cons c cs ih =>
    rw [List.filter_cons, List.filter_cons]
    by_cases h1 : c ∈ st'.inherited
    · rw [if_neg (by rw [decide_eq_true_eq]; exact fun h => h h1)]
      split
      · rw [List.length_cons]; omega
      · exact ih
    · rw [if_pos (decide_eq_true h1), if_pos (decide_eq_true (show ¬ c ∈ st.inherited from fun h2 => h1 (h c h2))), List.length_cons, List.length_cons]
      omega

theorem left_lt {classes : List Str} {st : St} {c : Str} (hc : c ∈ classes) (hn : c ∉ st.inherited) :
    left classes { st with inherited := st.inherited ++ [c] } < left classes st := by
  unfold left
  induction classes with
  | nil => cases hc
  | cons d cs ih =>
    rw [List.filter_cons, List.filter_cons]
    dsimp only at ih ⊢
    by_cases hd : d = c
    · subst hd
      rw [if_neg (by rw [decide_eq_true_eq]; exact fun h => h (List.mem_append_right _ List.mem_cons_self)), if_pos (decide_eq_true hn),
        List.length_cons]
      have := left_le (classes := cs) (st := st) (st' := { st with inherited := st.inherited ++ [d] }) (fun c h => List.mem_append_left _ h)
      unfold left at this
      dsimp only at this
      omega
    · have ih := ih ((List.mem_cons.1 hc).resolve_left (Ne.symm hd))
      by_cases h1 : d ∈ st.inherited
      · rw [if_neg (by rw [decide_eq_true_eq]; exact fun h => h (List.mem_append_left _ h1)), if_neg (by rw [decide_eq_true_eq]; exact fun h => h h1)]
        exact ih
      · rw [if_pos (decide_eq_true (show ¬ d ∈ st.inherited ++ [c] from fun h => (List.mem_append.1 h).elim h1 (fun h => hd (List.mem_singleton.1 h)))), if_pos (decide_eq_true h1),
          List.length_cons, List.length_cons]
        omega

/-- The depth that is enough. -/
def Enough (classes : List Str) (rank : Str → Nat) (R n : Nat) (f : Str) (st : St) : Prop :=
  left classes st * (R + 1) + rank f < n

def Fine (st : St) (o : Out) : Prop := o ≠ .deep ∧ Grows st o

section
variable {files : Str → Option File} {isClass : Str → Bool} {classes : List Str} {rank : Str → Nat} {R n : Nat} {h : Str → St → Out}

theorem includeAll_ends (hh : ∀ f st, Enough classes rank R n f st → Fine st (h f st)) {parent : Str} {force : Bool} {k : Nat}
    (hk : k * (R + 1) + rank parent ≤ n) : ∀ {fs : List Str}, (∀ g, g ∈ fs → g ≠ parent → rank g < rank parent) → ∀ {st : St},
      left classes st ≤ k → Fine st (includeAll h parent force fs st)
  | [], _, st, _ => ⟨nofun, fun _ hc => hc⟩
  | f :: fs, hf, st, hl => by
    have ih : ∀ {st' : St}, left classes st' ≤ k → (∀ c, c ∈ st.inherited → c ∈ st'.inherited) →
        Fine st (includeAll h parent force fs st') := by
      intro st' h1 h2
      have h3 := includeAll_ends (force := force) hh hk (fun g hg => hf g (List.mem_cons_of_mem _ hg)) h1
      refine ⟨h3.1, ?_⟩
      have h4 := h3.2
      unfold Grows at h4 ⊢
      cases ho : includeAll h parent force fs st' with
      | done x => rw [ho] at h4; exact fun c hc => h4 c (h2 c hc)
      | missing x => rw [ho] at h4; exact fun c hc => h4 c (h2 c hc)
      | error => exact trivial
      | deep => exact trivial
    unfold includeAll
    split
    · exact ih hl fun c hc => hc
    · rename_i hne
      have hr := hf f List.mem_cons_self hne
      have hle := Nat.mul_le_mul_right (R + 1) hl
      have h1 := hh f st (by unfold Enough; omega)
      cases ho : h f st with
      | done st' => rw [ho] at h1; exact ih (Nat.le_trans (left_le h1.2) hl) h1.2
      | missing st' =>
        rw [ho] at h1
        dsimp only
        split
        · exact ⟨nofun, trivial⟩
        · exact ih (Nat.le_trans (left_le h1.2) hl) h1.2
      | error => exact ⟨nofun, trivial⟩
      | deep => rw [ho] at h1; exact absurd rfl h1.1

theorem inheritAll_ends (hcl : ∀ c, isClass c = true → files c ≠ none → c ∈ classes) (hR : ∀ f, rank f ≤ R)
    (hh : ∀ f st, Enough classes rank R n f st → Fine st (h f st)) {k : Nat} (hk : k * (R + 1) ≤ n) :
    ∀ {cs : List Str}, (∀ g, g ∈ cs → isClass g = true) → ∀ {st : St}, left classes st ≤ k → Fine st (inheritAll files h cs st)
  | [], _, st, _ => ⟨nofun, fun _ hc => hc⟩
  | c :: cs, hc, st, hl => by
    have ih : ∀ {st' : St}, left classes st' ≤ k → (∀ c, c ∈ st.inherited → c ∈ st'.inherited) →
        Fine st (inheritAll files h cs st') := by
      intro st' h1 h2
      have h3 := inheritAll_ends hcl hR hh hk (fun g hg => hc g (List.mem_cons_of_mem _ hg)) h1
      refine ⟨h3.1, ?_⟩
      have h4 := h3.2
      unfold Grows at h4 ⊢
      cases ho : inheritAll files h cs st' with
      | done x => rw [ho] at h4; exact fun c hc => h4 c (h2 c hc)
      | missing x => rw [ho] at h4; exact fun c hc => h4 c (h2 c hc)
      | error => exact trivial
      | deep => exact trivial
    unfold inheritAll
    split
    · exact ⟨nofun, trivial⟩
    rename_i hex
    split
    · exact ih hl fun c hc => hc
    · rename_i hnew
      have hlt := left_lt (hcl c (hc c List.mem_cons_self) hex) hnew
      have hle := Nat.mul_le_mul_right (R + 1) (Nat.le_trans (Nat.succ_le_of_lt hlt) hl)
      rw [Nat.succ_mul] at hle
      have hrc := hR c
      have h1 := hh c { st with inherited := st.inherited ++ [c] } (by unfold Enough; omega)
      have hg : ∀ x : St, (∀ d, d ∈ st.inherited ++ [c] → d ∈ x.inherited) → ∀ d, d ∈ st.inherited → d ∈ x.inherited :=
        fun x hx d hd => hx d (List.mem_append_left _ hd)
      cases ho : h c { st with inherited := st.inherited ++ [c] } with
      | done st' =>
        rw [ho] at h1
        exact ih (Nat.le_trans (left_le (hg st' h1.2)) hl) (hg st' h1.2)
      | missing st' => exact ⟨nofun, trivial⟩
      | error => exact ⟨nofun, trivial⟩
      | deep => rw [ho] at h1; exact absurd rfl h1.1

theorem evalNodes_ends (hcl : ∀ c, isClass c = true → files c ≠ none → c ∈ classes) (hR : ∀ f, rank f ≤ R)
    (hh : ∀ f st, Enough classes rank R n f st → Fine st (h f st)) {parent : Str} {k : Nat} (hk : k * (R + 1) + rank parent ≤ n) :
    ∀ {ns : List Node}, (∀ nd, nd ∈ ns → (∀ fs force, nd = .include fs force → ∀ g, g ∈ fs → g ≠ parent → rank g < rank parent) ∧
        (∀ cs, nd = .inherit cs → ∀ g, g ∈ cs → isClass g = true)) → ∀ {st : St}, left classes st ≤ k →
      Fine st (evalNodes files h parent ns st)
  | [], _, st, _ => ⟨nofun, fun _ hc => hc⟩
  | nd :: ns, hn, st, hl => by
    have h1 : Fine st (evalNode files h parent nd st) := by
      cases nd with
      | text x => exact ⟨nofun, fun _ hc => hc⟩
      | «include» fs force => exact includeAll_ends hh hk ((hn _ List.mem_cons_self).1 fs force rfl) hl
      | inherit cs => exact inheritAll_ends hcl hR hh (Nat.le_trans (Nat.le_add_right _ _) hk) ((hn _ List.mem_cons_self).2 cs rfl) hl
    unfold evalNodes
    cases ho : evalNode files h parent nd st with
    | done st' =>
      rw [ho] at h1
      have h3 := evalNodes_ends hcl hR hh hk (fun x hx => hn x (List.mem_cons_of_mem _ hx)) (Nat.le_trans (left_le h1.2) hl)
      refine ⟨h3.1, ?_⟩
      have h4 := h3.2
      have h2 := h1.2
      unfold Grows at h4 ⊢
      dsimp only
      cases ho : evalNodes files h parent ns st' with
      | done x => rw [ho] at h4; exact fun c hc => h4 c (h2 c hc)
      | missing x => rw [ho] at h4; exact fun c hc => h4 c (h2 c hc)
      | error => exact trivial
      | deep => exact trivial
    | missing st' => rw [ho] at h1; exact h1
    | error => exact ⟨nofun, trivial⟩
    | deep => rw [ho] at h1; exact absurd rfl h1.1

end

theorem handle_ends {files : Str → Option File} {isClass : Str → Bool} {classes : List Str} {rank : Str → Nat} {R : Nat}
    (hp : Proper files isClass) (hl : Layered files rank) (hcl : ∀ c, isClass c = true → files c ≠ none → c ∈ classes)
    (hR : ∀ f, rank f ≤ R) : ∀ (n : Nat) (f : Str) (st : St), Enough classes rank R n f st → Fine st (handle files isClass n f st)
  | 0, _, _, h => absurd h (Nat.not_lt_zero _)
  | n + 1, f, st, h => by
    unfold handle
    cases hf : files f with
    | none => exact ⟨nofun, fun _ hc => hc⟩
    | some file =>
      dsimp only
      have hsub : ∀ c, c ∈ st.inherited → c ∈ (if isClass f = true ∧ f ∉ st.inherited then st.inherited ++ [f] else st.inherited) := by
        intro c hc
        split
        · exact List.mem_append_left _ hc
        · exact hc
      have h1 := evalNodes_ends (parent := f) (k := left classes st) hcl hR (handle_ends hp hl hcl hR n) (by unfold Enough at h; omega)
        (fun nd hnd => ⟨fun fs force e g hg hne => hl f file hf fs force (e ▸ hnd) g hg hne, (hp f file hf nd hnd).2⟩)
        (st := { inherited := if isClass f = true ∧ f ∉ st.inherited then st.inherited ++ [f] else st.inherited
                 inFunc := file.opened
                 trace := st.trace ++ [.enter f] }) (left_le hsub)
      cases ho : evalNodes files (handle files isClass n) f file.nodes
        { inherited := if isClass f = true ∧ f ∉ st.inherited then st.inherited ++ [f] else st.inherited
          inFunc := file.opened
          trace := st.trace ++ [.enter f] } with
      | done st' =>
        rw [ho] at h1
        dsimp only
        split
        · exact ⟨nofun, trivial⟩
        · exact ⟨nofun, fun c hc => h1.2 c (hsub c hc)⟩
      | missing st' => rw [ho] at h1; exact ⟨nofun, fun c hc => h1.2 c (hsub c hc)⟩
      | error => exact ⟨nofun, trivial⟩
      | deep => rw [ho] at h1; exact absurd rfl h1.1

/-- C144: evaluating a file comes to an end, also if classes inherit each other, unless inclusions go round in circles. -/
theorem evaluation_ends {files : Str → Option File} {isClass : Str → Bool} {classes : List Str} {rank : Str → Nat} {R : Nat}
    (hp : Proper files isClass) (hl : Layered files rank) (hcl : ∀ c, isClass c = true → files c ≠ none → c ∈ classes)
    (hR : ∀ f, rank f ≤ R) (f : Str) : handle files isClass (classes.length * (R + 1) + R + 1) f start ≠ .deep := by
  refine (handle_ends hp hl hcl hR _ f start ?_).1
  unfold Enough
  have h1 : left classes start ≤ classes.length := List.length_filter_le _ _
  have := Nat.mul_le_mul_right (R + 1) h1
  have := hR f
  omega

/-- C144: after a line that inherits classes, all of them have been inherited. -/
theorem inherits_all {files : Str → Option File} {h : Str → St → Out} (hg : ∀ f st, Grows st (h f st)) : ∀ {cs : List Str} {st st' : St},
    inheritAll files h cs st = .done st' → (∀ c, c ∈ cs → c ∈ st'.inherited) ∧ ∀ c, c ∈ st.inherited → c ∈ st'.inherited
  | [], st, st', e => by
    injection e with e
    subst e
    exact ⟨fun c hc => (nomatch hc), fun c hc => hc⟩
  | c :: cs, st, st', e => by
    unfold inheritAll at e
    split at e
    · cases e
    split at e
    · rename_i hc
      have ih := inherits_all hg e
      exact ⟨fun d hd => (List.mem_cons.1 hd).elim (fun h => h ▸ ih.2 c hc) (ih.1 d), ih.2⟩
    · have h1 := hg c { st with inherited := st.inherited ++ [c] }
      cases ho : h c { st with inherited := st.inherited ++ [c] } with
      | done x =>
        rw [ho] at e h1
        have ih := inherits_all hg e
        exact ⟨fun d hd => (List.mem_cons.1 hd).elim (fun h => h ▸ ih.2 c (h1 c (List.mem_append_right _ List.mem_cons_self))) (ih.1 d),
          fun d hd => ih.2 d (h1 d (List.mem_append_left _ hd))⟩
      | missing x => rw [ho] at e; cases e
      | error => rw [ho] at e; cases e
      | deep => rw [ho] at e; cases e

theorem grows_trans {st st' : St} {o : Out} (h : ∀ c, c ∈ st.inherited → c ∈ st'.inherited) (ho : Grows st' o) : Grows st o := by
  unfold Grows at ho ⊢
  cases o with
  | done x => exact fun c hc => ho c (h c hc)
  | missing x => exact fun c hc => ho c (h c hc)
  | error => exact trivial
  | deep => exact trivial

section
variable {files : Str → Option File} {isClass : Str → Bool} {h : Str → St → Out}

theorem includeAll_grows (hg : ∀ f st, Grows st (h f st)) {parent : Str} {force : Bool} : ∀ {fs : List Str} {st : St},
    Grows st (includeAll h parent force fs st)
  | [], _ => fun _ hc => hc
  | f :: fs, st => by
    unfold includeAll
    split
    · exact includeAll_grows hg
    · have h1 := hg f st
      cases ho : h f st with
      | done st' => rw [ho] at h1; exact grows_trans h1 (includeAll_grows hg)
      | missing st' =>
        rw [ho] at h1
        dsimp only
        split
        · exact trivial
        · exact grows_trans h1 (includeAll_grows hg)
      | error => exact trivial
      | deep => exact trivial

theorem inheritAll_grows (hg : ∀ f st, Grows st (h f st)) : ∀ {cs : List Str} {st : St}, Grows st (inheritAll files h cs st)
  | [], _ => fun _ hc => hc
  | c :: cs, st => by
    unfold inheritAll
    split
    · exact trivial
    split
    · exact inheritAll_grows hg
    · have h1 := hg c { st with inherited := st.inherited ++ [c] }
      cases ho : h c { st with inherited := st.inherited ++ [c] } with
      | done st' => rw [ho] at h1; exact grows_trans (fun d hd => h1 d (List.mem_append_left _ hd)) (inheritAll_grows hg)
      | missing st' => exact trivial
      | error => exact trivial
      | deep => exact trivial

theorem evalNodes_grows (hg : ∀ f st, Grows st (h f st)) {parent : Str} : ∀ {ns : List Node} {st : St},
    Grows st (evalNodes files h parent ns st)
  | [], _ => fun _ hc => hc
  | nd :: ns, st => by
    have h1 : Grows st (evalNode files h parent nd st) := by
      cases nd with
      | text x => exact fun _ hc => hc
      | «include» fs force => exact includeAll_grows hg
      | inherit cs => exact inheritAll_grows hg
    unfold evalNodes
    cases ho : evalNode files h parent nd st with
    | done st' => rw [ho] at h1; exact grows_trans h1 (evalNodes_grows hg)
    | missing st' => rw [ho] at h1; exact h1
    | error => exact trivial
    | deep => exact trivial

end

theorem handle_grows {files : Str → Option File} {isClass : Str → Bool} : ∀ (n : Nat) (f : Str) (st : St), Grows st (handle files isClass n f st)
  | 0, _, _ => trivial
  | n + 1, f, st => by
    unfold handle
    cases hf : files f with
    | none => exact fun _ hc => hc
    | some file =>
      dsimp only
      have hsub : ∀ c, c ∈ st.inherited → c ∈ (if isClass f = true ∧ f ∉ st.inherited then st.inherited ++ [f] else st.inherited) := by
        intro c hc
        split
        · exact List.mem_append_left _ hc
        · exact hc
      have h1 : Grows st (evalNodes files (handle files isClass n) f file.nodes
          { inherited := if isClass f = true ∧ f ∉ st.inherited then st.inherited ++ [f] else st.inherited
            inFunc := file.opened
            trace := st.trace ++ [.enter f] }) := grows_trans hsub (evalNodes_grows (handle_grows n))
      cases ho : evalNodes files (handle files isClass n) f file.nodes
        { inherited := if isClass f = true ∧ f ∉ st.inherited then st.inherited ++ [f] else st.inherited
          inFunc := file.opened
          trace := st.trace ++ [.enter f] } with
      | done st' =>
        rw [ho] at h1
        dsimp only
        split
        · exact trivial
        · exact h1
      | missing st' => rw [ho] at h1; exact h1
      | error => exact trivial
      | deep => exact trivial

/-- C144: after a line that inherits classes, each of them has been evaluated, once. -/
theorem inherit_line {files : Str → Option File} {isClass : Str → Bool} (hp : Proper files isClass) {n : Nat} {f : Str} {cs : List Str}
    {st st' : St} (hs : ∀ c, isClass c = true → entered st c = if c ∈ st.inherited then 1 else 0)
    (h : evalNode files (handle files isClass n) f (.inherit cs) st = .done st') (c : Str) (hc : c ∈ cs) (hcl : isClass c = true) :
    c ∈ st'.inherited ∧ entered st' c = 1 := by
  have h1 := (inherits_all (handle_grows n) h).1 c hc
  have h2 : Out.All (Inv isClass) (evalNode files (handle files isClass n) f (.inherit cs) st) :=
    inheritAll_inv (handle_inv hp n) hs
  rw [h] at h2
  refine ⟨h1, ?_⟩
  rw [h2 c hcl, if_pos h1]

/-- C144: a class that is inherited but does not exist is an error. -/
theorem class_missing {files : Str → Option File} {isClass : Str → Bool} {n : Nat} {f : Str} {cs : List Str} {c : Str} {st st' : St}
    (hc : c ∈ cs) (hf : files c = none) : evalNode files (handle files isClass n) f (.inherit cs) st ≠ .done st' := by
  show inheritAll files (handle files isClass n) cs st ≠ .done st'
  induction cs generalizing st with
  | nil => cases hc
  | cons d cs ih =>
    unfold inheritAll
    split
    · exact nofun
    · rename_i hd
      have hc := (List.mem_cons.1 hc).resolve_left fun e => hd (e ▸ hf)
      split
      · exact ih hc
      · cases handle files isClass n d { st with inherited := st.inherited ++ [d] } with
        | done x => exact ih hc
        | missing x => exact nofun
        | error => exact nofun
        | deep => exact nofun

/-! ## Where it does not hold -/

def a : Str := "a.inc".toList
def b : Str := "b.inc".toList

/-- Two files that include each other. -/
def circle : Str → Option File := fun f => if f = a then some ⟨[.include [b] true], false⟩ else if f = b then some ⟨[.include [a] true], false⟩ else none

/-- Against C144: no depth is enough for two files that include each other. -/
theorem circle_deep : ∀ (n : Nat) (st : St), handle circle (fun _ => false) n a st = .deep ∧ handle circle (fun _ => false) n b st = .deep
  | 0, _ => ⟨rfl, rfl⟩
  | n + 1, st => by
    constructor
    · have h := (circle_deep n ⟨st.inherited, false, st.trace ++ [.enter a]⟩).2
      show (match (match (match handle circle (fun _ => false) n b ⟨st.inherited, false, st.trace ++ [.enter a]⟩ with
        | .done st' => Out.done st'
        | .missing st' => .error
        | o => o) with
        | .done st' => Out.done st'
        | o => o) with
        | .done st' => if st'.inFunc then Out.error else Out.done st'
        | o => o) = Out.deep
      rw [h]
    · have h := (circle_deep n ⟨st.inherited, false, st.trace ++ [.enter b]⟩).1
      show (match (match (match handle circle (fun _ => false) n a ⟨st.inherited, false, st.trace ++ [.enter b]⟩ with
        | .done st' => Out.done st'
        | .missing st' => .error
        | o => o) with
        | .done st' => Out.done st'
        | o => o) with
        | .done st' => if st'.inFunc then Out.error else Out.done st'
        | o => o) = Out.deep
      rw [h]

/-- C140: a function that is not closed is seen, in a file that includes and inherits nothing. -/
theorem unclosed_seen {files : Str → Option File} {isClass : Str → Bool} {n : Nat} {f : Str} {st : St} {file : File} (hf : files f = some file)
    (ho : file.opened = true) (ht : ∀ nd, nd ∈ file.nodes → ∃ x, nd = .text x) : handle files isClass (n + 1) f st = .error := by
  have key : ∀ (ns : List Node), (∀ nd, nd ∈ ns → ∃ x, nd = .text x) → ∀ st : St, st.inFunc = true →
      ∃ st', evalNodes files (handle files isClass n) f ns st = .done st' ∧ st'.inFunc = true := by
    intro ns
    induction ns with
    | nil => intro _ st h; exact ⟨st, rfl, h⟩
    | cons nd ns ih =>
      intro hn st h
      obtain ⟨x, rfl⟩ := hn _ List.mem_cons_self
      exact ih (fun y hy => hn y (List.mem_cons_of_mem _ hy)) { st with trace := st.trace ++ [.text x] } h
  unfold handle
  rw [hf]
  dsimp only
  obtain ⟨st', h1, h2⟩ := key file.nodes ht
    { inherited := if isClass f = true ∧ f ∉ st.inherited then st.inherited ++ [f] else st.inherited
      inFunc := file.opened
      trace := st.trace ++ [.enter f] } ho
  rw [h1]
  dsimp only
  rw [if_pos h2]

/-- Against C140: a function that is not closed is not seen in a file that includes another one, even if that does not
exist; the function is lost. -/
theorem unclosed_lost : handle (fun f => if f = a then some ⟨[.text 1, .include [b] false], true⟩ else none) (fun _ => false) 2 a start =
    .done ⟨[], false, [.enter a, .text 1]⟩ := by decide +kernel

def base : Str := "base.bbclass".toList
def dpkg : Str := "dpkg.bbclass".toList

/-- Two classes that inherit each other. -/
def classes2 : Str → Option File := fun f =>
  if f = a then some ⟨[.inherit [base, dpkg], .text 0], false⟩
  else if f = base then some ⟨[.inherit [dpkg], .text 1], false⟩
  else if f = dpkg then some ⟨[.text 2, .inherit [base], .text 3], false⟩
  else none

example : handle classes2 (fun f => f = base ∨ f = dpkg) 9 a start =
    .done ⟨[base, dpkg], false, [.enter a, .enter base, .enter dpkg, .text 2, .text 3, .text 1, .text 0]⟩ := by decide +kernel

end Bb.Eval
