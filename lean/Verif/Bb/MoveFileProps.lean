import Verif.Bb.MoveFileModel

/-!
C257: moving a file never loses it, wherever it is interrupted, and replaces the destination at once.  C258: the same for copies.
-/

namespace Bb.MoveFile

open Py

namespace Spec

/-- a regular file with this content -/
def Has (fs : FS) (p : Str) (c : Nat) : Prop := ∃ t, fs p = some (.file c t)

/-- the states in which a crash can leave the file system, and the last one -/
def states (r : Run) : List FS := r.hist ++ [r.last]

/-- the time that a file is to have: the given one, if there is one, or its own -/
def time (given : Option Nat) (own : Nat) : Nat :=
  match given with
  | some n => if n ≠ 0 then n else own
  | none => own

def NotLink (fs : FS) (p : Str) : Prop := ∀ t, fs p ≠ some (.link t)

end Spec

open Spec

theorem set_same (fs : FS) (p : Str) (n : Option Node) : set fs p n p = n := by simp [set]

theorem set_other (fs : FS) {p q : Str} (n : Option Node) (h : q ≠ p) : set fs p n q = fs q := by simp [set, h]

theorem newOf_ne (p : Str) : newOf p ≠ p := by
  intro h
  have := congrArg List.length h
  have e : ("#new".toList).length = 4 := by decide
  simp only [newOf, List.length_append, e] at this
  omega

/-- what `dropLink` leaves -/
theorem dropLink_cases (f : Faults) (fs : FS) (dest : Str) :
    (dropLink f fs dest).1 = fs ∨ ((∃ t, fs dest = some (.link t)) ∧ (dropLink f fs dest).1 = set fs dest none) := by
  unfold dropLink
  rcases h : fs dest with _ | (⟨c, t⟩ | t | _)
  · exact .inl rfl
  · exact .inl rfl
  · by_cases hf : f.unlinkLink = true
    · simp [hf]
    · simp [hf]
  · exact .inl rfl

theorem dropLink_notLink (f : Faults) (fs : FS) (dest : Str) (h : NotLink fs dest) : (dropLink f fs dest).1 = fs := by
  rcases dropLink_cases f fs dest with e | ⟨⟨t, e⟩, _⟩
  · exact e
  · exact absurd e (h t)

theorem dropLink_other (f : Faults) (fs : FS) (dest q : Str) (h : NotLink fs q ∨ q ≠ dest) : (dropLink f fs dest).1 q = fs q := by
  rcases dropLink_cases f fs dest with e | ⟨⟨t, e⟩, e'⟩
  · rw [e]
  · rw [e']
    by_cases hq : q = dest
    · subst hq
      rcases h with h | h
      · exact absurd e (h t)
      · exact absurd rfl h
    · exact set_other _ _ hq

/-- the states of a copy -/
theorem copyOver_states (f : Faults) (h : List FS) (fs : FS) (c : Nat) (p : Str) (s : FS)
    (hs : s ∈ (copyOver f h fs c p).1 ++ [(copyOver f h fs c p).2.1]) :
    s ∈ h ∨ s = fs ∨ (∃ n, s = set fs (newOf p) n) ∨
      ((copyOver f h fs c p).2.2 = true ∧ s = (copyOver f h fs c p).2.1) := by
  revert hs
  unfold copyOver
  dsimp only
  split
  · split <;> simp <;> grind
  · split
    · simp; grind
    · split
      · simp; grind
      · simp; grind

/-- the result of a copy -/
theorem copyOver_done (f : Faults) (h : List FS) (fs : FS) (c : Nat) (p : Str) (hd : (copyOver f h fs c p).2.2 = true) :
    (copyOver f h fs c p).2.1 = set (set (set fs (newOf p) (some (.file c f.now))) p (some (.file c f.now))) (newOf p) none ∧
      (copyOver f h fs c p).1 = h ++ [fs, set fs (newOf p) (some (.file f.part f.now)), set fs (newOf p) (some (.file c f.now))] := by
  revert hd
  unfold copyOver
  dsimp only
  split
  · simp
  · split
    · simp
    · unfold renameTo
      rw [if_neg (newOf_ne p)]
      split
      · simp_all
      · next h => 
        split at h
        · simp at h
        · simp [set_same] at h
          simp [h]

theorem utime_other (fs : FS) {p q : Str} (t : Nat) (h : q ≠ p) : utime fs p t q = fs q := by
  unfold utime
  rcases fs p with _ | (⟨c, u⟩ | u | _)
  · rfl
  · exact set_other _ _ h
  · rfl
  · rfl

theorem utime_has (fs : FS) (p : Str) (t c : Nat) (h : Has fs p c) : utime fs p t p = some (.file c t) := by
  obtain ⟨t', h⟩ := h
  simp [utime, h, set_same]

theorem finish_states (h : List FS) (fs : FS) (p : Str) (nm : Option Nat) (t : Nat) :
    ∃ u, finish h fs p nm t = ⟨h ++ [fs], utime fs p u, .mtime u⟩ ∧ u = Spec.time nm t := by
  unfold finish
  rcases nm with _ | n
  · exact ⟨t, rfl, rfl⟩
  · by_cases hn : n ≠ 0
    · exact ⟨n, by simp [hn], by simp [Spec.time, hn]⟩
    · exact ⟨t, by simp [hn], by simp [Spec.time, hn]⟩

/-- what a rename of the file `src` gives -/
theorem renameTo_some {fs fs' : FS} {a b : Str} (h : renameTo fs a b = some fs') (hne : a ≠ b) :
    ∃ n, fs a = some n ∧ fs' = set (set fs b (some n)) a none := by
  unfold renameTo at h
  rw [if_neg hne] at h
  split at h
  · simp at h
  · split at h
    · simp at h
    · next n hn => exact ⟨n, hn, by simpa using h.symm⟩

/-- All states of a move of a regular file, from the state `fs1` in which a link has been removed. -/
theorem move_states (f : Faults) (fs : FS) (dev : Bool) (src dest base : Str) (nm : Option Nat) (c t : Nat) (hsrc : fs src = some (.file c t))
    (p : Str) (hp : p = destPath (dropLink f fs dest).1 dest base) (hne : src ≠ p)
    (s : FS) (hs : s ∈ states (movefile f fs dev src dest base nm)) :
    s = fs ∨ s = (dropLink f fs dest).1 ∨ (∃ n, s = set (dropLink f fs dest).1 (newOf p) n) ∨
      (Has s p c ∧ (∀ q, q ≠ src → q ≠ p → q ≠ newOf p → s q = (dropLink f fs dest).1 q)) := by
  have h1 : (dropLink f fs dest).1 src = some (.file c t) := by
    rw [dropLink_other]
    · exact hsrc
    · left; intro u; rw [hsrc]; simp
  unfold movefile at hs
  rw [hsrc] at hs
  dsimp only at hs
  rw [← hp] at hs
  generalize (dropLink f fs dest).1 = fs1 at *
  split at hs
  · split at hs
    · simp [states] at hs; grind
    · rcases hr : renameTo fs1 src p with _ | fs2
      · simp [hr, states] at hs; grind
      · rw [hr] at hs
        dsimp only at hs
        obtain ⟨n, hn, e⟩ := renameTo_some hr hne
        rw [h1] at hn
        simp only [Option.some.injEq] at hn
        subst hn
        obtain ⟨u, hu, _⟩ := finish_states [fs, fs1] fs2 p nm t
        rw [hu] at hs
        have hh : Has fs2 p c := ⟨t, by rw [e, set_other _ _ (Ne.symm hne), set_same]⟩
        have ho : ∀ q, q ≠ src → q ≠ p → fs2 q = fs1 q := by
          intro q h2 h3
          rw [e, set_other _ _ h2, set_other _ _ h3]
        simp only [states, List.cons_append, List.nil_append, List.mem_cons, List.not_mem_nil, or_false] at hs
        rcases hs with hs | hs | hs | hs
        · exact .inl hs
        · exact .inr (.inl hs)
        · subst hs
          exact .inr (.inr (.inr ⟨hh, fun q a b _ => ho q a b⟩))
        · subst hs
          exact .inr (.inr (.inr ⟨⟨u, utime_has _ _ _ _ hh⟩, fun q a b _ => by rw [utime_other _ _ b]; exact ho q a b⟩))
  · have hc := copyOver_states f [fs] fs1 c p
    have hd := copyOver_done f [fs] fs1 c p
    generalize copyOver f [fs] fs1 c p = r at *
    obtain ⟨h, x, ok⟩ := r
    dsimp only at *
    have fin : ∀ s, s ∈ h ++ [x] → s = fs ∨ s = fs1 ∨ (∃ n, s = set fs1 (newOf p) n) ∨
        (Has s p c ∧ (∀ q, q ≠ src → q ≠ p → q ≠ newOf p → s q = fs1 q)) := by
      intro s hs
      rcases hc s hs with a | a | a | ⟨a, b⟩
      · exact .inl (by simpa using a)
      · exact .inr (.inl a)
      · exact .inr (.inr (.inl a))
      · refine .inr (.inr (.inr ?_))
        rw [b, (hd a).1]
        refine ⟨⟨f.now, by rw [set_other _ _ (Ne.symm (newOf_ne p)), set_same]⟩, fun q _ h3 h4 => ?_⟩
        rw [set_other _ _ h4, set_other _ _ h3, set_other _ _ h4]
    split at hs
    · next hok =>
      split at hs
      · exact fin s hs
      · obtain ⟨u, hu, _⟩ := finish_states (h ++ [x]) (set x src none) p nm t
        rw [hu] at hs
        have e := (hd hok).1
        have hh : Has (set x src none) p c :=
          ⟨f.now, by rw [set_other _ _ (Ne.symm hne), e, set_other _ _ (Ne.symm (newOf_ne p)), set_same]⟩
        have ho : ∀ q, q ≠ src → q ≠ p → q ≠ newOf p → set x src none q = fs1 q := by
          intro q h2 h3 h4
          rw [set_other _ _ h2, e, set_other _ _ h4, set_other _ _ h3, set_other _ _ h4]
        simp only [states] at hs
        rw [List.mem_append, List.mem_append, List.mem_singleton, List.mem_singleton] at hs
        rcases hs with (hs | hs) | hs
        · exact fin s hs
        · subst hs
          exact .inr (.inr (.inr ⟨hh, ho⟩))
        · subst hs
          exact .inr (.inr (.inr ⟨⟨u, utime_has _ _ _ _ hh⟩, fun q a b d => by rw [utime_other _ _ b]; exact ho q a b d⟩))
    · exact fin s hs

/-! ## C257 -/

/-- Whatever fails and wherever a move is interrupted, the file is at its old or its new place, whole. -/
theorem move_keeps (f : Faults) (fs : FS) (dev : Bool) (src dest base : Str) (nm : Option Nat) (c t : Nat) (hsrc : fs src = some (.file c t))
    (p : Str) (hp : p = destPath (dropLink f fs dest).1 dest base) (hne : src ≠ p) (hne' : src ≠ newOf p)
    (s : FS) (hs : s ∈ states (movefile f fs dev src dest base nm)) : Has s src c ∨ Has s p c := by
  have h1 : (dropLink f fs dest).1 src = some (.file c t) := by
    rw [dropLink_other]
    · exact hsrc
    · left; intro u; rw [hsrc]; simp
  rcases move_states f fs dev src dest base nm c t hsrc p hp hne s hs with h | h | ⟨n, h⟩ | ⟨h, _⟩
  · exact .inl ⟨t, by rw [h, hsrc]⟩
  · exact .inl ⟨t, by rw [h, h1]⟩
  · exact .inl ⟨t, by rw [h, set_other _ _ hne', h1]⟩
  · exact .inr h

/-- If the destination is not a link, it has at every moment either what was there or the whole new file, and no path but the source, the destination
and the name of the copy changes. -/
theorem move_atomic_partial (f : Faults) (fs : FS) (dev : Bool) (src dest base : Str) (nm : Option Nat) (c t : Nat)
    (hsrc : fs src = some (.file c t)) (hl : NotLink fs dest) (p : Str) (hp : p = destPath fs dest base) (hne : src ≠ p)
    (s : FS) (hs : s ∈ states (movefile f fs dev src dest base nm)) :
    (s p = fs p ∨ Has s p c) ∧ ∀ q, q ≠ src → q ≠ p → q ≠ newOf p → s q = fs q := by
  have e := dropLink_notLink f fs dest hl
  rcases move_states f fs dev src dest base nm c t hsrc p (by rw [e]; exact hp) hne s hs with h | h | ⟨n, h⟩ | ⟨h, h'⟩
  · subst h; exact ⟨.inl rfl, fun _ _ _ _ => rfl⟩
  · rw [e] at h; subst h; exact ⟨.inl rfl, fun _ _ _ _ => rfl⟩
  · rw [e] at h
    subst h
    exact ⟨.inl (set_other _ _ (Ne.symm (newOf_ne p))), fun q _ _ h4 => set_other _ _ h4⟩
  · rw [e] at h'
    exact ⟨.inr h, h'⟩

/-- A time is returned only after the file has been moved: the source is gone, the destination has the content and the time, and no copy is left that was not
there. -/
theorem move_success (f : Faults) (fs : FS) (dev : Bool) (src dest base : Str) (nm : Option Nat) (c t : Nat) (hsrc : fs src = some (.file c t))
    (p : Str) (hp : p = destPath (dropLink f fs dest).1 dest base) (hne : src ≠ p) (hne' : src ≠ newOf p) (u : Nat)
    (h : (movefile f fs dev src dest base nm).ret = .mtime u) :
    (movefile f fs dev src dest base nm).last src = none ∧ (movefile f fs dev src dest base nm).last p = some (.file c u) ∧
      u = Spec.time nm t ∧
      ((movefile f fs dev src dest base nm).last (newOf p) = none ∨
        (movefile f fs dev src dest base nm).last (newOf p) = (dropLink f fs dest).1 (newOf p)) := by
  have h1 : (dropLink f fs dest).1 src = some (.file c t) := by
    rw [dropLink_other]
    · exact hsrc
    · left; intro u; rw [hsrc]; simp
  revert h
  unfold movefile
  rw [hsrc]
  dsimp only
  rw [← hp]
  generalize (dropLink f fs dest).1 = fs1 at *
  split
  · split
    · intro h; simp at h
    · rcases hr : renameTo fs1 src p with _ | fs2
      · intro h; simp at h
      · dsimp only
        obtain ⟨n, hn, e⟩ := renameTo_some hr hne
        rw [h1] at hn
        simp only [Option.some.injEq] at hn
        subst hn
        obtain ⟨u', hu, hu'⟩ := finish_states [fs, fs1] fs2 p nm t
        rw [hu]
        intro h
        simp only [Ret.mtime.injEq] at h
        subst h
        have hh : Has fs2 p c := ⟨t, by rw [e, set_other _ _ (Ne.symm hne), set_same]⟩
        refine ⟨?_, utime_has _ _ _ _ hh, hu', .inr ?_⟩
        · show utime fs2 p u' src = none
          rw [utime_other _ _ hne, e, set_same]
        · show utime fs2 p u' (newOf p) = _
          rw [utime_other _ _ (newOf_ne p), e, set_other _ _ (Ne.symm hne'), set_other _ _ (newOf_ne p)]
  · have hd := copyOver_done f [fs] fs1 c p
    generalize copyOver f [fs] fs1 c p = r at *
    obtain ⟨hst, x, ok⟩ := r
    dsimp only at *
    split
    · next hok =>
      split
      · intro h; simp at h
      · obtain ⟨u', hu, hu'⟩ := finish_states (hst ++ [x]) (set x src none) p nm t
        rw [hu]
        intro h
        simp only [Ret.mtime.injEq] at h
        subst h
        have e := (hd hok).1
        have hh : Has (set x src none) p c :=
          ⟨f.now, by rw [set_other _ _ (Ne.symm hne), e, set_other _ _ (Ne.symm (newOf_ne p)), set_same]⟩
        refine ⟨?_, utime_has _ _ _ _ hh, hu', .inl ?_⟩
        · show utime (set x src none) p u' src = none
          rw [utime_other _ _ hne, set_same]
        · show utime (set x src none) p u' (newOf p) = _
          rw [utime_other _ _ (newOf_ne p), set_other _ _ (Ne.symm hne'), e, set_same]
    · intro h; simp at h

/-! ### What is false -/

def good : Faults := ⟨false, false, false, false, false, false, false, false, false, 0, 9⟩

/-- a file, and a link -/
def two : FS := fun p => if p = ['a'] then some (.file 1 5) else if p = ['l'] then some (.link ['x']) else none

/-- The move is not atomic if the destination is a link: there is a moment at which nothing is there, and if the rename fails nothing ever is. -/
theorem link_not_atomic :
    (∃ s ∈ states (movefile good two true ['a'] ['l'] ['a'] none), s ['l'] = none) ∧
      (movefile { good with rename := true } two true ['a'] ['l'] ['a'] none).ret = .failed ∧
      (movefile { good with rename := true } two true ['a'] ['l'] ['a'] none).last ['l'] = none := by
  refine ⟨⟨set two ['l'] none, ?_, by decide⟩, by decide, by decide⟩
  show _ ∈ [two, set two ['l'] none, _, _]
  simp

/-- A file of the time 0 is moved, and the caller takes this for a failure. -/
theorem time_zero : (Ret.mtime 0).truth = false ∧
    (movefile good (fun p => if p = ['a'] then some (.file 1 0) else none) true ['a'] ['b'] ['a'] none).ret = .mtime 0 ∧
    (movefile good (fun p => if p = ['a'] then some (.file 1 0) else none) true ['a'] ['b'] ['a'] none).last ['b'] = some (.file 1 0) := by
  refine ⟨rfl, by decide, by decide⟩

/-- A link that is moved or copied to itself is lost, with an exception. -/
theorem link_to_itself : (movefile good two true ['l'] ['l'] ['l'] none).ret = .unbound ∧
    (movefile good two true ['l'] ['l'] ['l'] none).last ['l'] = none ∧
    (copyfile good two ['l'] ['l'] none).ret = .unbound ∧ (copyfile good two ['l'] ['l'] none).last ['l'] = none := by
  refine ⟨by decide, by decide, by decide, by decide⟩

/-! ## C258 -/

/-- All states of a copy of a regular file. -/
theorem copy_states (f : Faults) (fs : FS) (src dest : Str) (nm : Option Nat) (c t : Nat) (hsrc : fs src = some (.file c t))
    (s : FS) (hs : s ∈ states (copyfile f fs src dest nm)) :
    s = fs ∨ s = (dropLink f fs dest).1 ∨ (∃ n, s = set (dropLink f fs dest).1 (newOf dest) n) ∨
      (Has s dest c ∧ (∀ q, q ≠ dest → q ≠ newOf dest → s q = (dropLink f fs dest).1 q)) := by
  unfold copyfile at hs
  rw [hsrc] at hs
  dsimp only at hs
  generalize (dropLink f fs dest).1 = fs1 at *
  have hc := copyOver_states f [fs] fs1 c dest
  have hd := copyOver_done f [fs] fs1 c dest
  generalize copyOver f [fs] fs1 c dest = r at *
  obtain ⟨h, x, ok⟩ := r
  dsimp only at *
  have done : ok = true → Has x dest c ∧ (∀ q, q ≠ dest → q ≠ newOf dest → x q = fs1 q) := by
    intro a
    rw [(hd a).1]
    refine ⟨⟨f.now, by rw [set_other _ _ (Ne.symm (newOf_ne dest)), set_same]⟩, fun q h3 h4 => ?_⟩
    rw [set_other _ _ h4, set_other _ _ h3, set_other _ _ h4]
  have fin : ∀ s, s ∈ h ++ [x] → s = fs ∨ s = fs1 ∨ (∃ n, s = set fs1 (newOf dest) n) ∨
      (Has s dest c ∧ (∀ q, q ≠ dest → q ≠ newOf dest → s q = fs1 q)) := by
    intro s hs
    rcases hc s hs with a | a | a | ⟨a, b⟩
    · exact .inl (by simpa using a)
    · exact .inr (.inl a)
    · exact .inr (.inr (.inl a))
    · rw [b]; exact .inr (.inr (.inr (done a)))
  split at hs
  · next hok =>
    split at hs
    · exact fin s hs
    · obtain ⟨u, hu, _⟩ := finish_states h x dest nm t
      rw [hu] at hs
      simp only [states] at hs
      rw [List.mem_append, List.mem_singleton] at hs
      rcases hs with hs | hs
      · exact fin s hs
      · subst hs
        exact .inr (.inr (.inr ⟨⟨u, utime_has _ _ _ _ (done hok).1⟩, fun q a b => by rw [utime_other _ _ a]; exact (done hok).2 q a b⟩))
  · exact fin s hs

/-- Wherever a copy is interrupted, the source is as before, unless it is the destination, and then it has the same content. -/
theorem copy_keeps (f : Faults) (fs : FS) (src dest : Str) (nm : Option Nat) (c t : Nat) (hsrc : fs src = some (.file c t))
    (hne' : src ≠ newOf dest) (s : FS) (hs : s ∈ states (copyfile f fs src dest nm)) : Has s src c ∧ (src ≠ dest → s src = fs src) := by
  have h1 : (dropLink f fs dest).1 src = some (.file c t) := by
    rw [dropLink_other]
    · exact hsrc
    · left; intro u; rw [hsrc]; simp
  rcases copy_states f fs src dest nm c t hsrc s hs with h | h | ⟨n, h⟩ | ⟨h, h'⟩
  · subst h; exact ⟨⟨t, hsrc⟩, fun _ => rfl⟩
  · subst h; exact ⟨⟨t, h1⟩, fun _ => by rw [h1, hsrc]⟩
  · subst h
    have e : set (dropLink f fs dest).1 (newOf dest) n src = some (.file c t) := by rw [set_other _ _ hne', h1]
    exact ⟨⟨t, e⟩, fun _ => by rw [e, hsrc]⟩
  · by_cases hd : src = dest
    · subst hd; exact ⟨h, fun x => absurd rfl x⟩
    · have e := h' src hd hne'
      exact ⟨⟨t, by rw [e, h1]⟩, fun _ => by rw [e, h1, hsrc]⟩

/-- If the destination is not a link, it has at every moment either what was there or the whole copy. -/
theorem copy_atomic_partial (f : Faults) (fs : FS) (src dest : Str) (nm : Option Nat) (c t : Nat) (hsrc : fs src = some (.file c t))
    (hl : NotLink fs dest) (s : FS) (hs : s ∈ states (copyfile f fs src dest nm)) :
    (s dest = fs dest ∨ Has s dest c) ∧ ∀ q, q ≠ dest → q ≠ newOf dest → s q = fs q := by
  have e := dropLink_notLink f fs dest hl
  rcases copy_states f fs src dest nm c t hsrc s hs with h | h | ⟨n, h⟩ | ⟨h, h'⟩
  · subst h; exact ⟨.inl rfl, fun _ _ _ => rfl⟩
  · rw [e] at h; subst h; exact ⟨.inl rfl, fun _ _ _ => rfl⟩
  · rw [e] at h
    subst h
    exact ⟨.inl (set_other _ _ (Ne.symm (newOf_ne dest))), fun q _ h4 => set_other _ _ h4⟩
  · rw [e] at h'
    exact ⟨.inr h, h'⟩

/-- A time is returned only after the copy is complete. -/
theorem copy_success (f : Faults) (fs : FS) (src dest : Str) (nm : Option Nat) (c t : Nat) (hsrc : fs src = some (.file c t)) (u : Nat)
    (h : (copyfile f fs src dest nm).ret = .mtime u) :
    (copyfile f fs src dest nm).last dest = some (.file c u) ∧ (copyfile f fs src dest nm).last (newOf dest) = none ∧
      u = Spec.time nm t := by
  revert h
  unfold copyfile
  rw [hsrc]
  dsimp only
  generalize (dropLink f fs dest).1 = fs1 at *
  have hd := copyOver_done f [fs] fs1 c dest
  generalize copyOver f [fs] fs1 c dest = r at *
  obtain ⟨hst, x, ok⟩ := r
  dsimp only at *
  split
  · next hok =>
    split
    · intro h; simp at h
    · obtain ⟨u', hu, hu'⟩ := finish_states hst x dest nm t
      rw [hu]
      intro h
      simp only [Ret.mtime.injEq] at h
      subst h
      have e := (hd hok).1
      have hh : Has x dest c := ⟨f.now, by rw [e, set_other _ _ (Ne.symm (newOf_ne dest)), set_same]⟩
      refine ⟨utime_has _ _ _ _ hh, ?_, hu'⟩
      show utime x dest u' (newOf dest) = none
      rw [utime_other _ _ (newOf_ne dest), e, set_same]
  · intro h; simp at h

/-- A link is copied and moved as a link, when nothing fails and the destination is not a directory and not the link itself. -/
theorem link_moved (fs : FS) (dev : Bool) (src dest base : Str) (nm : Option Nat) (t : Str) (hsrc : fs src = some (.link t)) (hne : src ≠ dest)
    (hd : fs dest ≠ some .dir) :
    (movefile good fs dev src dest base nm).ret = .stat ∧ (movefile good fs dev src dest base nm).last = set (set fs dest (some (.link t))) src none ∧
      (copyfile good fs src dest nm).ret = .stat ∧ (copyfile good fs src dest nm).last = set fs dest (some (.link t)) := by
  have twice : ∀ (a b : Option Node), set (set fs dest a) dest b = set fs dest b := by
    intro a b
    funext q
    by_cases hq : q = dest
    · subst hq; simp [set]
    · simp [set, hq]
  rcases hx : fs dest with _ | (⟨c, t'⟩ | t' | _)
  · simp [movefile, copyfile, hsrc, moveLink, dropLink, hx, good]
  · simp [movefile, copyfile, hsrc, moveLink, dropLink, hx, good, set_same, twice]
  · simp [movefile, copyfile, hsrc, moveLink, dropLink, hx, good, set_same, twice, set_other _ _ hne]
  · exact absurd hx hd

/-! ## Examples -/

/-- a move to another device that fails at the end: both are there -/
example : (movefile { good with unlinkSrc := true } two false ['a'] ['b'] ['a'] none).ret = .failed ∧
    (movefile { good with unlinkSrc := true } two false ['a'] ['b'] ['a'] none).last ['b'] = some (.file 1 9) ∧
    (movefile { good with unlinkSrc := true } two false ['a'] ['b'] ['a'] none).last ['a'] = some (.file 1 5) := by
  refine ⟨by decide, by decide, by decide⟩

/-- a copy that is interrupted leaves the part under the other name -/
example : (copyfile { good with copy := true } two ['a'] ['b'] none).ret = .failed ∧
    (copyfile { good with copy := true } two ['a'] ['b'] none).last "b#new".toList = some (.file 0 9) ∧
    (copyfile { good with copy := true } two ['a'] ['b'] none).last ['b'] = none := by
  refine ⟨by decide, by decide, by decide⟩

example : (movefile good two false ['a'] ['b'] ['a'] (some 7)).ret = .mtime 7 ∧ NotLink two ['b'] ∧
    (states (movefile good two false ['a'] ['b'] ['a'] (some 7))).length = 7 ∧
    (movefile good two false ['a'] ['b'] ['a'] (some 7)).last ['b'] = some (.file 1 7) := by
  refine ⟨by decide, ?_, by decide, by decide⟩
  intro t
  simp [two]

/-- a move into a directory -/
example : (movefile good (fun p => if p = ['a'] then some (.file 1 5) else if p = ['d'] then some .dir else none) true ['a'] ['d'] ['a'] none).last
    "d/a".toList = some (.file 1 5) := by decide

end Bb.MoveFile
