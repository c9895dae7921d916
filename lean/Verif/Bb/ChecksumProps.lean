import Verif.Bb.ChecksumModel
import Verif.Bb.CollectProps
import Verif.Bb.CacheProps
/-!
# The checksum of a file is that of its content, and all files that count do
-/

namespace Bb.Checksum

open Py

/-! ## The cache -/

/-- What a file contains if it was changed at a time: files that are changed get a new time. -/
abbrev History := Str → Nat → Str

/-- All entries of a table are right. -/
def Right (md5 : Str → Str) (C : History) (d : Cache) : Prop := ∀ e ∈ d, e.2.2 = md5 (C e.1 e.2.1)

/-- The process `p` asked for the file `f`, and was not started again and did not forget times since. -/
def Looked (ops : List Op) (p : Nat) (f : Str) : Prop :=
  ∃ a b, ops = a ++ .get p f :: b ∧ Op.clear p ∉ b ∧ Op.start p ∉ b

/-- A history in which a file gets a new time whenever it is changed, and is not changed while a process counts
on it. -/
def Fair (C : History) (ops : List Op) : Prop :=
  (∀ a f c m b, ops = a ++ .write f c m :: b → c = C f m ∧ ∀ p, ¬ Looked a p f) ∧
  (∀ a f b, ops = a ++ .remove f :: b → ∀ p, ¬ Looked a p f)

/-- What holds in each state. -/
structure Inv (md5 : Str → Str) (C : History) (done : List Op) (s : Sys) : Prop where
  files : ∀ f c m, s.files f = some (c, m) → c = C f m
  data : ∀ p, Right md5 C (s.procs p).data
  extras : ∀ p, Right md5 C (s.procs p).extras
  times : ∀ p f m, (s.procs p).mtimes.lookup f = some m → (∃ c, s.files f = some (c, m)) ∧ Looked done p f
  cache : Right md5 C s.cacheFile
  parts : ∀ c, Part.good c ∈ s.parts → Right md5 C c

theorem set_mem {α : Type} {d : Dict α} {k : Str} {v : α} {x : Str × α} (h : x ∈ Dict.set d k v) : x ∈ d ∨ x = (k, v) := by
  unfold Dict.set at h
  split at h
  · obtain ⟨e, he, hx⟩ := List.mem_map.1 h
    by_cases hk : e.1 = k
    · rw [if_pos hk] at hx; exact Or.inr hx.symm
    · rw [if_neg hk] at hx; exact Or.inl (hx ▸ he)
  · rcases List.mem_append.1 h with h | h
    · exact Or.inl h
    · exact Or.inr (List.mem_singleton.1 h)

theorem lookup_mem {α : Type} : ∀ {d : Dict α} {k : Str} {v : α}, d.lookup k = some v → (k, v) ∈ d
  | (j, w) :: d, k, v, h => by
    rw [List.lookup_cons] at h
    by_cases hk : k = j
    · subst hk
      rw [beq_self_eq_true] at h
      cases h
      exact List.mem_cons_self
    · rw [beq_eq_false_iff_ne.2 hk] at h
      exact List.mem_cons_of_mem _ (lookup_mem h)

theorem Right.set {md5 : Str → Str} {C : History} {d : Cache} (h : Right md5 C d) {f : Str} {m : Nat} :
    Right md5 C (Dict.set d f (m, md5 (C f m))) := by
  intro e he
  rcases set_mem he with he | rfl
  · exact h e he
  · rfl

theorem Right.merge {md5 : Str → Str} {C : History} : ∀ {src d : Cache}, Right md5 C src → Right md5 C d →
    Right md5 C (mergeData src d)
  | [], _, _, hd => hd
  | e :: src, d, hs, hd => by
    refine Right.merge (src := src) (d := Dict.set d e.1 e.2) (fun x hx => hs x (List.mem_cons_of_mem _ hx)) ?_
    intro x hx
    rcases set_mem hx with hx | rfl
    · exact hd x hx
    · exact hs e List.mem_cons_self

theorem Right.mergeParts {md5 : Str → Str} {C : History} : ∀ {ps : List Part} {d : Cache} {b : Bool},
    (∀ c, Part.good c ∈ ps → Right md5 C c) → Right md5 C d → Right md5 C (mergeParts d b ps).1 ∧
    ∀ x ∈ (Checksum.mergeParts d b ps).2.1, x ∈ ps
  | [], _, _, _, hd => ⟨hd, fun _ h => nomatch h⟩
  | .good c :: ps, d, b, hp, hd => by
    obtain ⟨h1, h2⟩ := Right.mergeParts (ps := ps) (d := mergeData c d) (b := true)
      (fun x hx => hp x (List.mem_cons_of_mem _ hx)) (Right.merge (hp c List.mem_cons_self) hd)
    exact ⟨h1, fun x hx => List.mem_cons_of_mem _ (h2 x hx)⟩
  | .empty :: ps, d, b, hp, hd => by
    obtain ⟨h1, h2⟩ := Right.mergeParts (ps := ps) (d := d) (b := b)
      (fun x hx => hp x (List.mem_cons_of_mem _ hx)) hd
    exact ⟨h1, fun x hx => List.mem_cons_of_mem _ (h2 x hx)⟩
  | .cut :: ps, d, b, hp, hd => ⟨hd, fun x hx => hx⟩

/-- What a process is told, and what it has then. -/
theorem get_spec {md5 : Str → Str} {C : History} {done : List Op} {s : Sys} (i : Inv md5 C done s) (p : Nat) (f : Str) :
    (∀ c m, s.files f = some (c, m) → ∃ x, getChecksum md5 s.files (s.procs p) f = some (md5 c, x) ∧
      Right md5 C x.data ∧ Right md5 C x.extras ∧
      ∀ g n, x.mtimes.lookup g = some n → (s.procs p).mtimes.lookup g = some n ∨ (g = f ∧ n = m)) ∧
    (s.files f = none → getChecksum md5 s.files (s.procs p) f = none) := by
  constructor
  · intro c m hf
    have hm : ∃ p1, cachedMtime s.files (s.procs p) f = some (m, p1) ∧ p1.data = (s.procs p).data ∧
        p1.extras = (s.procs p).extras ∧
        ∀ g n, p1.mtimes.lookup g = some n → (s.procs p).mtimes.lookup g = some n ∨ (g = f ∧ n = m) := by
      unfold cachedMtime
      cases hl : (s.procs p).mtimes.lookup f with
      | some n =>
        obtain ⟨⟨c', h1⟩, _⟩ := i.times p f n hl
        rw [hf] at h1
        cases h1
        exact ⟨s.procs p, rfl, rfl, rfl, fun g n h => Or.inl h⟩
      | none =>
        dsimp only
        rw [hf]
        refine ⟨_, rfl, rfl, rfl, fun g n h => ?_⟩
        dsimp only at h
        rw [List.lookup_cons] at h
        by_cases hg : g = f
        · subst hg
          rw [beq_self_eq_true] at h
          cases h
          exact Or.inr ⟨rfl, rfl⟩
        · rw [beq_eq_false_iff_ne.2 hg] at h
          exact Or.inl h
    obtain ⟨p1, e1, e2, e3, e4⟩ := hm
    have hcomp : compute md5 s.files p1 f m = some (md5 c, { p1 with extras := Dict.set p1.extras f (m, md5 c) }) := by
      unfold compute
      rw [hf]
    have hc : c = C f m := i.files f c m hf
    have hset : Right md5 C (Dict.set p1.extras f (m, md5 c)) := by
      rw [hc, e3]
      exact (i.extras p).set
    unfold getChecksum
    rw [e1]
    dsimp only
    cases hd : (s.procs p).data.lookup f with
    | none =>
      dsimp only
      exact ⟨_, hcomp, e2 ▸ i.data p, hset, e4⟩
    | some e =>
      obtain ⟨n, h⟩ := e
      dsimp only
      by_cases hn : m = n
      · rw [if_pos hn]
        have := i.data p _ (lookup_mem hd)
        dsimp only at this
        refine ⟨p1, ?_, e2 ▸ i.data p, e3 ▸ i.extras p, e4⟩
        rw [this, ← hn, ← hc]
      · rw [if_neg hn]
        exact ⟨_, hcomp, e2 ▸ i.data p, hset, e4⟩
  · intro hf
    unfold getChecksum cachedMtime
    cases hl : (s.procs p).mtimes.lookup f with
    | some n =>
      obtain ⟨⟨c', h1⟩, _⟩ := i.times p f n hl
      rw [hf] at h1
      cases h1
    | none =>
      dsimp only
      rw [hf]

theorem Looked.snoc {done : List Op} {p : Nat} {f : Str} (h : Looked done p f) {o : Op} (h1 : o ≠ .clear p)
    (h2 : o ≠ .start p) : Looked (done ++ [o]) p f := by
  obtain ⟨a, b, e, h3, h4⟩ := h
  refine ⟨a, b ++ [o], by rw [e, List.append_assoc]; rfl, ?_, ?_⟩
  · intro h
    rcases List.mem_append.1 h with h | h
    · exact h3 h
    · exact h1 (List.mem_singleton.1 h).symm
  · intro h
    rcases List.mem_append.1 h with h | h
    · exact h4 h
    · exact h2 (List.mem_singleton.1 h).symm

/-- What a step may do: as in `Fair`. -/
def Allowed (C : History) (done : List Op) : Op → Prop
  | .write f c m => c = C f m ∧ ∀ p, ¬ Looked done p f
  | .remove f => ∀ p, ¬ Looked done p f
  | _ => True

theorem Inv.step {md5 : Str → Str} {C : History} {done : List Op} {s : Sys} (i : Inv md5 C done s) {o : Op}
    (ha : Allowed C done o) : Inv md5 C (done ++ [o]) (step md5 s o) := by
  cases o with
  | start p =>
    refine ⟨i.files, fun q => ?_, fun q => ?_, fun q f m h => ?_, i.cache, i.parts⟩
    · show Right md5 C ((if q = p then _ else _ : Proc)).data
      by_cases hq : q = p
      · rw [if_pos hq]; exact i.cache
      · rw [if_neg hq]; exact i.data q
    · show Right md5 C ((if q = p then _ else _ : Proc)).extras
      by_cases hq : q = p
      · rw [if_pos hq]; exact fun _ h => nomatch h
      · rw [if_neg hq]; exact i.extras q
    · have h : ((if q = p then _ else s.procs q : Proc)).mtimes.lookup f = some m := h
      by_cases hq : q = p
      · rw [if_pos hq] at h; cases h
      · rw [if_neg hq] at h
        obtain ⟨h1, h2⟩ := i.times q f m h
        exact ⟨h1, h2.snoc (fun e => nomatch e) (fun e => hq (Op.start.inj e).symm)⟩
  | clear p =>
    refine ⟨i.files, fun q => ?_, fun q => ?_, fun q f m h => ?_, i.cache, i.parts⟩
    · show Right md5 C ((if q = p then _ else _ : Proc)).data
      by_cases hq : q = p
      · rw [if_pos hq]; exact i.data p
      · rw [if_neg hq]; exact i.data q
    · show Right md5 C ((if q = p then _ else _ : Proc)).extras
      by_cases hq : q = p
      · rw [if_pos hq]; exact i.extras p
      · rw [if_neg hq]; exact i.extras q
    · have h : ((if q = p then _ else s.procs q : Proc)).mtimes.lookup f = some m := h
      by_cases hq : q = p
      · rw [if_pos hq] at h; cases h
      · rw [if_neg hq] at h
        obtain ⟨h1, h2⟩ := i.times q f m h
        exact ⟨h1, h2.snoc (fun e => hq (Op.clear.inj e).symm) (fun e => nomatch e)⟩
  | get p g =>
    have old : Inv md5 C (done ++ [.get p g]) s := ⟨i.files, i.data, i.extras,
      fun q f m h => ⟨(i.times q f m h).1, (i.times q f m h).2.snoc (fun e => nomatch e) (fun e => nomatch e)⟩,
      i.cache, i.parts⟩
    obtain ⟨s1, s2⟩ := get_spec i p g
    cases hf : s.files g with
    | none =>
      have : Checksum.step md5 s (.get p g) = s := by
        show (match getChecksum md5 s.files (s.procs p) g with
          | none => s
          | some (_, x) => setProc s p x) = s
        rw [s2 hf]
      rw [this]
      exact old
    | some cm =>
      obtain ⟨c, m⟩ := cm
      obtain ⟨x, e, d1, d2, d3⟩ := s1 c m hf
      have : Checksum.step md5 s (.get p g) = setProc s p x := by
        show (match getChecksum md5 s.files (s.procs p) g with
          | none => s
          | some (_, x) => setProc s p x) = _
        rw [e]
      rw [this]
      refine ⟨i.files, fun q => ?_, fun q => ?_, fun q f n h => ?_, i.cache, i.parts⟩
      · show Right md5 C ((if q = p then x else _ : Proc)).data
        by_cases hq : q = p
        · rw [if_pos hq]; exact d1
        · rw [if_neg hq]; exact i.data q
      · show Right md5 C ((if q = p then x else _ : Proc)).extras
        by_cases hq : q = p
        · rw [if_pos hq]; exact d2
        · rw [if_neg hq]; exact i.extras q
      · have h' : ((if q = p then x else s.procs q : Proc)).mtimes.lookup f = some n := h
        by_cases hq : q = p
        · rw [if_pos hq] at h'
          subst hq
          rcases d3 f n h' with h' | ⟨rfl, rfl⟩
          · exact old.times q f n h'
          · exact ⟨⟨c, hf⟩, done, [], rfl, (nomatch ·), (nomatch ·)⟩
        · rw [if_neg hq] at h'
          exact old.times q f n h'
  | saveExtras p =>
    have ht : ∀ q f m, (s.procs q).mtimes.lookup f = some m →
        (∃ c, s.files f = some (c, m)) ∧ Looked (done ++ [.saveExtras p]) q f := fun q f m h =>
      ⟨(i.times q f m h).1, (i.times q f m h).2.snoc (fun e => nomatch e) (fun e => nomatch e)⟩
    show Inv md5 C _ (if (s.procs p).extras = [] then s else _)
    by_cases he : (s.procs p).extras = []
    · rw [if_pos he]
      exact ⟨i.files, i.data, i.extras, ht, i.cache, i.parts⟩
    · rw [if_neg he]
      refine ⟨i.files, i.data, i.extras, ht, i.cache, fun c hc => ?_⟩
      rcases List.mem_append.1 hc with hc | hc
      · exact i.parts c hc
      · have := List.mem_singleton.1 hc
        cases this
        exact i.extras p
  | dies p cut =>
    refine ⟨i.files, i.data, i.extras, fun q f m h => ⟨(i.times q f m h).1,
      (i.times q f m h).2.snoc (fun e => nomatch e) (fun e => nomatch e)⟩, i.cache, fun c hc => ?_⟩
    rcases List.mem_append.1 hc with hc | hc
    · exact i.parts c hc
    · have := List.mem_singleton.1 hc
      cases cut <;> cases this
  | saveMerge p =>
    obtain ⟨r1, r2⟩ := Right.mergeParts (ps := s.parts) (d := (s.procs p).data) (b := false) i.parts (i.data p)
    have base : Inv md5 C (done ++ [.saveMerge p]) (setProc { s with parts := (mergeParts (s.procs p).data false s.parts).2.1 } p
        { s.procs p with data := (mergeParts (s.procs p).data false s.parts).1 }) := by
      refine ⟨i.files, fun q => ?_, fun q => ?_, fun q f n h => ?_, i.cache, fun c hc => i.parts c (r2 _ hc)⟩
      · show Right md5 C ((if q = p then _ else _ : Proc)).data
        by_cases hq : q = p
        · rw [if_pos hq]; exact r1
        · rw [if_neg hq]; exact i.data q
      · show Right md5 C ((if q = p then _ else _ : Proc)).extras
        by_cases hq : q = p
        · rw [if_pos hq]; exact i.extras p
        · rw [if_neg hq]; exact i.extras q
      · have h : ((if q = p then _ else s.procs q : Proc)).mtimes.lookup f = some n := h
        have h' : (s.procs q).mtimes.lookup f = some n := by
          by_cases hq : q = p
          · rw [if_pos hq] at h; rw [hq]; exact h
          · rw [if_neg hq] at h; exact h
        exact ⟨(i.times q f n h').1, (i.times q f n h').2.snoc (fun e => nomatch e) (fun e => nomatch e)⟩
    unfold Checksum.step
    dsimp only
    split
    · exact ⟨base.files, base.data, base.extras, base.times, r1, base.parts⟩
    · exact base
  | write g c m =>
    obtain ⟨a1, a2⟩ := ha
    refine ⟨fun f c' n h => ?_, i.data, i.extras, fun q f n h => ?_, i.cache, i.parts⟩
    · have h : (if f = g then some (c, m) else s.files f) = some (c', n) := h
      by_cases hf : f = g
      · rw [if_pos hf] at h
        cases h
        rw [hf]
        exact a1
      · rw [if_neg hf] at h
        exact i.files f c' n h
    · obtain ⟨⟨c', h1⟩, h2⟩ := i.times q f n h
      have hf : f ≠ g := fun e => a2 q (e ▸ h2)
      refine ⟨⟨c', ?_⟩, h2.snoc (fun e => nomatch e) (fun e => nomatch e)⟩
      show (if f = g then _ else s.files f) = _
      rw [if_neg hf]
      exact h1
  | remove g =>
    refine ⟨fun f c' n h => ?_, i.data, i.extras, fun q f n h => ?_, i.cache, i.parts⟩
    · have h : (if f = g then none else s.files f) = some (c', n) := h
      by_cases hf : f = g
      · rw [if_pos hf] at h
        cases h
      · rw [if_neg hf] at h
        exact i.files f c' n h
    · obtain ⟨⟨c', h1⟩, h2⟩ := i.times q f n h
      have hf : f ≠ g := fun e => ha q (e ▸ h2)
      refine ⟨⟨c', ?_⟩, h2.snoc (fun e => nomatch e) (fun e => nomatch e)⟩
      show (if f = g then _ else s.files f) = _
      rw [if_neg hf]
      exact h1

theorem Inv.steps {md5 : Str → Str} {C : History} : ∀ (ops done : List Op) (s : Sys), Inv md5 C done s →
    Fair C (done ++ ops) → Inv md5 C (done ++ ops) (steps md5 s ops)
  | [], done, s, i, _ => by rw [List.append_nil]; exact i
  | o :: ops, done, s, i, hf => by
    have e : done ++ o :: ops = (done ++ [o]) ++ ops := by rw [List.append_assoc]; rfl
    have ha : Allowed C done o := by
      cases o with
      | write f c m => exact hf.1 done f c m ops rfl
      | remove f => exact hf.2 done f ops rfl
      | _ => exact trivial
    rw [e] at hf ⊢
    exact Inv.steps ops (done ++ [o]) _ (i.step ha) hf

/-- A system at its beginning: nothing is in any cache. -/
def fresh : Sys := ⟨fun _ => none, fun _ => ⟨[], [], []⟩, [], []⟩

/-- **The checksum is that of the content.** After any history of processes that start, ask, leave their tables,
merge them and die, and of changes of files, in which a changed file gets a new time and no file changes while a
process counts on it, a process that asks is told the checksum of what is in the file now; and nothing if there
is no file. -/
theorem right_partial {md5 : Str → Str} {C : History} {ops : List Op} (hf : Fair C ops) (p : Nat) (f : Str) :
    (getChecksum md5 (steps md5 fresh ops).files ((steps md5 fresh ops).procs p) f).map (·.1) =
      ((steps md5 fresh ops).files f).map fun c => md5 c.1 := by
  have i0 : Inv md5 C [] fresh := ⟨fun _ _ _ h => (nomatch h), fun _ _ h => (nomatch h), fun _ _ h => (nomatch h),
    fun _ _ _ h => (nomatch h), fun _ h => (nomatch h), fun _ h => (nomatch h)⟩
  have i := Inv.steps ops [] fresh i0 (by rw [List.nil_append]; exact hf)
  obtain ⟨h1, h2⟩ := get_spec i p f
  cases hx : (steps md5 fresh ops).files f with
  | none => rw [h2 hx]; rfl
  | some cm =>
    obtain ⟨c, m⟩ := cm
    obtain ⟨x, e, _⟩ := h1 c m hx
    rw [e]
    rfl

/-- A process that asks, leaves its table and merges it. -/
def once (p : Nat) (f : Str) : List Op := [.start p, .get p f, .saveExtras p, .saveMerge p]

/-- The answer to a process after a history. -/
def answer (ops : List Op) (p : Nat) (f : Str) : Option Str :=
  (getChecksum id (steps id fresh ops).files ((steps id fresh ops).procs p) f).map (·.1)

/-- Such a history: a file is written, asked for, kept, changed and asked for in another process. -/
def h1 : List Op := .write ['f'] ['a'] 1 :: once 1 ['f'] ++ [.clear 1, .write ['f'] ['b'] 2, .start 2]

example : Fair (fun _ m => if m = 1 then ['a'] else ['b']) h1 ∧ answer h1 2 ['f'] = some ['b'] := by
  refine ⟨⟨fun a f c m b e => ?_, fun a f b e => ?_⟩, by decide⟩
  · have hl : a.length < 8 := by
      have := congrArg List.length e
      rw [List.length_append, List.length_cons] at this
      have : h1.length = 8 := rfl
      omega
    have hx : h1[a.length]? = some (.write f c m) := by
      rw [e, List.getElem?_append_right (Nat.le_refl _), Nat.sub_self]; rfl
    have ht : a = h1.take a.length := by rw [e, List.take_left]
    generalize a.length = n at hl hx ht
    have : n = 0 ∨ n = 6 := by
      match n, hl, hx with
      | 0, _, _ => exact Or.inl rfl
      | 6, _, _ => exact Or.inr rfl
      | 1, _, hx | 2, _, hx | 3, _, hx | 4, _, hx | 5, _, hx | 7, _, hx => cases hx
    rcases this with rfl | rfl
    · cases hx
      refine ⟨rfl, fun p ⟨x, y, e2, _⟩ => ?_⟩
      rw [ht] at e2
      cases x <;> cases e2
    · cases hx
      refine ⟨rfl, fun p ⟨x, y, e2, e3, _⟩ => ?_⟩
      rw [ht] at e2
      have e2 : [Op.write ['f'] ['a'] 1, .start 1, .get 1 ['f'], .saveExtras 1, .saveMerge 1, .clear 1] =
        x ++ Op.get p ['f'] :: y := e2
      match x, e2 with
      | [_, _], e2 =>
        cases e2
        exact e3 (by simp)
      | [], e2 => cases e2
      | [_], e2 => cases e2
      | [_, _, _], e2 => cases e2
      | [_, _, _, _], e2 => cases e2
      | [_, _, _, _, _], e2 => cases e2
      | _ :: _ :: _ :: _ :: _ :: _ :: x, e2 => cases x <;> cases e2
  · have hx : h1[a.length]? = some (.remove f) := by
      rw [e, List.getElem?_append_right (Nat.le_refl _), Nat.sub_self]; rfl
    have hl : a.length < 8 := by
      have := congrArg List.length e
      rw [List.length_append, List.length_cons] at this
      have : h1.length = 8 := rfl
      omega
    generalize a.length = n at hl hx
    match n, hl, hx with
    | 0, _, hx | 1, _, hx | 2, _, hx | 3, _, hx | 4, _, hx | 5, _, hx | 6, _, hx | 7, _, hx => cases hx

/-- The full claim is false: times are whole seconds.  A file that is changed within the second in which it was
changed before has the checksum of its old content, in this build and in all later ones. -/
theorem same_second : answer (.write ['f'] ['a'] 1 :: once 1 ['f'] ++ [.write ['f'] ['b'] 1] ++ once 2 ['f'] ++
    [.start 3]) 3 ['f'] = some ['a'] := by decide

/-- A file that changes while a process counts on it has the checksum of its old content until the process
forgets the times. -/
theorem while_running : answer (.write ['f'] ['a'] 1 :: once 1 ['f'] ++ [.write ['f'] ['b'] 2]) 1 ['f'] = some ['a'] ∧
    answer (.write ['f'] ['a'] 1 :: once 1 ['f'] ++ [.write ['f'] ['b'] 2, .clear 1]) 1 ['f'] = some ['b'] := by
  decide

/-- A newer entry is replaced by an older one when tables are merged: the test that should prevent it asks the
wrong thing. -/
theorem older_entry_wins : mergeData [(['f'], (1, ['a']))] [(['f'], (2, ['b']))] = [(['f'], (1, ['a']))] := by decide

theorem mergeParts_cut : ∀ (ps : List Part) (d : Cache) (b : Bool), Part.cut ∈ ps →
    Part.cut ∈ (mergeParts d b ps).2.1 ∧ (mergeParts d b ps).2.2.2 = false
  | .good _ :: ps, _, _, h => mergeParts_cut ps _ _ ((List.mem_cons.1 h).resolve_left fun e => nomatch e)
  | .empty :: ps, _, _, h => mergeParts_cut ps _ _ ((List.mem_cons.1 h).resolve_left fun e => nomatch e)
  | .cut :: _, _, _, _ => ⟨List.mem_cons_self, rfl⟩

/-- **A process that dies.** If one dies while it writes its table, what it leaves is never removed, and from
then on the cache on disk never changes again: each merge fails. -/
theorem cut_for_ever (md5 : Str → Str) : ∀ (ops : List Op) (s : Sys), Part.cut ∈ s.parts →
    Part.cut ∈ (steps md5 s ops).parts ∧ (steps md5 s ops).cacheFile = s.cacheFile
  | [], s, h => ⟨h, rfl⟩
  | o :: ops, s, h => by
    have key : Part.cut ∈ (step md5 s o).parts ∧ (step md5 s o).cacheFile = s.cacheFile := by
      cases o with
      | start p => exact ⟨h, rfl⟩
      | clear p => exact ⟨h, rfl⟩
      | get p f =>
        unfold step
        dsimp only
        split
        · exact ⟨h, rfl⟩
        · exact ⟨h, rfl⟩
      | saveExtras p =>
        unfold step
        dsimp only
        split
        · exact ⟨h, rfl⟩
        · exact ⟨List.mem_append_left _ h, rfl⟩
      | dies p c => exact ⟨List.mem_append_left _ h, rfl⟩
      | saveMerge p =>
        obtain ⟨m1, m2⟩ := mergeParts_cut s.parts (s.procs p).data false h
        unfold step
        dsimp only
        rw [m2, Bool.false_and, if_neg Bool.false_ne_true]
        exact ⟨m1, rfl⟩
      | write f c m => exact ⟨h, rfl⟩
      | remove f => exact ⟨h, rfl⟩
    obtain ⟨i1, i2⟩ := cut_for_ever md5 ops (step md5 s o) key.1
    exact ⟨i1, i2.trans key.2⟩

example : (steps id fresh (.write ['f'] ['a'] 1 :: once 1 ['f'] ++ [.dies 2 true])).cacheFile = [(['f'], (1, ['a']))] ∧
    Part.cut ∈ (steps id fresh (.write ['f'] ['a'] 1 :: once 1 ['f'] ++ [.dies 2 true])).parts :=
  ⟨by decide, List.mem_cons_self⟩

/-! ## The list of files -/

/-- A path that can be in a list: not empty, without a colon, and without white space at its ends. -/
structure ListPath (p : Str) : Prop where
  colon : ':' ∉ p
  front : ∃ c t, p = c :: t ∧ isWs c = false

theorem split_word {w : Str} (hw : ∀ c ∈ w, isWs c = false) : ∀ (acc r : Str),
    splitList acc false (w ++ r) = splitList (acc ++ w) false r := by
  induction w with
  | nil => intro acc r; rw [List.append_nil]; rfl
  | cons c w ih =>
    intro acc r
    have e : splitList acc false (c :: (w ++ r)) = splitList (acc ++ [c]) false (w ++ r) := by
      conv => lhs; unfold splitList
      rw [hw c List.mem_cons_self]
      rfl
    rw [List.cons_append, e, ih (fun x hx => hw x (List.mem_cons_of_mem _ hx)), List.append_assoc]
    rfl

theorem atEnd_false {a : Str} (h : ':' ∉ a) : atEnd a = false := by
  unfold atEnd
  rw [Bool.or_eq_false_iff]
  constructor
  · rw [Bool.eq_false_iff]
    intro hx
    obtain ⟨t, e⟩ := endsWith_iff.1 hx
    exact h (by rw [e]; exact List.mem_append_right _ List.mem_cons_self)
  · rw [Bool.eq_false_iff]
    intro hx
    obtain ⟨t, e⟩ := endsWith_iff.1 hx
    exact h (by rw [e]; exact List.mem_append_right _ List.mem_cons_self)

theorem split_path {q : Str} : ∀ (acc r : Str), ':' ∉ acc → ':' ∉ q →
    splitList acc false (q ++ r) = splitList (acc ++ q) false r := by
  induction q with
  | nil => intro acc r _ _; rw [List.append_nil]; rfl
  | cons c q ih =>
    intro acc r ha hq
    have e : splitList acc false (c :: (q ++ r)) = splitList (acc ++ [c]) false (q ++ r) := by
      conv => lhs; unfold splitList
      rw [atEnd_false ha, Bool.and_false]
      rfl
    rw [List.cons_append, e, ih _ _ ?_ (fun h => hq (List.mem_cons_of_mem _ h)), List.append_assoc]
    · rfl
    · intro h
      rcases List.mem_append.1 h with h | h
      · exact ha h
      · exact hq (List.mem_singleton.1 h ▸ List.mem_cons_self)

/-- The text of an entry. -/
def entryText (e : Str × Bool) : Str := e.1 ++ ":".toList ++ (if e.2 then "True".toList else "False".toList)

theorem entryText_end (e : Str × Bool) : atEnd (entryText e) = true := by
  obtain ⟨p, b⟩ := e
  unfold atEnd entryText
  rw [Bool.or_eq_true]
  cases b
  · right
    exact endsWith_iff.2 ⟨p, by rw [List.append_assoc]; rfl⟩
  · left
    exact endsWith_iff.2 ⟨p, by rw [List.append_assoc]; rfl⟩

theorem split_entry {e : Str × Bool} (h : ListPath e.1) (r : Str) :
    splitList [] false (entryText e ++ r) = splitList (entryText e) false r ∧
    splitList [] true (entryText e ++ r) = splitList (entryText e) false r := by
  obtain ⟨p, b⟩ := e
  have tail : ∀ acc, splitList acc false (":".toList ++ (if b then "True".toList else "False".toList) ++ r) =
      splitList (acc ++ (":".toList ++ (if b then "True".toList else "False".toList))) false r := by
    intro acc
    refine split_word ?_ acc r
    cases b <;> decide
  have e1 : entryText (p, b) ++ r = p ++ (":".toList ++ (if b then "True".toList else "False".toList) ++ r) := by
    unfold entryText
    simp only [List.append_assoc]
  have e2 : p ++ (":".toList ++ (if b then "True".toList else "False".toList)) = entryText (p, b) := by
    unfold entryText
    rw [List.append_assoc]
  have h1 : splitList [] false (entryText (p, b) ++ r) = splitList (entryText (p, b)) false r := by
    rw [e1, split_path [] _ (fun h => nomatch h) h.colon, List.nil_append, tail, e2]
  refine ⟨h1, ?_⟩
  rw [← h1]
  obtain ⟨c, t, e3, hc⟩ := h.front
  have e3 : p = c :: t := e3
  have e4 : entryText (p, b) ++ r = c :: (t ++ (":".toList ++ (if b then "True".toList else "False".toList) ++ r)) := by
    rw [e1, e3]; rfl
  rw [e4]
  conv => lhs; unfold splitList
  conv => rhs; unfold splitList
  rw [hc]
  rfl

/-- The pieces of a list are its entries. -/
theorem split_list : ∀ (l : List (Str × Bool)) (e : Str × Bool), (∀ x ∈ e :: l, ListPath x.1) → ∀ sk,
    splitList [] sk (join [' '] ((e :: l).map entryText)) = (e :: l).map entryText
  | [], e, h, sk => by
    have := split_entry (h e List.mem_cons_self) []
    rw [List.append_nil] at this
    show splitList [] sk (entryText e) = [entryText e]
    cases sk
    · rw [this.1]; rfl
    · rw [this.2]; rfl
  | e2 :: l, e, h, sk => by
    have j : join [' '] ((e :: e2 :: l).map entryText) = entryText e ++ ' ' :: join [' '] ((e2 :: l).map entryText) := by
      show entryText e ++ [' '] ++ join [' '] ((e2 :: l).map entryText) = _
      rw [List.append_assoc]; rfl
    obtain ⟨s1, s2⟩ := split_entry (h e List.mem_cons_self) (' ' :: join [' '] ((e2 :: l).map entryText))
    have s3 : splitList (entryText e) false (' ' :: join [' '] ((e2 :: l).map entryText)) =
        entryText e :: (e2 :: l).map entryText := by
      conv => lhs; unfold splitList
      rw [entryText_end, show isWs ' ' = true from rfl, Bool.and_true, if_pos rfl,
        split_list l e2 (fun x hx => h x (List.mem_cons_of_mem _ hx)) true]
    rw [j]
    cases sk
    · rw [s1, s3]; rfl
    · rw [s2, s3]; rfl

theorem entryPath_text {e : Str × Bool} (h : ListPath e.1) :
    entryPath (entryText e) = .ok (if e.2 then some e.1 else none) := by
  obtain ⟨p, b⟩ := e
  obtain ⟨c, t, e3, hc⟩ := h.front
  have e3 : p = c :: t := e3
  have hs : strip (entryText (p, b)) = entryText (p, b) := by
    refine Cache.strip_id (fun d u e => ?_) (fun d u e => ?_)
    · unfold entryText at e
      rw [e3] at e
      have : c = d := (List.cons.inj e).1
      rw [← this]; exact hc
    · have := congrArg List.getLast? e
      rw [List.getLast?_append] at this
      unfold entryText at this
      cases b
      · rw [if_neg (show ¬ (false = true) from Bool.false_ne_true), List.getLast?_append] at this
        have e5 : some 'e' = some d := this
        cases e5
        decide
      · rw [if_pos rfl, List.getLast?_append] at this
        have e5 : some 'e' = some d := this
        cases e5
        decide
  have hne : entryText (p, b) ≠ [] := by unfold entryText; rw [e3]; exact List.cons_ne_nil _ _
  have hsp : splitOn ':' (entryText (p, b)) = [p, if b then "True".toList else "False".toList] := by
    have e4 : entryText (p, b) = p ++ ':' :: (if b then "True".toList else "False".toList) := by
      unfold entryText; rw [List.append_assoc]; rfl
    rw [e4, splitOn_append, splitOn_clean _ _ h.colon, splitOn_clean]
    · rfl
    · cases b <;> decide
  unfold entryPath
  rw [hs, if_neg hne, hsp]
  dsimp only
  cases b
  · rw [if_pos (show (if false = true then "True".toList else "False".toList) = "False".toList from rfl)]; rfl
  · rw [if_neg (show ¬ (if true = true then "True".toList else "False".toList) = "False".toList by decide)]; rfl

/-- **The list is read as it was written**: the paths that exist, and only these, are looked at. -/
theorem list_partial {l : List (Str × Bool)} (h : ∀ e ∈ l, ListPath e.1) :
    listPaths (writeList l) = .ok ((l.filter (·.2)).map (·.1)) := by
  have fold : ∀ (l : List (Str × Bool)), (∀ e ∈ l, ListPath e.1) →
      (l.map entryText).foldr (fun e r => addPath (entryPath e) r) (.ok []) = .ok ((l.filter (·.2)).map (·.1)) := by
    intro l
    induction l with
    | nil => intro _; rfl
    | cons e l ih =>
      intro h
      rw [List.map_cons, List.foldr_cons, ih fun x hx => h x (List.mem_cons_of_mem _ hx),
        entryPath_text (h e List.mem_cons_self)]
      obtain ⟨p, b⟩ := e
      cases b <;> rfl
  cases l with
  | nil => rfl
  | cons e l =>
    unfold listPaths
    have e1 : writeList (e :: l) = join [' '] ((e :: l).map entryText) := rfl
    rw [e1, split_list l e h false]
    exact fold _ h

example : writeList [("/l/a b".toList, true), ("/m/a b".toList, false)] = "/l/a b:True /m/a b:False".toList ∧
    ListPath "/l/a b".toList := ⟨by decide, by decide, ⟨_, _, rfl, by decide⟩⟩

/-- What is read of a list, for the examples. -/
def okPaths (l : Str) : Option (List Str) :=
  match listPaths l with
  | .ok ps => some ps
  | .error _ => none

/-- The full claim is false: a path with a colon is cut there, and another file, or none, is looked at. -/
theorem colon_cut : okPaths (writeList [("/l/a:b.cfg".toList, true)]) = some ["/l/a".toList] := by decide +kernel

/-! ## Directories -/

mutual
theorem walk_mem {excl : List Str} : ∀ (t : Collect.Tree) (dir p : Str), p ∈ walkFiles excl dir t ↔
    ∃ cs f, Collect.At t cs f ∧ (∀ c ∈ cs, c ∉ excl) ∧ p = Collect.fullName dir cs f
  | .node files ds, dir, p => by
    unfold walkFiles
    rw [List.mem_append, List.mem_map, walkIn_mem ds dir p]
    constructor
    · rintro (⟨f, hf, rfl⟩ | ⟨cs, f, h1, h2⟩)
      · exact ⟨[], f, .here hf, fun _ h => (nomatch h), rfl⟩
      · exact ⟨cs, f, .down h1, h2⟩
    · rintro ⟨cs, f, h1, h3, h4⟩
      cases h1 with
      | here h => exact Or.inl ⟨f, h, h4.symm⟩
      | down h => exact Or.inr ⟨cs, f, h, h3, h4⟩
theorem walkIn_mem {excl : List Str} : ∀ (t : Collect.Forest) (dir p : Str), p ∈ walkFilesIn excl dir t ↔
    ∃ cs f, Collect.AtIn t cs f ∧ (∀ c ∈ cs, c ∉ excl) ∧ p = Collect.fullName dir cs f
  | .nil, dir, p => by
    unfold walkFilesIn
    constructor
    · intro h; cases h
    · rintro ⟨_, _, h, _⟩; cases h
  | .cons n t rest, dir, p => by
    unfold walkFilesIn
    rw [List.mem_append, walkIn_mem rest dir p]
    constructor
    · rintro (h | ⟨cs, f, h1, h2⟩)
      · by_cases hc : excl.contains n = true
        · rw [if_pos hc] at h
          cases h
        · rw [if_neg hc, walk_mem t (pathJoin dir n) p] at h
          obtain ⟨cs, f, h1, h3, h4⟩ := h
          refine ⟨n :: cs, f, .here h1, fun c h => ?_, h4⟩
          rcases List.mem_cons.1 h with rfl | h
          · exact fun hx => hc (List.contains_iff_mem.2 hx)
          · exact h3 c h
      · exact ⟨cs, f, .later h1, h2⟩
    · rintro ⟨cs, f, h1, h3, h4⟩
      cases h1 with
      | here h =>
        rename_i cs
        left
        rw [if_neg fun hx => h3 n List.mem_cons_self (List.contains_iff_mem.1 hx), walk_mem t (pathJoin dir n) p]
        exact ⟨cs, f, h, fun c hc => h3 c (List.mem_cons_of_mem _ hc), h4⟩
      | later h => exact Or.inr ⟨cs, f, h, h3, h4⟩
end

/-- **All files of a directory** that are not in an excluded one, and can be read, are there with their
checksums, and nothing else. -/
theorem directory {sum : Str → Option Str} {excl : List Str} {pth : Str} {t : Collect.Tree} {x : Str × Str} :
    x ∈ checksumDir sum excl pth t ↔ ∃ cs f h, Collect.At t cs f ∧ (∀ c ∈ cs, c ∉ excl) ∧
      sum (marked pth (Collect.fullName pth cs f)) = some h ∧ x = (marked pth (Collect.fullName pth cs f), h) := by
  unfold checksumDir
  rw [List.mem_filterMap]
  constructor
  · rintro ⟨p, hp, h⟩
    obtain ⟨cs, f, h1, h2, rfl⟩ := (walk_mem t pth p).1 hp
    obtain ⟨v, h3, h4⟩ := Option.map_eq_some_iff.1 h
    exact ⟨cs, f, v, h1, h2, h3, h4.symm⟩
  · rintro ⟨cs, f, v, h1, h2, h3, h4⟩
    exact ⟨_, (walk_mem t pth _).2 ⟨cs, f, h1, h2, rfl⟩, Option.map_eq_some_iff.2 ⟨v, h3, h4.symm⟩⟩

theorem after_first {a r : Str} (h : ¬ "/./".toList <:+: a ++ "/.".toList) :
    TaskHash.afterDot (a ++ "/./".toList ++ r) = some r := by
  induction a with
  | nil => rfl
  | cons c a ih =>
    have h1 : ¬ "/./".toList <:+: a ++ "/.".toList := fun ⟨u, v, e⟩ => h ⟨c :: u, v, by
      show c :: (u ++ "/./".toList ++ v) = c :: (a ++ "/.".toList)
      rw [e]⟩
    show TaskHash.afterDot (c :: (a ++ "/./".toList ++ r)) = _
    unfold TaskHash.afterDot
    rw [if_neg, ih h1]
    intro hs
    obtain ⟨t, e⟩ := startsWith_iff.1 hs
    refine h ?_
    have hp : "/./".toList <+: c :: a ++ "/.".toList := by
      have hl : ("/./".toList).length ≤ (c :: a ++ "/.".toList).length := by
        rw [List.length_append, List.length_cons]
        have e3 : ("/./".toList).length = 3 := rfl
        have e2 : ("/.".toList).length = 2 := rfl
        omega
      refine List.prefix_of_prefix_length_le (l₃ := c :: (a ++ "/./".toList ++ r)) ⟨t, e.symm⟩ ?_ hl
      refine ⟨'/' :: r, ?_⟩
      show c :: a ++ "/.".toList ++ '/' :: r = c :: (a ++ "/./".toList ++ r)
      rw [List.append_assoc, List.cons_append, List.append_assoc]
      rfl
    exact hp.isInfix

theorem before_none : ∀ {r : Str}, ¬ "/./".toList <:+: r → TaskHash.beforeDot r = r
  | [], _ => rfl
  | c :: r, h => by
    unfold TaskHash.beforeDot
    rw [if_neg, before_none fun ⟨u, v, e⟩ => h ⟨c :: u, v, by rw [← e]; rfl⟩]
    intro hs
    obtain ⟨t, e⟩ := startsWith_iff.1 hs
    exact h ⟨[], t, e.symm⟩

/-- **The place of a file counts.** In the data of the hash of a task a file of a directory stands with its path
within the directory, if the path of the directory is not found again within it. -/
theorem place_partial {pth rel h : Str} (hp : pth ≠ []) (h1 : ¬ "/./".toList <:+: pth ++ "/.".toList)
    (h2 : ¬ "/./".toList <:+: rel) (h3 : ¬ pth <:+: '/' :: rel) (hh : h ≠ []) :
    TaskHash.fileText (marked pth (pth ++ '/' :: rel), h) = "./".toList ++ rel ++ h := by
  have e : marked pth (pth ++ '/' :: rel) = pth ++ "/./".toList ++ rel := by
    unfold marked
    rw [Meta.SsInst.replaceGo_front _ _ _ hp h3, List.append_assoc, List.append_assoc]
    rfl
  unfold TaskHash.fileText
  dsimp only
  rw [if_neg hh, e, after_first h1]
  dsimp only
  rw [before_none h2]

example : TaskHash.fileText (marked "/l/files".toList "/l/files/etc/a".toList, "99".toList) = "./etc/a99".toList ∧
    TaskHash.fileText (marked "/l/files".toList "/l/files/b".toList, "99".toList) = "./b99".toList := by
  decide +kernel

/-- The full claim is false: if the path of a directory is found again within it, what comes after it does not
count, and a file that gets another name there is not noticed. -/
theorem place_lost : TaskHash.fileText (marked "/etc".toList "/etc/etc/a".toList, "99".toList) =
    TaskHash.fileText (marked "/etc".toList "/etc/etc/b".toList, "99".toList) := by decide +kernel

/-- A directory that is given as a link does not count at all. -/
theorem link_not_counted (sum : Str → Option Str) {kind : Str → Kind} (excl : List Str) {pth : Str}
    (h : kind pth = .linkToDir) : checksumPath sum kind excl pth = [] := by
  unfold checksumPath
  rw [h]

/-- A plain file counts with its checksum. -/
theorem plain_file {sum : Str → Option Str} {kind : Str → Kind} {excl : List Str} {pth h : Str} (hk : kind pth = .file)
    (hs : sum pth = some h) : checksumPath sum kind excl pth = [(pth, h)] := by
  unfold checksumPath
  rw [hk, hs]
  rfl

end Bb.Checksum
