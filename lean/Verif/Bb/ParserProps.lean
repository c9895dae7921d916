import Verif.Bb.ParserModel
/-!
# Parsing in parallel: what the end means, and that it comes
-/

namespace Bb.Parser

open Py

/-! ## Lists -/

theorem modify_set {α : Type} (f : α → α) : ∀ (l : List α) (i : Nat) (p : α), l[i]? = some p → l.modify i f = l.set i (f p)
  | [], i, p, h => by simp at h
  | a :: l, 0, p, h => by
    have : a = p := by simpa using h
    simp [this]
  | a :: l, i + 1, p, h => by
    have h' : l[i]? = some p := by simpa using h
    simp [modify_set f l i p h']

theorem modify_none {α : Type} (f : α → α) : ∀ (l : List α) (i : Nat), l[i]? = none → l.modify i f = l
  | [], i, h => by simp
  | a :: l, 0, h => by simp at h
  | a :: l, i + 1, h => by
    have h' : l[i]? = none := by simpa using h
    simp only [List.modify_succ_cons]
    rw [modify_none f l i h']

/-- What a process still holds. -/
def held (p : Proc) : List Job := p.jobs ++ p.buf

theorem count_set (a : Job) (q : Proc) : ∀ (l : List Proc) (i : Nat) (p : Proc), l[i]? = some p →
    ((l.set i q).flatMap held).count a + (held p).count a = (l.flatMap held).count a + (held q).count a
  | [], i, p, h => by simp at h
  | b :: l, 0, p, h => by
    have : b = p := by simpa using h
    subst this
    simp [List.flatMap_cons, List.count_append]; omega
  | b :: l, i + 1, p, h => by
    have h' : l[i]? = some p := by simpa using h
    have := count_set a q l i p h'
    simp [List.flatMap_cons, List.count_append]; omega

theorem sum_set (f : Proc → Nat) (q : Proc) : ∀ (l : List Proc) (i : Nat) (p : Proc), l[i]? = some p →
    ((l.set i q).map f).sum + f p = (l.map f).sum + f q
  | [], i, p, h => by simp at h
  | b :: l, 0, p, h => by
    have : b = p := by simpa using h
    subst this
    simp; omega
  | b :: l, i + 1, p, h => by
    have h' : l[i]? = some p := by simpa using h
    have := sum_set f q l i p h'
    simp only [List.set_cons_succ, List.map_cons, List.sum_cons]; omega

theorem count_dropLast (a : Job) (l : List Job) (j : Job) (h : l.getLast? = some j) : (l.dropLast).count a + [j].count a = l.count a := by
  have e : l = l.dropLast ++ [j] := by
    have hne : l ≠ [] := by intro e; rw [e] at h; cases h
    have := List.dropLast_concat_getLast hne
    rw [List.getLast?_eq_some_getLast hne] at h
    cases h; exact this.symm
  conv => rhs; rw [e]
  rw [List.count_append]

/-- A list cut by residues is the list again. -/
theorem buckets (f : Job × Nat → Nat) (l : List (Job × Nat)) : ∀ n,
    (((List.range n).map fun i => l.filter fun x => f x == i).flatten).Perm (l.filter fun x => decide (f x < n))
  | 0 => by
    have : (l.filter fun x => decide (f x < 0)) = [] := by
      apply List.filter_eq_nil_iff.2; intro x _; simp
    rw [this]; simp
  | n + 1 => by
    rw [List.range_succ, List.map_append, List.flatten_append]
    have ih := buckets f l n
    refine (List.Perm.append_right _ ih).trans ?_
    have hp := List.filter_append_perm (fun x => decide (f x < n)) (l.filter fun x => decide (f x < n + 1))
    refine List.Perm.trans ?_ hp
    rw [List.filter_filter, List.filter_filter]
    have e1 : (fun x => decide (f x < n) && decide (f x < n + 1)) = fun x => decide (f x < n) := by
      funext x; by_cases h : f x < n
      · simp [h]; omega
      · simp [h]
    have e2 : (fun x => (!decide (f x < n)) && decide (f x < n + 1)) = fun x => f x == n := by
      funext x; by_cases h : f x = n
      · simp [h]
      · by_cases h' : f x < n
        · have : (f x == n) = false := by simp [h]
          simp [h', this]
        · have : (f x == n) = false := by simp [h]
          simp [h', this]; omega
    rw [e1, e2]
    simp

/-- The lists of the processes are, together, the recipes to parse. -/
theorem chunks_perm (n : Nat) (h : 0 < n) (l : List Job) : ((chunks n l).flatten).Perm l := by
  have hb := (buckets (fun x => x.2 % n) l.zipIdx n).map Prod.fst
  have e : (l.zipIdx.filter fun x => decide (x.2 % n < n)) = l.zipIdx := by
    apply List.filter_eq_self.2; intro x _; simp [Nat.mod_lt _ h]
  rw [e] at hb
  have e2 : l.zipIdx.map Prod.fst = l := by
    simp
  rw [e2] at hb
  rw [List.map_flatten, List.map_map] at hb
  exact hb

/-! ## What is kept -/

/-- The recipe that failed. -/
def failedL (s : S) : List Job := match s.fin with | some (.failed j) => [j] | _ => []

/-- How often a recipe is somewhere. -/
def cnt (s : S) (a : Job) : Nat :=
  (s.procs.flatMap held).count a + s.pipe.count a + s.parsed.count a + (failedL s).count a + s.lost.count a

structure Inv (ok : Job → Bool) (total : Nat) (wp fc : List Job) (s : S) : Prop where
  cons : ∀ a, cnt s a = wp.count a
  dead : ∀ p ∈ s.procs, p.alive = false → p.jobs = [] ∧ p.buf = []
  listed : ∀ p ∈ s.procs, p.listed = false → p.alive = false
  quiet : s.phase ≠ .get → s.empty = true → (∀ p ∈ s.procs, p.listed = false) → s.pipe = []
  oks : ∀ j ∈ s.parsed, ok j = true
  cache : s.loaded ++ s.left = fc
  phase : s.phase ≠ .cached → s.left = []
  clean : s.fin = some .clean → total ≤ s.parsed.length ∧ s.left = []
  failed : ∀ j, s.fin = some (.failed j) → ok j = false ∧ s.left = []
  died : s.fin = some .died → s.lost ≠ []

theorem mem_set {l : List Proc} {i : Nat} {q x : Proc} (h : x ∈ l.set i q) : x = q ∨ x ∈ l :=
  (List.mem_or_eq_of_mem_set h).symm

/-- An event of a process keeps what is kept. -/
theorem inv_proc {ok : Job → Bool} {total : Nat} {wp fc : List Job} {s : S} (h : Inv ok total wp fc s) (hf : s.fin = none)
    {i : Nat} {p : Proc} (hi : s.procs[i]? = some p) (q : Proc) (add l : List Job)
    (hq : ∀ a, (held q).count a + add.count a + l.count a = (held p).count a)
    (hd : q.alive = false → q.jobs = [] ∧ q.buf = []) (hl : q.listed = p.listed) (ha : q.alive = true → p.alive = true)
    (hp : add ≠ [] → p.alive = true) :
    Inv ok total wp fc { s with procs := s.procs.set i q, pipe := s.pipe ++ add, lost := s.lost ++ l } := by
  have hm : p ∈ s.procs := List.mem_of_getElem? hi
  refine ⟨?_, ?_, ?_, ?_, h.oks, h.cache, h.phase, ?_, ?_, ?_⟩
  · intro a
    have h1 := count_set a q s.procs i p hi
    have h2 := hq a
    have h3 := h.cons a
    unfold cnt failedL at *
    simp only [hf, List.count_append] at *
    omega
  · intro x hx
    rcases mem_set hx with e | hx
    · rw [e]; exact hd
    · exact h.dead x hx
  · intro x hx
    rcases mem_set hx with e | hx
    · rw [e]; intro e'
      rw [hl] at e'
      have := h.listed p hm e'
      cases hqa : q.alive with
      | false => rfl
      | true => rw [ha hqa] at this; cases this
    · exact h.listed x hx
  · intro e1 e2 e3
    have hall : ∀ x ∈ s.procs, x.listed = false := by
      intro x hx
      obtain ⟨k, hk, e⟩ := List.getElem_of_mem hx
      by_cases hki : k = i
      · subst hki
        have hx' : s.procs[k]? = some x := by rw [List.getElem?_eq_getElem hk, e]
        rw [hx'] at hi; cases hi
        rw [← hl]
        exact e3 q (List.mem_set hk q)
      · refine e3 x ?_
        have : (s.procs.set i q)[k]? = some x := by
          rw [List.getElem?_set_ne (by omega), List.getElem?_eq_getElem hk, e]
        exact List.mem_of_getElem? this
    have hpe := h.quiet e1 e2 hall
    have hadd : add = [] := by
      cases add with
      | nil => rfl
      | cons b t =>
        have h1 := hp (by intro e; cases e)
        rw [h.listed p hm (hall p hm)] at h1; cases h1
    show s.pipe ++ add = []
    rw [hpe, hadd]; rfl
  · intro e; have e' : s.fin = some .clean := e; rw [hf] at e'; cases e'
  · intro j e; have e' : s.fin = some (.failed j) := e; rw [hf] at e'; cases e'
  · intro e; have e' : s.fin = some .died := e; rw [hf] at e'; cases e'

theorem mem_reap {missed : List Nat} {l : List Proc} {x : Proc} (h : x ∈ reap missed l) :
    ∃ p ∈ l, x = p ∨ (x = { p with listed := false } ∧ p.alive = false) := by
  unfold reap at h
  obtain ⟨y, hy, e⟩ := List.mem_map.1 h
  have hm : y.1 ∈ l := by
    have := List.mem_zipIdx' (x := y.1) (i := y.2) (xs := l) hy
    rw [this.2]; exact List.getElem_mem _
  refine ⟨y.1, hm, ?_⟩
  unfold reapAt at e
  by_cases c : y.1.alive = false ∧ y.2 ∉ missed
  · rw [if_pos c] at e; exact Or.inr ⟨e.symm, c.1⟩
  · rw [if_neg c] at e; exact Or.inl e.symm

theorem held_reapAt (missed : List Nat) (x : Proc × Nat) : held (reapAt missed x) = held x.1 := by
  unfold reapAt; split <;> rfl

theorem held_reap (missed : List Nat) (l : List Proc) : (reap missed l).flatMap held = l.flatMap held := by
  unfold reap
  rw [List.flatMap_map]
  have : (fun a => held (reapAt missed a)) = fun a : Proc × Nat => held a.1 := by
    funext a; exact held_reapAt missed a
  rw [this]
  have e : l.zipIdx.flatMap (fun a => held a.1) = (l.zipIdx.map Prod.fst).flatMap held := by rw [List.flatMap_map]
  rw [e]; simp

theorem flat_nil {l : List Proc} (h : ∀ p ∈ l, p.jobs = [] ∧ p.buf = []) : l.flatMap held = [] := by
  apply List.flatMap_eq_nil_iff.2
  intro p hp; unfold held; rw [(h p hp).1, (h p hp).2]; rfl

/-- The recipes that are somewhere are the recipes to parse. -/
theorem all_perm {ok : Job → Bool} {total : Nat} {wp fc : List Job} {s : S} (h : Inv ok total wp fc s) :
    (s.procs.flatMap held ++ s.pipe ++ s.parsed ++ failedL s ++ s.lost).Perm wp := by
  apply List.perm_iff_count.2
  intro a
  have := h.cons a
  unfold cnt at this
  simp only [List.count_append]; omega

theorem inv_main {ok : Job → Bool} {wp fc : List Job} (missed : List Nat) {s : S} (h : Inv ok wp.length wp fc s) (hf : s.fin = none) :
    Inv ok wp.length wp fc (main ok wp.length missed s) := by
  have hfl : failedL s = [] := by unfold failedL; rw [hf]
  unfold main
  split
  · rename_i hph
    split
    · rename_i j l hl
      refine ⟨h.cons, h.dead, h.listed, h.quiet, h.oks, ?_, ?_, ?_, ?_, h.died⟩
      · show (s.loaded ++ [j]) ++ l = fc
        rw [← h.cache, hl]; simp
      · intro e; exact absurd hph e
      · intro e; have e' : s.fin = some .clean := e; rw [hf] at e'; cases e'
      · intro x e; have e' : s.fin = some (.failed x) := e; rw [hf] at e'; cases e'
    · rename_i hl
      split
      · rename_i ht
        refine ⟨?_, h.dead, h.listed, h.quiet, h.oks, h.cache, h.phase, ?_, ?_, ?_⟩
        · intro a; have := h.cons a; unfold cnt failedL at *; simp only [hf] at *; exact this
        · intro _; exact ⟨by rw [ht]; omega, hl⟩
        · intro x e; cases e
        · intro e; cases e
      · refine ⟨h.cons, h.dead, h.listed, ?_, h.oks, h.cache, fun _ => hl, h.clean, h.failed, h.died⟩
        intro _; exact h.quiet (by rw [hph]; intro e; cases e)
  · rename_i hph
    have hleft := h.phase (by rw [hph]; intro e; cases e)
    split
    · refine ⟨?_, ?_, ?_, ?_, h.oks, h.cache, fun _ => hleft, ?_, ?_, ?_⟩
      · intro a
        have := h.cons a
        unfold cnt at *
        show ((reap missed s.procs).flatMap held).count a + _ + _ + (failedL s).count a + _ = _
        rw [held_reap]; exact this
      · intro x hx
        obtain ⟨p, hp, e | ⟨e, hal⟩⟩ := mem_reap hx
        · rw [e]; exact h.dead p hp
        · rw [e]; exact h.dead p hp
      · intro x hx
        obtain ⟨p, hp, e | ⟨e, hal⟩⟩ := mem_reap hx
        · rw [e]; exact h.listed p hp
        · rw [e]; intro _; exact hal
      · intro e; exact absurd rfl e
      · intro e; have e' : s.fin = some .clean := e; rw [hf] at e'; cases e'
      · intro x e; have e' : s.fin = some (.failed x) := e; rw [hf] at e'; cases e'
      · intro e; have e' : s.fin = some .died := e; rw [hf] at e'; cases e'
    · rename_i hc
      split
      · rename_i ht
        refine ⟨?_, h.dead, h.listed, h.quiet, h.oks, h.cache, h.phase, ?_, ?_, ?_⟩
        · intro a; have := h.cons a; unfold cnt failedL at *; simp only [hf] at *; exact this
        · intro _; exact ⟨ht, hleft⟩
        · intro x e; cases e
        · intro e; cases e
      · rename_i ht
        refine ⟨?_, h.dead, h.listed, h.quiet, h.oks, h.cache, h.phase, ?_, ?_, ?_⟩
        · intro a; have := h.cons a; unfold cnt failedL at *; simp only [hf] at *; exact this
        · intro e; cases e
        · intro x e; cases e
        · intro _ hlost
          have hlost : s.lost = [] := hlost
          have hnl : ∀ p ∈ s.procs, p.listed = false := by
            intro p hp
            cases hpl : p.listed with
            | false => rfl
            | true =>
              exfalso; apply hc
              have : s.procs.any Proc.listed = true := List.any_eq_true.2 ⟨p, hp, hpl⟩
              rw [this]; rfl
          have hem : s.empty = true := by
            cases he : s.empty with
            | true => rfl
            | false => exfalso; apply hc; rw [he]; simp
          have hpi := h.quiet (by rw [hph]; intro e; cases e) hem hnl
          have hfn := flat_nil fun p hp => h.dead p hp (h.listed p hp (hnl p hp))
          have := (all_perm h).length_eq
          rw [hpi, hfn, hfl, hlost] at this
          simp at this
          omega
  · rename_i hph
    have hleft := h.phase (by rw [hph]; intro e; cases e)
    split
    · rename_i ht
      refine ⟨?_, h.dead, h.listed, h.quiet, h.oks, h.cache, h.phase, ?_, ?_, ?_⟩
      · intro a; have := h.cons a; unfold cnt failedL at *; simp only [hf] at *; exact this
      · intro _; exact ⟨ht, hleft⟩
      · intro x e; cases e
      · intro e; cases e
    · split
      · rename_i hpi
        refine ⟨h.cons, h.dead, h.listed, fun _ _ _ => hpi, h.oks, h.cache, fun _ => hleft, ?_, ?_, ?_⟩
        · intro e; have e' : s.fin = some .clean := e; rw [hf] at e'; cases e'
        · intro x e; have e' : s.fin = some (.failed x) := e; rw [hf] at e'; cases e'
        · intro e; have e' : s.fin = some .died := e; rw [hf] at e'; cases e'
      · rename_i j l hpi
        split
        · rename_i hok
          refine ⟨?_, h.dead, h.listed, ?_, ?_, h.cache, fun _ => hleft, ?_, ?_, ?_⟩
          · intro a
            have := h.cons a
            unfold cnt failedL at *
            simp only [hf, hpi] at *
            rw [show j :: l = [j] ++ l from rfl] at this
            simp only [List.count_append] at *
            omega
          · intro _ e; cases e
          · intro x hx
            rcases List.mem_append.1 hx with hx | hx
            · exact h.oks x hx
            · rw [List.mem_singleton.1 hx]; exact hok
          · intro e; have e' : s.fin = some .clean := e; rw [hf] at e'; cases e'
          · intro x e; have e' : s.fin = some (.failed x) := e; rw [hf] at e'; cases e'
          · intro e; have e' : s.fin = some .died := e; rw [hf] at e'; cases e'
        · rename_i hok
          refine ⟨?_, h.dead, h.listed, ?_, h.oks, h.cache, h.phase, ?_, ?_, ?_⟩
          · intro a
            have := h.cons a
            unfold cnt failedL at *
            simp only [hf, hpi] at *
            rw [show j :: l = [j] ++ l from rfl] at this
            simp only [List.count_append] at *
            simp at *
            omega
          · intro e; exact absurd hph e
          · intro e; cases e
          · intro x e; cases e; exact ⟨by simpa using hok, hleft⟩
          · intro e; cases e

theorem inv_step {ok : Job → Bool} {wp fc : List Job} (e : Ev) {s : S} (h : Inv ok wp.length wp fc s) :
    Inv ok wp.length wp fc (step ok wp.length s e) := by
  unfold step
  by_cases hs : s.fin.isSome = true
  · rw [if_pos hs]; exact h
  · rw [if_neg hs]
    have hf : s.fin = none := by simpa using hs
    cases e with
    | work i =>
      dsimp only
      cases hi : s.procs[i]? with
      | none => rw [modify_none _ _ _ hi]; exact h
      | some p =>
        rw [modify_set _ _ _ _ hi]
        have hm : p ∈ s.procs := List.mem_of_getElem? hi
        have := inv_proc h hf hi (work p) [] [] (by
          intro a
          unfold work held
          cases hal : p.alive with
          | false => simp
          | true =>
            simp only [if_true]
            cases hj : p.jobs.getLast? with
            | none => simp
            | some j =>
              have := count_dropLast a _ _ hj
              simp only [List.count_append] at *
              simp at *; omega) (by
          intro hq
          have hal : p.alive = false := by
            cases hal : p.alive with
            | false => rfl
            | true =>
              unfold work at hq; rw [hal] at hq
              simp only [if_true] at hq
              cases hj : p.jobs.getLast? with
              | none => rw [hj] at hq; simp only at hq; rw [hal] at hq; cases hq
              | some j => rw [hj] at hq; simp only at hq; first | (rw [hal] at hq; cases hq) | cases hq
          have hw : work p = p := by unfold work; rw [hal]; rfl
          rw [hw]; exact h.dead p hm hal) (by
          unfold work; split
          · split <;> rfl
          · rfl) (by
          intro hq
          cases hal : p.alive with
          | true => rfl
          | false =>
            have hw : work p = p := by unfold work; rw [hal]; rfl
            rw [hw, hal] at hq; cases hq) (by intro e; exact absurd rfl e)
        simpa using this
    | feed i =>
      dsimp only
      cases hi : s.procs[i]? with
      | none => exact h
      | some p =>
        dsimp only
        cases hb : p.buf with
        | nil => exact h
        | cons j l =>
          dsimp only
          by_cases hal : p.alive = true
          · rw [if_pos hal]
            have := inv_proc h hf hi { p with buf := l } [j] [] (by
              intro a
              unfold held
              rw [hb, show j :: l = [j] ++ l from rfl]
              simp only [List.count_append]
              simp; omega) (by intro e; have e' : p.alive = false := e; rw [hal] at e'; cases e') rfl (fun e => e) (fun _ => hal)
            simpa using this
          · rw [if_neg hal]; exact h
    | exit i =>
      dsimp only
      cases hi : s.procs[i]? with
      | none => rw [modify_none _ _ _ hi]; exact h
      | some p =>
        rw [modify_set _ _ _ _ hi]
        have hm : p ∈ s.procs := List.mem_of_getElem? hi
        have := inv_proc h hf hi (exit p) [] [] (by
          intro a; unfold exit held; split <;> simp) (by
          unfold exit
          split
          · rename_i c; intro _; exact c
          · exact h.dead p hm) (by unfold exit; split <;> rfl) (by
          unfold exit
          split
          · intro e; cases e
          · exact fun e => e) (by intro e; exact absurd rfl e)
        simpa using this
    | kill i =>
      dsimp only
      cases hi : s.procs[i]? with
      | none => exact h
      | some p =>
        have := inv_proc h hf hi { p with jobs := [], buf := [], alive := false } [] (p.jobs ++ p.buf) (by
          intro a; unfold held; simp) (fun _ => ⟨rfl, rfl⟩) rfl (by intro e; cases e) (by intro e; exact absurd rfl e)
        simpa [List.append_assoc] using this
    | main missed => exact inv_main missed h hf

theorem inv_run {ok : Job → Bool} {wp fc : List Job} : ∀ (evs : List Ev) {s : S}, Inv ok wp.length wp fc s →
    Inv ok wp.length wp fc (run ok wp.length s evs)
  | [], _, h => h
  | e :: evs, _, h => inv_run evs (inv_step e h)

theorem inv_start (ok : Job → Bool) (threads : Nat) (ht : 0 < threads) (wp fc : List Job) : Inv ok wp.length wp fc (start threads wp fc) := by
  have hmem : ∀ p ∈ (start threads wp fc).procs, p.alive = true ∧ p.listed = true := by
    intro p hp
    obtain ⟨l, _, e⟩ := List.mem_map.1 hp
    rw [← e]; exact ⟨rfl, rfl⟩
  refine ⟨?_, ?_, ?_, ?_, ?_, rfl, ?_, ?_, ?_, ?_⟩
  · intro a
    have e : (start threads wp fc).procs.flatMap held = (chunks (min threads wp.length) wp).flatten := by
      show ((chunks (min threads wp.length) wp).map fun l => (⟨l, [], true, true⟩ : Proc)).flatMap held = _
      rw [List.flatMap_map]
      have : (fun a => held (⟨a, [], true, true⟩ : Proc)) = fun a => a := by
        funext a; unfold held; simp
      rw [this, List.flatMap_id']
    have hc : ((chunks (min threads wp.length) wp).flatten).Perm wp := by
      cases hw : wp with
      | nil => simp [chunks]
      | cons b t => exact chunks_perm _ (by simp; omega) _
    unfold cnt
    rw [e, hc.count_eq]
    show wp.count a + ([] : List Job).count a + ([] : List Job).count a + ([] : List Job).count a + ([] : List Job).count a = _
    simp
  · intro p hp e; rw [(hmem p hp).1] at e; cases e
  · intro p hp e; rw [(hmem p hp).2] at e; cases e
  · intro _ e; cases e
  · intro j hj; cases hj
  · intro e; exact absurd rfl e
  · intro e; cases e
  · intro j e; cases e
  · intro e; cases e

/-! ## What the end means -/

theorem lost_step {ok : Job → Bool} {total : Nat} (e : Ev) {s : S} (hk : ∀ i, e ≠ .kill i) (h : s.lost = []) : (step ok total s e).lost = [] := by
  unfold step
  split
  · exact h
  · cases e with
    | work i => exact h
    | exit i => exact h
    | kill i => exact absurd rfl (hk i)
    | feed i =>
      dsimp only
      split
      · exact h
      · split
        · exact h
        · split <;> exact h
    | main missed =>
      show (main ok total missed s).lost = []
      unfold main
      split
      · split
        · exact h
        · split <;> exact h
      · split
        · exact h
        · split <;> exact h
      · split
        · exact h
        · split
          · exact h
          · split <;> exact h

theorem lost_run {ok : Job → Bool} {total : Nat} : ∀ (evs : List Ev) {s : S}, (∀ i, Ev.kill i ∉ evs) → s.lost = [] → (run ok total s evs).lost = []
  | [], _, _, h => h
  | e :: evs, _, hk, h => lost_run evs (fun i hm => hk i (List.mem_cons_of_mem _ hm))
      (lost_step e (fun i he => hk i (by rw [he]; exact List.mem_cons_self)) h)

/-- Parsing without processes: nothing is ever parsed. -/
theorem none_run {ok : Job → Bool} {wp fc : List Job} (evs : List Ev) (hw : 0 < wp.length) :
    ∀ s : S, s.procs = [] → s.pipe = [] → s.parsed = [] → (∀ e, s.fin = some e → e = .died) →
      (∀ e, (run ok wp.length s evs).fin = some e → e = .died) := by
  induction evs with
  | nil => intro s _ _ _ h; exact h
  | cons e evs ih =>
    intro s h1 h2 h3 h4
    show ∀ x, (run ok wp.length (step ok wp.length s e) evs).fin = some x → x = .died
    have key : (step ok wp.length s e).procs = [] ∧ (step ok wp.length s e).pipe = [] ∧ (step ok wp.length s e).parsed = [] ∧
        (∀ x, (step ok wp.length s e).fin = some x → x = .died) := by
      unfold step
      split
      · exact ⟨h1, h2, h3, h4⟩
      · rename_i hs
        have hf : s.fin = none := by simpa using hs
        cases e with
        | work i => dsimp only; rw [h1]; exact ⟨by simp, h2, h3, h4⟩
        | exit i => dsimp only; rw [h1]; exact ⟨by simp, h2, h3, h4⟩
        | kill i => dsimp only; rw [h1]; exact ⟨h1, h2, h3, h4⟩
        | feed i => dsimp only; rw [h1]; exact ⟨h1, h2, h3, h4⟩
        | main missed =>
          dsimp only
          unfold main
          split
          · split
            · exact ⟨h1, h2, h3, h4⟩
            · rw [if_neg (by omega)]; exact ⟨h1, h2, h3, h4⟩
          · split
            · refine ⟨?_, h2, h3, h4⟩
              dsimp only; rw [h1]; rfl
            · rw [if_neg (by rw [h3]; simp; exact List.length_pos_iff.1 hw)]
              refine ⟨h1, h2, h3, ?_⟩
              intro x e; cases e; rfl
          · rw [if_neg (by rw [h3]; simp; exact List.length_pos_iff.1 hw), h2]
            exact ⟨h1, rfl, h3, h4⟩
    exact ih _ key.1 key.2.1 key.2.2.1 key.2.2.2

/-- **Complete means complete.**  Whatever the processes do and whichever of them are killed: if parsing ends as complete, every recipe of the
cache was loaded once, every recipe to parse was parsed once, and none failed. -/
theorem complete_all (ok : Job → Bool) (threads : Nat) (wp fc : List Job) (evs : List Ev)
    (h : (run ok wp.length (start threads wp fc) evs).fin = some .clean) :
    (run ok wp.length (start threads wp fc) evs).loaded = fc ∧ ((run ok wp.length (start threads wp fc) evs).parsed).Perm wp ∧
      ∀ j ∈ wp, ok j = true := by
  by_cases ht : 0 < threads ∨ wp = []
  · have hi : Inv ok wp.length wp fc (run ok wp.length (start threads wp fc) evs) := by
      apply inv_run
      rcases ht with ht | ht
      · exact inv_start ok threads ht wp fc
      · subst ht
        have : start threads [] fc = start 1 [] fc := by unfold start; simp [chunks]
        rw [this]; exact inv_start ok 1 (by omega) [] fc
    obtain ⟨hlen, hleft⟩ := hi.clean h
    have hc := hi.cache
    rw [hleft, List.append_nil] at hc
    have hp := all_perm hi
    have hl := hp.length_eq
    simp only [List.length_append] at hl
    have hperm : ((run ok wp.length (start threads wp fc) evs).parsed).Perm wp := by
      have e1 : (run ok wp.length (start threads wp fc) evs).procs.flatMap held = [] := List.length_eq_zero_iff.1 (by omega)
      have e2 : (run ok wp.length (start threads wp fc) evs).pipe = [] := List.length_eq_zero_iff.1 (by omega)
      have e3 : failedL (run ok wp.length (start threads wp fc) evs) = [] := List.length_eq_zero_iff.1 (by omega)
      have e4 : (run ok wp.length (start threads wp fc) evs).lost = [] := List.length_eq_zero_iff.1 (by omega)
      rw [e1, e2, e3, e4] at hp
      simpa using hp
    exact ⟨hc, hperm, fun j hj => hi.oks j (hperm.mem_iff.2 hj)⟩
  · have h0 : threads = 0 := by omega
    have hw : 0 < wp.length := List.length_pos_iff.2 (fun e => ht (Or.inr e))
    have := none_run (ok := ok) (wp := wp) (fc := fc) evs hw (start threads wp fc) (by rw [h0]; simp [start, chunks]) rfl rfl
      (by intro e h; cases h) _ h
    cases this

/-- **A failure names a recipe that fails**, and is not reported for another. -/
theorem failure_true (ok : Job → Bool) (threads : Nat) (ht : 0 < threads) (wp fc : List Job) (evs : List Ev) (j : Job)
    (h : (run ok wp.length (start threads wp fc) evs).fin = some (.failed j)) : j ∈ wp ∧ ok j = false := by
  have hi : Inv ok wp.length wp fc (run ok wp.length (start threads wp fc) evs) := inv_run _ (inv_start ok threads ht wp fc)
  refine ⟨?_, (hi.failed j h).1⟩
  apply (all_perm hi).mem_iff.1
  have : failedL (run ok wp.length (start threads wp fc) evs) = [j] := by unfold failedL; rw [h]
  rw [this]; simp

/-- **"Not all recipes parsed" is said only when a process was killed.** -/
theorem died_killed (ok : Job → Bool) (threads : Nat) (ht : 0 < threads) (wp fc : List Job) (evs : List Ev)
    (h : (run ok wp.length (start threads wp fc) evs).fin = some .died) : ∃ i, Ev.kill i ∈ evs := by
  have hi : Inv ok wp.length wp fc (run ok wp.length (start threads wp fc) evs) := inv_run _ (inv_start ok threads ht wp fc)
  apply Classical.byContradiction
  intro hn
  exact hi.died h (lost_run evs (fun i hm => hn ⟨i, hm⟩) rfl)

/-- **`BB_NUMBER_PARSE_THREADS = "0"`** (as a negative number) leaves no process: whenever there is something to parse, parsing ends
with "Not all recipes parsed", although no process was killed. -/
theorem zero_threads (ok : Job → Bool) (wp fc : List Job) (hw : wp ≠ []) (evs : List Ev) (e : End)
    (h : (run ok wp.length (start 0 wp fc) evs).fin = some e) : e = .died :=
  none_run (ok := ok) (wp := wp) (fc := fc) evs (List.length_pos_iff.2 hw) (start 0 wp fc) (by simp [start, chunks]) rfl rfl
    (by intro e h; cases h) e h

/-- Two processes and three recipes: the second takes `b`, the first `c` and `a`; all arrive. -/
example : (run (fun _ => true) 3 (start 2 ["a".toList, "b".toList, "c".toList] ["k".toList])
    [.main [], .work 1, .work 0, .feed 1, .main [], .main [], .main [], .exit 1, .main [0], .main [], .main [], .feed 0, .work 0, .main [],
     .feed 0, .main [], .main [], .main [], .exit 0, .main [], .main []]).fin = some .clean := by decide

/-- A recipe that fails is named. -/
example : (run (fun j => j != "b".toList) 3 (start 2 ["a".toList, "b".toList, "c".toList] [])
    [.main [], .work 1, .feed 1, .main [], .main []]).fin = some (.failed "b".toList) := by decide

/-- A process that is killed with a recipe in its buffer: the rest arrives, and the end says that not all recipes were parsed. -/
example : (run (fun _ => true) 3 (start 2 ["a".toList, "b".toList, "c".toList] [])
    [.main [], .work 1, .kill 1, .work 0, .feed 0, .work 0, .feed 0, .exit 0, .main [], .main [], .main [], .main [], .main [], .main [],
     .main []]).fin = some .died := by decide

/-- A process that is killed when its results are in the pipe does no harm. -/
example : (run (fun _ => true) 1 (start 2 ["a".toList] [])
    [.main [], .work 0, .feed 0, .kill 0, .main [], .main [], .main [], .main []]).fin = some .clean := by decide

/-- Without processes. -/
example : (run (fun _ => true) 1 (start 0 ["a".toList] []) [.main [], .main [], .main [], .main []]).fin = some .died := by decide

/-! ## That the end comes -/

/-- The states of an unending history. -/
def st (ok : Job → Bool) (total : Nat) (s : S) (evs : Nat → Ev) : Nat → S
  | 0 => s
  | n + 1 => step ok total (st ok total s evs n) (evs n)

/-- Nobody is left out: every process gets its turns, the collector too, and processes that ended are seen in the end. -/
structure Fair (procs : Nat) (evs : Nat → Ev) : Prop where
  work : ∀ i < procs, ∀ m, ∃ k, m ≤ k ∧ evs k = .work i
  feed : ∀ i < procs, ∀ m, ∃ k, m ≤ k ∧ evs k = .feed i
  exit : ∀ i < procs, ∀ m, ∃ k, m ≤ k ∧ evs k = .exit i
  main : ∀ m, ∃ k l, m ≤ k ∧ evs k = .main l
  seen : ∃ m, ∀ k l, m ≤ k → evs k = .main l → l = []

/-- A fair order: one process and the collector, by turns. -/
example : Fair 1 (fun k => match k % 4 with | 0 => .work 0 | 1 => .feed 0 | 2 => .exit 0 | _ => .main []) where
  work i hi m := ⟨4 * m, by omega, by rw [show 4 * m % 4 = 0 by omega, show i = 0 by omega]; rfl⟩
  feed i hi m := ⟨4 * m + 1, by omega, by rw [show (4 * m + 1) % 4 = 1 by omega, show i = 0 by omega]; rfl⟩
  exit i hi m := ⟨4 * m + 2, by omega, by rw [show (4 * m + 2) % 4 = 2 by omega, show i = 0 by omega]; rfl⟩
  main m := ⟨4 * m + 3, [], by omega, by rw [show (4 * m + 3) % 4 = 3 by omega]; rfl⟩
  seen := ⟨0, fun k l _ h => by
    split at h <;> first | (cases h; rfl) | cases h⟩

def wt (p : Proc) : Nat := 3 * p.jobs.length + 2 * p.buf.length + (if p.alive then 1 else 0)

def mu (s : S) : Nat := (s.procs.map wt).sum + s.pipe.length + s.left.length

def core (s : S) (i : Nat) : Option (List Job × List Job × Bool) := s.procs[i]?.map fun p => (p.jobs, p.buf, p.alive)

theorem wt_reapAt (missed : List Nat) (x : Proc × Nat) : wt (reapAt missed x) = wt x.1 := by
  unfold reapAt; split <;> rfl

theorem sum_reap (missed : List Nat) (l : List Proc) : ((reap missed l).map wt).sum = (l.map wt).sum := by
  unfold reap
  rw [List.map_map]
  have : (wt ∘ reapAt missed) = wt ∘ Prod.fst := by funext x; exact wt_reapAt missed x
  rw [this, ← List.map_map]; simp

theorem reap_get (missed : List Nat) (l : List Proc) (i : Nat) : (reap missed l)[i]? = l[i]?.map fun p => reapAt missed (p, i) := by
  unfold reap
  rw [List.getElem?_map, List.getElem?_zipIdx]
  cases l[i]? <;> simp

theorem length_reap (missed : List Nat) (l : List Proc) : (reap missed l).length = l.length := by unfold reap; simp

theorem core_reap (missed : List Nat) (s : S) (ph : Phase) (i : Nat) :
    core { s with procs := reap missed s.procs, phase := ph } i = core s i := by
  unfold core
  dsimp only
  rw [reap_get]
  cases s.procs[i]? with
  | none => rfl
  | some p => simp only [Option.map_some]; unfold reapAt; split <;> rfl

theorem set_self {l : List Proc} {i : Nat} {p : Proc} (h : l[i]? = some p) : l.set i p = l := by
  apply List.ext_getElem?
  intro k
  by_cases hk : k = i
  · subst hk; rw [h]
    have := List.getElem?_eq_some_iff.1 h
    rw [List.getElem?_set_self this.1]
  · rw [List.getElem?_set_ne (by omega)]

theorem length_of_last {l : List Job} {j : Job} (h : l.getLast? = some j) : l.dropLast.length + 1 = l.length := by
  have : l ≠ [] := by intro e; rw [e] at h; cases h
  have := List.length_pos_iff.2 this
  rw [List.length_dropLast]; omega

theorem dead_eq (p : Proc) (h1 : p.jobs = []) (h2 : p.buf = []) (h3 : p.alive = false) :
    ({ p with jobs := [], buf := [], alive := false } : Proc) = p := by
  cases p; simp_all

/-- An event of a process makes the measure smaller or does nothing. -/
theorem mu_event {ok : Job → Bool} {total : Nat} {s : S} (hf : s.fin = none) (hd : ∀ p ∈ s.procs, p.alive = false → p.jobs = [] ∧ p.buf = [])
    (e : Ev) (he : ∀ l, e ≠ .main l) : mu (step ok total s e) < mu s ∨ step ok total s e = s := by
  unfold step
  rw [if_neg (by rw [hf]; simp)]
  cases e with
  | main l => exact absurd rfl (he l)
  | work i =>
    dsimp only
    cases hi : s.procs[i]? with
    | none => rw [modify_none _ _ _ hi]; exact Or.inr rfl
    | some p =>
      rw [modify_set _ _ _ _ hi]
      by_cases hal : p.alive = true
      · cases hj : p.jobs.getLast? with
        | none =>
          have : work p = p := by unfold work; rw [if_pos hal, hj]
          rw [this, set_self hi]; exact Or.inr rfl
        | some j =>
          left
          have hw : wt (work p) < wt p := by
            unfold work; rw [if_pos hal, hj]
            have := length_of_last hj
            unfold wt; simp only [List.length_append]; simp; omega
          have := sum_set wt (work p) _ _ _ hi
          unfold mu; dsimp only; omega
      · have : work p = p := by unfold work; rw [if_neg hal]
        rw [this, set_self hi]; exact Or.inr rfl
  | feed i =>
    dsimp only
    cases hi : s.procs[i]? with
    | none => exact Or.inr rfl
    | some p =>
      dsimp only
      cases hb : p.buf with
      | nil => exact Or.inr rfl
      | cons j l =>
        dsimp only
        by_cases hal : p.alive = true
        · rw [if_pos hal]; left
          have hw : wt { p with buf := l } + 2 = wt p := by
            unfold wt; rw [hb]; simp; omega
          have := sum_set wt { p with buf := l } _ _ _ hi
          unfold mu; simp only [List.length_append, List.length_cons, List.length_nil]; omega
        · rw [if_neg hal]; exact Or.inr rfl
  | exit i =>
    dsimp only
    cases hi : s.procs[i]? with
    | none => rw [modify_none _ _ _ hi]; exact Or.inr rfl
    | some p =>
      rw [modify_set _ _ _ _ hi]
      by_cases hal : p.alive = true
      · by_cases hc : p.jobs = [] ∧ p.buf = []
        · left
          have hw : wt (exit p) + 1 = wt p := by
            unfold exit; rw [if_pos hc]; unfold wt; simp [hal]
          have := sum_set wt (exit p) _ _ _ hi
          unfold mu; dsimp only; omega
        · have : exit p = p := by unfold exit; rw [if_neg hc]
          rw [this, set_self hi]; exact Or.inr rfl
      · have hal' : p.alive = false := by simpa using hal
        have : exit p = p := by
          unfold exit; split
          · rw [← hal']
          · rfl
        rw [this, set_self hi]; exact Or.inr rfl
  | kill i =>
    dsimp only
    cases hi : s.procs[i]? with
    | none => exact Or.inr rfl
    | some p =>
      by_cases hal : p.alive = true
      · left
        have hw : wt { p with jobs := [], buf := [], alive := false } < wt p := by
          unfold wt; simp [hal]
        have := sum_set wt { p with jobs := [], buf := [], alive := false } _ _ _ hi
        unfold mu; dsimp only; omega
      · right
        have hal' : p.alive = false := by simpa using hal
        obtain ⟨h1, h2⟩ := hd p (List.mem_of_getElem? hi) hal'
        have : ({ p with jobs := [], buf := [], alive := false } : Proc) = p := dead_eq p h1 h2 hal'
        dsimp only
        rw [this, set_self hi, h1, h2]; simp

/-- A step of the collector makes the measure smaller, or leaves what is in the processes, the pipe and the cache. -/
theorem mu_main {ok : Job → Bool} {total : Nat} (missed : List Nat) {s : S} :
    mu (main ok total missed s) < mu s ∨
      (mu (main ok total missed s) = mu s ∧ (∀ i, core (main ok total missed s) i = core s i)) := by
  unfold main
  split
  · split
    · rename_i j l hl; left; unfold mu; dsimp only; rw [hl]; simp
    · split <;> exact Or.inr ⟨rfl, fun _ => rfl⟩
  · split
    · right
      refine ⟨?_, fun i => core_reap missed s _ i⟩
      unfold mu; dsimp only; rw [sum_reap]
    · split <;> exact Or.inr ⟨rfl, fun _ => rfl⟩
  · split
    · exact Or.inr ⟨rfl, fun _ => rfl⟩
    · split
      · exact Or.inr ⟨rfl, fun _ => rfl⟩
      · rename_i j l hp
        split
        · left; unfold mu; dsimp only; rw [hp]; simp
        · left; unfold mu; dsimp only; rw [hp]; simp

theorem core_step {ok : Job → Bool} {total : Nat} {s : S} (hf : s.fin = none) (hd : ∀ p ∈ s.procs, p.alive = false → p.jobs = [] ∧ p.buf = [])
    (e : Ev) : mu (step ok total s e) < mu s ∨ (mu (step ok total s e) = mu s ∧ ∀ i, core (step ok total s e) i = core s i) := by
  by_cases hm : ∃ l, e = .main l
  · obtain ⟨l, rfl⟩ := hm
    have : step ok total s (.main l) = main ok total l s := by unfold step; rw [if_neg (by rw [hf]; simp)]
    rw [this]; exact mu_main l
  · rcases mu_event (ok := ok) (total := total) hf hd e (fun l h => hm ⟨l, h⟩) with h | h
    · exact Or.inl h
    · rw [h]; exact Or.inr ⟨rfl, fun _ => rfl⟩

/-- A process that runs has an event that makes the measure smaller. -/
theorem can_go {ok : Job → Bool} {total : Nat} {s : S} (hf : s.fin = none) {i : Nat} {a b : List Job} (hc : core s i = some (a, b, true)) :
    (a ≠ [] → mu (step ok total s (.work i)) < mu s) ∧ (b ≠ [] → mu (step ok total s (.feed i)) < mu s) ∧
      (a = [] → b = [] → mu (step ok total s (.exit i)) < mu s) := by
  unfold core at hc
  cases hi : s.procs[i]? with
  | none => rw [hi] at hc; cases hc
  | some p =>
    rw [hi] at hc
    simp only [Option.map_some, Option.some.injEq, Prod.mk.injEq] at hc
    obtain ⟨ha, hb, hal⟩ := hc
    refine ⟨?_, ?_, ?_⟩
    · intro hne
      unfold step; rw [if_neg (by rw [hf]; simp)]
      dsimp only
      rw [modify_set _ _ _ _ hi]
      cases hj : p.jobs.getLast? with
      | none => rw [List.getLast?_eq_none_iff] at hj; exact absurd (ha ▸ hj) hne
      | some j =>
        have hw : wt (work p) < wt p := by
          unfold work; rw [if_pos hal, hj]
          have := length_of_last hj
          unfold wt; simp only [List.length_append]; simp; omega
        have := sum_set wt (work p) _ _ _ hi
        unfold mu; dsimp only; omega
    · intro hne
      unfold step; rw [if_neg (by rw [hf]; simp)]
      dsimp only
      rw [hi]
      dsimp only
      cases hb' : p.buf with
      | nil => exact absurd (hb ▸ hb') hne
      | cons j l =>
        dsimp only
        rw [if_pos hal]
        have hw : wt { p with buf := l } + 2 = wt p := by
          unfold wt; rw [hb']; simp; omega
        have := sum_set wt { p with buf := l } _ _ _ hi
        unfold mu; simp only [List.length_append, List.length_cons, List.length_nil]; omega
    · intro e1 e2
      unfold step; rw [if_neg (by rw [hf]; simp)]
      dsimp only
      rw [modify_set _ _ _ _ hi]
      have hw : wt (exit p) + 1 = wt p := by
        unfold exit; rw [if_pos ⟨ha.trans e1, hb.trans e2⟩]; unfold wt; simp [hal]
      have := sum_set wt (exit p) _ _ _ hi
      unfold mu; dsimp only; omega

/-- A sequence of numbers that never grows is constant in the end. -/
theorem settles (f : Nat → Nat) (h : ∀ n, f (n + 1) ≤ f n) : ∃ N, ∀ m, N ≤ m → f m = f N := by
  have mono : ∀ n k, f (n + k) ≤ f n := by
    intro n k
    induction k with
    | zero => exact Nat.le_refl _
    | succ k ih => exact Nat.le_trans (h (n + k)) ih
  have key : ∀ v n, f n ≤ v → ∃ N, ∀ m, N ≤ m → f m = f N := by
    intro v
    induction v with
    | zero =>
      intro n hn
      refine ⟨n, fun m hm => ?_⟩
      have := mono n (m - n)
      rw [show n + (m - n) = m by omega] at this; omega
    | succ v ih =>
      intro n hn
      by_cases hex : ∃ m, n ≤ m ∧ f m < f n
      · obtain ⟨m, _, hlt⟩ := hex
        exact ih m (by omega)
      · refine ⟨n, fun m hm => ?_⟩
        have h1 := mono n (m - n)
        rw [show n + (m - n) = m by omega] at h1
        have h2 : ¬ f m < f n := fun hl => hex ⟨m, hm, hl⟩
        omega
  exact key (f 0) 0 (Nat.le_refl _)

/-- How far the collector is from the end when all processes have ended and nothing is left to take. -/
def rank (s : S) : Nat :=
  match s.phase with
  | .cached => 6
  | .get => if s.procs.any Proc.listed then 5 else 3
  | .top => if s.procs.any Proc.listed || !s.empty then 4 else 2

theorem reap_none (l : List Proc) (h : ∀ p ∈ l, p.alive = false) : (reap [] l).any Proc.listed = false := by
  apply Bool.eq_false_iff.2
  intro e
  obtain ⟨x, hx, hl⟩ := List.any_eq_true.1 e
  unfold reap at hx
  obtain ⟨y, hy, e2⟩ := List.mem_map.1 hx
  have hm : y.1 ∈ l := by
    have := List.mem_zipIdx' (x := y.1) (i := y.2) (xs := l) hy
    rw [this.2]; exact List.getElem_mem _
  unfold reapAt at e2
  rw [if_pos ⟨h _ hm, by simp⟩] at e2
  rw [← e2] at hl; cases hl

theorem rank_main {ok : Job → Bool} {total : Nat} {s : S} (hdead : ∀ p ∈ s.procs, p.alive = false)
    (hmu : mu (main ok total [] s) = mu s) (hfin : (main ok total [] s).fin = none) : rank (main ok total [] s) < rank s := by
  revert hmu hfin
  unfold main
  split
  · rename_i hph
    split
    · rename_i j l hl; intro hmu; exfalso; unfold mu at hmu; dsimp only at hmu; rw [hl] at hmu; simp at hmu
    · split
      · intro _ h; cases h
      · intro _ _
        unfold rank; rw [hph]; dsimp only; split <;> omega
  · rename_i hph
    split
    · rename_i hc
      intro _ _
      unfold rank; rw [hph]; dsimp only
      rw [if_pos hc, reap_none _ hdead]; simp
    · split
      · intro _ h; cases h
      · intro _ h; cases h
  · rename_i hph
    split
    · intro _ h; cases h
    · split
      · intro _ _
        unfold rank; rw [hph]; dsimp only
        cases hl : s.procs.any Proc.listed <;> simp
      · rename_i j l hp
        split
        · intro hmu; exfalso; unfold mu at hmu; dsimp only at hmu; rw [hp] at hmu; simp at hmu
        · intro _ h; cases h

theorem st_run (ok : Job → Bool) (total : Nat) (s : S) (evs : Nat → Ev) : ∀ n,
    st ok total s evs n = run ok total s ((List.range n).map evs)
  | 0 => rfl
  | n + 1 => by
    show step ok total (st ok total s evs n) (evs n) = _
    rw [st_run ok total s evs n, List.range_succ, List.map_append]
    unfold run
    rw [List.foldl_append]; rfl

theorem procs_length {ok : Job → Bool} {total : Nat} (s : S) (e : Ev) : (step ok total s e).procs.length = s.procs.length := by
  unfold step
  split
  · rfl
  · cases e with
    | work i => simp
    | exit i => simp
    | kill i => dsimp only; split <;> simp
    | feed i =>
      dsimp only
      split
      · rfl
      · split
        · rfl
        · split <;> simp
    | main missed =>
      show (main ok total missed s).procs.length = _
      unfold main
      split
      · split
        · rfl
        · split <;> rfl
      · split
        · simp [length_reap]
        · split <;> rfl
      · split
        · rfl
        · split
          · rfl
          · split <;> rfl

/-- **Parsing ends.**  Whichever processes are killed, and whatever the order of all events, if nobody is left out. -/
theorem parsing_ends (ok : Job → Bool) (threads : Nat) (ht : 0 < threads) (wp fc : List Job) (evs : Nat → Ev) (hfair : Fair threads evs) :
    ∃ n, (st ok wp.length (start threads wp fc) evs n).fin ≠ none := by
  apply Classical.byContradiction
  intro hno
  have hf : ∀ n, (st ok wp.length (start threads wp fc) evs n).fin = none := by
    intro n; apply Classical.byContradiction; intro h; exact hno ⟨n, h⟩
  generalize hs0 : start threads wp fc = s0 at *
  have hinv : ∀ n, Inv ok wp.length wp fc (st ok wp.length s0 evs n) := by
    intro n; rw [st_run, ← hs0]; exact inv_run _ (inv_start ok threads ht wp fc)
  have hlen : ∀ n, (st ok wp.length s0 evs n).procs.length ≤ threads := by
    intro n
    induction n with
    | zero =>
      show s0.procs.length ≤ threads
      rw [← hs0]; simp [start, chunks]; omega
    | succ n ih =>
      show (step ok wp.length (st ok wp.length s0 evs n) (evs n)).procs.length ≤ _
      rw [procs_length]; exact ih
  have hstep : ∀ n, mu (st ok wp.length s0 evs (n + 1)) < mu (st ok wp.length s0 evs n) ∨
      (mu (st ok wp.length s0 evs (n + 1)) = mu (st ok wp.length s0 evs n) ∧
        ∀ i, core (st ok wp.length s0 evs (n + 1)) i = core (st ok wp.length s0 evs n) i) :=
    fun n => core_step (hf n) (hinv n).dead (evs n)
  obtain ⟨N, hN⟩ := settles (fun n => mu (st ok wp.length s0 evs n)) (fun n => by rcases hstep n with h | h <;> omega)
  have hN : ∀ m, N ≤ m → mu (st ok wp.length s0 evs m) = mu (st ok wp.length s0 evs N) := hN
  have hcore : ∀ k i, core (st ok wp.length s0 evs (N + k)) i = core (st ok wp.length s0 evs N) i := by
    intro k i
    induction k with
    | zero => rfl
    | succ k ih =>
      rcases hstep (N + k) with h | h
      · have h1 := hN (N + k) (by omega)
        have h2 := hN (N + k + 1) (by omega)
        omega
      · rw [← ih]; exact h.2 i
  -- all processes have ended
  have hdead : ∀ m, N ≤ m → ∀ p ∈ (st ok wp.length s0 evs m).procs, p.alive = false := by
    intro m hm p hp
    cases hal : p.alive with
    | false => rfl
    | true =>
      exfalso
      obtain ⟨i, hi, e⟩ := List.getElem_of_mem hp
      have hit : i < threads := Nat.lt_of_lt_of_le hi (hlen m)
      have hc : core (st ok wp.length s0 evs m) i = some (p.jobs, p.buf, true) := by
        unfold core
        rw [List.getElem?_eq_getElem hi, e]
        simp [hal]
      have hck : ∀ k, N ≤ k → core (st ok wp.length s0 evs k) i = some (p.jobs, p.buf, true) := by
        intro k hk
        rw [← hc]
        have h1 := hcore (k - N) i
        have h2 := hcore (m - N) i
        rw [show N + (k - N) = k by omega] at h1
        rw [show N + (m - N) = m by omega] at h2
        rw [h1, h2]
      have hstuck : ∀ k, N ≤ k → ¬ mu (step ok wp.length (st ok wp.length s0 evs k) (evs k)) < mu (st ok wp.length s0 evs k) := by
        intro k hk
        have h1 := hN k hk
        have h2 := hN (k + 1) (by omega)
        have h3 : mu (step ok wp.length (st ok wp.length s0 evs k) (evs k)) = mu (st ok wp.length s0 evs N) := h2
        omega
      by_cases hj : p.jobs = []
      · by_cases hb : p.buf = []
        · obtain ⟨k, hk, ek⟩ := hfair.exit i hit N
          exact hstuck k hk (by rw [ek]; exact (can_go (hf k) (hck k hk)).2.2 hj hb)
        · obtain ⟨k, hk, ek⟩ := hfair.feed i hit N
          exact hstuck k hk (by rw [ek]; exact (can_go (hf k) (hck k hk)).2.1 hb)
      · obtain ⟨k, hk, ek⟩ := hfair.work i hit N
        exact hstuck k hk (by rw [ek]; exact (can_go (hf k) (hck k hk)).1 hj)
  obtain ⟨M, hM⟩ := hfair.seen
  have hnomain : ∀ k, N ≤ k → (∀ l, evs k ≠ .main l) → st ok wp.length s0 evs (k + 1) = st ok wp.length s0 evs k := by
    intro k hk hne
    rcases mu_event (ok := ok) (total := wp.length) (hf k) (hinv k).dead (evs k) hne with h | h
    · have h1 := hN k hk
      have h2 : mu (step ok wp.length (st ok wp.length s0 evs k) (evs k)) = mu (st ok wp.length s0 evs N) := hN (k + 1) (by omega)
      omega
    · exact h
  have hmain : ∀ k l, N ≤ k → M ≤ k → evs k = .main l → rank (st ok wp.length s0 evs (k + 1)) < rank (st ok wp.length s0 evs k) := by
    intro k l hk hk' e
    have hl := hM k l hk' e
    subst hl
    have he : st ok wp.length s0 evs (k + 1) = main ok wp.length [] (st ok wp.length s0 evs k) := by
      show step ok wp.length (st ok wp.length s0 evs k) (evs k) = _
      rw [e]; unfold step; rw [if_neg (by rw [hf k]; simp)]
    rw [he]
    apply rank_main (hdead k hk)
    · rw [← he, hN (k + 1) (by omega), hN k hk]
    · rw [← he]; exact hf _
  have hle : ∀ k, N ≤ k → M ≤ k → rank (st ok wp.length s0 evs (k + 1)) ≤ rank (st ok wp.length s0 evs k) := by
    intro k h1 h2
    by_cases hm : ∃ l, evs k = .main l
    · obtain ⟨l, e⟩ := hm
      exact Nat.le_of_lt (hmain k l h1 h2 e)
    · rw [hnomain k h1 (fun l e => hm ⟨l, e⟩)]; exact Nat.le_refl _
  obtain ⟨K, hK⟩ := settles (fun n => rank (st ok wp.length s0 evs (N + M + n))) (fun n => hle (N + M + n) (by omega) (by omega))
  obtain ⟨k, l, hk, e⟩ := hfair.main (N + M + K)
  have h1 := hmain k l (by omega) (by omega) e
  have h2 : rank (st ok wp.length s0 evs (N + M + (k - (N + M)))) = rank (st ok wp.length s0 evs (N + M + K)) := hK (k - (N + M)) (by omega)
  have h3 : rank (st ok wp.length s0 evs (N + M + (k + 1 - (N + M)))) = rank (st ok wp.length s0 evs (N + M + K)) := hK (k + 1 - (N + M)) (by omega)
  rw [show N + M + (k - (N + M)) = k by omega] at h2
  rw [show N + M + (k + 1 - (N + M)) = k + 1 by omega] at h3
  omega

/-- **All recipes are parsed, or the one that fails is named.**  Without kills, every fair order of events ends, and it ends as
complete, with every recipe once, exactly when no recipe fails. -/
theorem parsing_settles (ok : Job → Bool) (threads : Nat) (ht : 0 < threads) (wp fc : List Job) (evs : Nat → Ev) (hfair : Fair threads evs)
    (hk : ∀ n i, evs n ≠ .kill i) :
    ∃ n, ((∀ j ∈ wp, ok j = true) ∧ (st ok wp.length (start threads wp fc) evs n).fin = some .clean ∧
        (st ok wp.length (start threads wp fc) evs n).loaded = fc ∧ ((st ok wp.length (start threads wp fc) evs n).parsed).Perm wp) ∨
      ∃ j ∈ wp, ok j = false ∧ (st ok wp.length (start threads wp fc) evs n).fin = some (.failed j) := by
  obtain ⟨n, hn⟩ := parsing_ends ok threads ht wp fc evs hfair
  refine ⟨n, ?_⟩
  have hr := st_run ok wp.length (start threads wp fc) evs n
  rw [hr] at hn ⊢
  cases hfin : (run ok wp.length (start threads wp fc) ((List.range n).map evs)).fin with
  | none => exact absurd hfin hn
  | some x =>
    cases x with
    | clean =>
      obtain ⟨h1, h2, h3⟩ := complete_all ok threads wp fc _ hfin
      exact Or.inl ⟨h3, rfl, h1, h2⟩
    | failed j =>
      obtain ⟨h1, h2⟩ := failure_true ok threads ht wp fc _ j hfin
      exact Or.inr ⟨j, h1, h2, rfl⟩
    | died =>
      obtain ⟨i, hi⟩ := died_killed ok threads ht wp fc _ hfin
      obtain ⟨m, _, e⟩ := List.mem_map.1 hi
      exact absurd e (hk m i)

end Bb.Parser
