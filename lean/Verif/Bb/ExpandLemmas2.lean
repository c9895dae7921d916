import Verif.Bb.ExpandLemmas
/-! # Lemmas about expansion: what is left, and what texts mean -/

namespace Bb.Expand
open Py Spec

/-! ## A pass that changes nothing -/

theorem shift_impossible : ∀ (l : List (Str × Str)) (x : Str), x ≠ [] →
    (∀ p, p ∈ l → p.1 = p.2 ∨ ∀ a b, p.1 ≠ a ++ p.2 ++ b) →
    (l.map Prod.fst).flatten ≠ x ++ (l.map Prod.snd).flatten
  | [], x, hx, _, h => hx (List.append_eq_nil_iff.1 h.symm).1
  | (v, r) :: l, x, hx, hl, h => by
    replace h : v ++ (l.map Prod.fst).flatten = x ++ (r ++ (l.map Prod.snd).flatten) := h
    rw [← List.append_assoc] at h
    rcases List.append_eq_append_iff.1 h with ⟨y, hy, hy'⟩ | ⟨y, hy, _⟩
    · -- x ++ r = v ++ y
      by_cases hy0 : y = []
      · subst hy0
        rw [List.append_nil] at hy
        rcases hl (v, r) List.mem_cons_self with e | e
        · exact hx (by
            have := congrArg List.length hy
            rw [List.length_append, show v = r from e] at this
            exact List.length_eq_zero_iff.1 (by omega))
        · exact e x [] (by rw [List.append_nil]; exact hy.symm)
      · exact shift_impossible l y hy0 (fun p hp => hl p (List.mem_cons_of_mem _ hp)) hy'
    · -- v = x ++ r ++ y
      rcases hl (v, r) List.mem_cons_self with e | e
      · have := congrArg List.length hy
        rw [List.length_append, List.length_append, show v = r from e] at this
        exact hx (List.length_eq_zero_iff.1 (by omega))
      · exact e x y hy

/-- Pieces that are replaced by texts in which they do not occur change the text. -/
theorem same_pieces : ∀ (l : List (Str × Str)), (∀ p, p ∈ l → p.1 = p.2 ∨ ∀ a b, p.1 ≠ a ++ p.2 ++ b) →
    (l.map Prod.fst).flatten = (l.map Prod.snd).flatten → ∀ p, p ∈ l → p.1 = p.2
  | [], _, _, _, hp => nomatch hp
  | (v, r) :: l, hl, h, p, hp => by
    replace h : v ++ (l.map Prod.fst).flatten = r ++ (l.map Prod.snd).flatten := h
    have hvr : v = r := by
      rcases hl (v, r) List.mem_cons_self with e | e
      · exact e
      · rcases List.append_eq_append_iff.1 h with ⟨y, hy, hy'⟩ | ⟨y, hy, _⟩
        · by_cases hy0 : y = []
          · rw [hy0, List.append_nil] at hy; exact hy.symm
          · exact absurd hy' (shift_impossible l y hy0 fun p hp => hl p (List.mem_cons_of_mem _ hp))
        · exact absurd hy (e [] y)
    subst hvr
    rcases List.mem_cons.1 hp with rfl | hp
    · rfl
    · exact same_pieces l (fun p hp => hl p (List.mem_cons_of_mem _ hp)) (List.append_cancel_left h) p hp

/-- The texts of the pieces after and before a pass. -/
def pairs (vals : Str → Option Str) (ss : List Seg) : List (Str × Str) :=
  ss.map fun
    | .lit c => ([c], [c])
    | .ref k => ((vals k).getD (refText k), refText k)

theorem pairs_snd (vals : Str → Option Str) (ss : List Seg) : ((pairs vals ss).map Prod.snd).flatten = flat ss := by
  unfold pairs flat
  rw [List.map_map]
  congr 1
  refine List.map_congr_left fun x _ => ?_
  cases x <;> rfl

/-- The values that a pass has read. -/
theorem substP_vals {get : Str → Except Err (Option Str)} {self : Option Str} (vals : Str → Option Str) :
    ∀ {ss : List Seg} {r : Str}, substP get self ss = .ok r → (∀ k v, Seg.ref k ∈ ss → get k = .ok v → vals k = v) →
    r = ((pairs vals ss).map Prod.fst).flatten
  | [], r, h, _ => by cases h; rfl
  | .lit c :: ss, r, h, hv => by
    obtain ⟨r', h1, rfl⟩ := substP_lit.1 h
    rw [substP_vals vals h1 fun k v hm => hv k v (List.mem_cons_of_mem _ hm)]
    rfl
  | .ref k :: ss, r, h, hv => by
    obtain ⟨_, v, r', h1, h2, rfl⟩ := substP_ref.1 h
    rw [substP_vals vals h2 fun k v hm => hv k v (List.mem_cons_of_mem _ hm), ← hv k v List.mem_cons_self h1]
    rfl

theorem substP_all {get : Str → Except Err (Option Str)} {self : Option Str} :
    ∀ {ss : List Seg} {r : Str}, substP get self ss = .ok r → ∀ k, Seg.ref k ∈ ss → self ≠ some k ∧ ∃ v, get k = .ok v
  | [], _, _, _, hm => nomatch hm
  | .lit c :: ss, r, h, k, hm => by
    obtain ⟨r', h1, rfl⟩ := substP_lit.1 h
    rcases List.mem_cons.1 hm with hm | hm
    · cases hm
    · exact substP_all h1 k hm
  | .ref j :: ss, r, h, k, hm => by
    obtain ⟨hs, v, r', h1, h2, rfl⟩ := substP_ref.1 h
    rcases List.mem_cons.1 hm with hm | hm
    · cases hm; exact ⟨hs, v, h1⟩
    · exact substP_all h2 k hm

/-- If a pass changes nothing, and no value has a reference to its own variable, the text has only
references to variables that are not set. -/
theorem pass_same {get : Str → Except Err (Option Str)} {self : Option Str} {s : Str}
    (h : substP get self (scan 0 s) = .ok s)
    (hg : ∀ k v, isName k = true → get k = .ok (some v) → ∀ a b, v ≠ a ++ refText k ++ b) :
    ∀ k, Seg.ref k ∈ scan 0 s → get k = .ok none := by
  intro k hk
  let vals : Str → Option Str := fun k =>
    match get k with
    | .ok v => v
    | .error _ => none
  have hv : ∀ k v, get k = .ok v → vals k = v := fun k v h => by
    show (match get k with | .ok v => v | .error _ => none) = v
    rw [h]
  have h1 := substP_vals vals h fun k v _ h => hv k v h
  have hp : ∀ p, p ∈ pairs vals (scan 0 s) → p.1 = p.2 ∨ ∀ a b, p.1 ≠ a ++ p.2 ++ b := by
    intro p hp
    obtain ⟨x, hx, rfl⟩ := List.mem_map.1 hp
    cases x with
    | lit c => exact Or.inl rfl
    | ref j =>
      obtain ⟨v, hj⟩ := (substP_all h j hx).2
      show (vals j).getD (refText j) = refText j ∨ _
      rw [hv j v hj]
      cases v with
      | none => exact Or.inl rfl
      | some v =>
        refine Or.inr fun a b => ?_
        show (vals j).getD (refText j) ≠ a ++ refText j ++ b
        rw [hv j _ hj]
        exact hg j v (scan_names s j hx) hj a b
  have hsame := same_pieces _ hp (by rw [pairs_snd, flat_scan, ← h1])
  obtain ⟨v, hj⟩ := (substP_all h k hk).2
  cases v with
  | none => exact hj
  | some v =>
    have := hsame _ (List.mem_map.2 ⟨_, hk, rfl⟩)
    replace this : (vals k).getD (refText k) = refText k := this
    rw [hv k _ hj] at this
    exact absurd (show v = [] ++ refText k ++ [] by rw [List.append_nil]; exact this)
      (hg k v (scan_names s k hk) hj [] [])

/-- No reference to a variable that is set. -/
def Settled (env : Str → Option Str) (s : Str) : Prop := ∀ k, Seg.ref k ∈ scan 0 s → env k = none

theorem settled_iff {env : Str → Option Str} {s : Str} :
    Settled env s ↔ ∀ k, IsName k → env k ≠ none → ∀ a b, s ≠ a ++ refText k ++ b := by
  constructor
  · intro h k hk he a b hs
    exact he (h k (scan_finds (isName_spec.2 hk) s a b hs))
  · intro h k hk
    refine Classical.byContradiction fun hc => ?_
    obtain ⟨a, b, hs⟩ := scan_in hk
    exact h k (isName_spec.1 (scan_names s k hk)) hc a b hs

theorem no_open {s : Str} (h : isSub ['$', '{'] s = false) : ∀ k, Seg.ref k ∉ scan 0 s := by
  intro k hk
  obtain ⟨a, b, hs⟩ := scan_in hk
  have : isSub ['$', '{'] s = true := isSub_iff.2 ⟨a, k ++ '}' :: b, by
    rw [hs, List.append_assoc, refText_append, List.append_assoc]; rfl⟩
  rw [h] at this
  cases this

theorem loopP_settled {env : Str → Option Str} {get : Str → Except Err (Option Str)} {self : Option Str}
    (hn : ∀ k, get k = .ok none → env k = none) (hg : ∀ k v, get k = .ok (some v) → env k ≠ none ∧ Settled env v) :
    ∀ {n : Nat} {s r : Str}, loopP get self n s = .ok r → Settled env r
  | 0, _, _, h => nomatch h
  | n + 1, s, r, h => by
    rcases loopP_ok.1 h with ⟨h1, rfl⟩ | ⟨_, h2, rfl⟩ | ⟨_, s', _, _, h4⟩
    · exact fun k hk => absurd hk (no_open h1 k)
    · intro k hk
      refine hn k (pass_same h2 (fun j v hj hv a b => ?_) k hk)
      obtain ⟨h3, h4⟩ := hg j v hv
      exact settled_iff.1 h4 j (isName_spec.1 hj) h3 a b
    · exact loopP_settled hn hg h4

theorem valueP_settled {env : Str → Option Str} {f : Nat} : ∀ {d : Nat} {k : Str},
    (valueP env f d k = .ok none → env k = none) ∧
    (∀ v, valueP env f d k = .ok (some v) → env k ≠ none ∧ Settled env v)
  | 0, _ => ⟨fun h => (nomatch h), fun _ h => (nomatch h)⟩
  | d + 1, k => by
    refine ⟨fun h => ?_, fun v h => ?_⟩
    · rcases valueP_ok.1 h with ⟨h, _⟩ | ⟨_, _, _, _, h⟩
      · exact h
      · cases h
    · rcases valueP_ok.1 h with ⟨_, h⟩ | ⟨t, r, h1, h2, h3⟩
      · cases h
      · cases h3
        exact ⟨fun hc => by rw [h1] at hc; (cases hc), loopP_settled (fun k h => valueP_settled.1 h)
          (fun k v h => valueP_settled.2 v h) h2⟩

theorem val_settled {env : Str → Option Str} {k : Str} {v : Str} (h : Val env k (some v)) : Settled env v := by
  obtain ⟨f, d, h⟩ := h
  exact (valueP_settled.2 v h).2

/-! ## Cycles -/

theorem substP_error {get : Str → Except Err (Option Str)} {self : Option Str} {k : Str} {ss : List Seg}
    (hk : Seg.ref k ∈ ss) (hg : ∀ v, get k ≠ .ok v) : ∀ r, substP get self ss ≠ .ok r := by
  intro r h
  obtain ⟨_, v, hv⟩ := substP_all h k hk
  exact hg v hv

/-- Variables that refer to each other in a circle have no value. -/
theorem cycle_error {env : Str → Option Str} {S : Str → Prop}
    (hS : ∀ k, S k → ∃ t j, env k = some t ∧ S j ∧ Seg.ref j ∈ scan 0 t) (f : Nat) :
    ∀ d k, S k → ∀ v, valueP env f d k ≠ .ok v
  | 0, _, _, _, h => nomatch h
  | d + 1, k, hk, v, h => by
    obtain ⟨t, j, ht, hj, hm⟩ := hS k hk
    rcases valueP_ok.1 h with ⟨h, _⟩ | ⟨t', r, h1, h2, _⟩
    · rw [ht] at h; cases h
    · rw [ht] at h1
      cases h1
      have he := substP_error (self := some k) hm (cycle_error hS f d j hj)
      cases f with
      | zero => cases h2
      | succ f =>
        rcases loopP_ok.1 h2 with ⟨h1, _⟩ | ⟨_, h3, _⟩ | ⟨_, s', h3, _⟩
        · exact no_open h1 j hm
        · exact he _ h3
        · exact he _ h3

end Bb.Expand
