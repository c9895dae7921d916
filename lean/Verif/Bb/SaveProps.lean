import Verif.Bb.SaveModel
/-!
# What is stored is read back
-/

namespace Bb.Save

section
variable {V P : Type} [DecidableEq V] [DecidableEq P]

/-- The numbers of a process mean the same to the one that reads. -/
def Rel (s : Saver V) (m : List (Nat × V)) : Prop :=
  ∀ v n, s.map.lookup v = some n → m.lookup n = some v ∧ n < s.count

theorem rel_fresh (m : List (Nat × V)) : Rel Saver.fresh m := fun _ _ h => (nomatch h)

theorem set_new {d : Deps V} {k : Py.Str} {v : Option V} (h : k ∉ d.map (·.1)) : Py.Dict.set d k v = d ++ [(k, v)] := by
  unfold Py.Dict.set
  rw [if_neg]
  intro hs
  refine h ?_
  clear h
  induction d with
  | nil => cases hs
  | cons x d ih =>
    obtain ⟨a, b⟩ := x
    rw [List.lookup_cons] at hs
    cases e : k == a with
    | true => exact List.mem_cons.2 (Or.inl (eq_of_beq e))
    | false =>
      rw [e] at hs
      exact List.mem_cons_of_mem _ (ih hs)

theorem restore_save (d : Deps V) : ∀ (s : Saver V) (m : List (Nat × V)) (acc : Deps V), Rel s m → ((acc ++ d).map (·.1)).Nodup →
    ∃ m', restore m (save s d).2 acc = some (m', acc ++ d) ∧ Rel (save s d).1 m' := by
  induction d with
  | nil =>
    intro s m acc h _
    exact ⟨m, by rw [List.append_nil]; rfl, h⟩
  | cons x d ih =>
    obtain ⟨k, v⟩ := x
    intro s m acc h hn
    have hk : k ∉ acc.map (·.1) := by
      rw [List.map_append, List.map_cons, List.nodup_append] at hn
      exact fun hm => hn.2.2 k hm k List.mem_cons_self rfl
    have hn' : (((acc ++ [(k, v)]) ++ d).map (·.1)).Nodup := by rw [List.append_assoc]; exact hn
    have he : acc ++ (k, v) :: d = (acc ++ [(k, v)]) ++ d := by rw [List.append_assoc]; rfl
    cases v with
    | none =>
      obtain ⟨m', h1, h2⟩ := ih s m (acc ++ [(k, none)]) h hn'
      refine ⟨m', ?_, h2⟩
      show restore m (save s d).2 (Py.Dict.set acc k none) = _
      rw [set_new hk, h1, he]
    | some v =>
      cases hl : s.map.lookup v with
      | some n =>
        obtain ⟨m', h1, h2⟩ := ih s m (acc ++ [(k, some v)]) h hn'
        have e : save s ((k, some v) :: d) = ((save s d).1, (k, none, some n) :: (save s d).2) := by
          rw [save, hl]
        rw [e]
        refine ⟨m', ?_, h2⟩
        show restore m ((k, none, some n) :: (save s d).2) acc = _
        rw [restore, (h v n hl).1]
        dsimp only
        rw [set_new hk, h1, he]
      | none =>
        have h' : Rel ⟨(v, s.count) :: s.map, s.count + 1⟩ ((s.count, v) :: m) := by
          intro w n hw
          rw [List.lookup_cons] at hw
          rw [List.lookup_cons]
          cases e : w == v with
          | true =>
            rw [e] at hw
            injection hw with hw
            subst hw
            rw [beq_self_eq_true, eq_of_beq e]
            exact ⟨rfl, Nat.lt_succ_self _⟩
          | false =>
            rw [e] at hw
            have hr := h w n hw
            have hne : (n == s.count) = false := beq_eq_false_iff_ne.2 (Nat.ne_of_lt hr.2)
            rw [hne]
            exact ⟨hr.1, Nat.lt_succ_of_lt hr.2⟩
        obtain ⟨m', h1, h2⟩ := ih _ _ (acc ++ [(k, some v)]) h' hn'
        have e : save s ((k, some v) :: d) = ((save ⟨(v, s.count) :: s.map, s.count + 1⟩ d).1,
            (k, some v, some s.count) :: (save ⟨(v, s.count) :: s.map, s.count + 1⟩ d).2) := by
          rw [save, hl]
        rw [e]
        refine ⟨m', ?_, h2⟩
        show restore m ((k, some v, some s.count) :: _) acc = _
        rw [restore, set_new hk, h1, he]

theorem receives_inv : ∀ (ms : List (P × Msg V)) (maps : P → List (Nat × V)) (s : P → Saver V) (ds : P → List (Deps V)),
    (∀ p, Rel (s p) (maps p)) → (∀ p d, d ∈ ds p → (d.map (·.1)).Nodup) →
    (∀ p, (ms.filter fun x => x.1 = p).map (·.2) <+: sends (s p) (ds p)) →
    ∃ rs, receives maps ms = some rs ∧ rs.map (·.1) = ms.map (·.1) ∧ ∀ p, (rs.filter fun x => x.1 = p).map (·.2) <+: ds p
  | [], _, _, _, _, _, _ => ⟨[], rfl, rfl, fun _ => List.nil_prefix⟩
  | (p, m) :: ms, maps, s, ds, hr, hn, hp => by
    have h1 := hp p
    rw [List.filter_cons, if_pos (decide_eq_true rfl), List.map_cons] at h1
    cases hd : ds p with
    | nil =>
      rw [hd] at h1
      exact absurd (List.prefix_nil.1 h1) (List.cons_ne_nil _ _)
    | cons d ds' =>
      rw [hd] at h1
      have h1 : m :: (ms.filter fun x => x.1 = p).map (·.2) <+: (save (s p) d).2 :: sends (save (s p) d).1 ds' := h1
      rw [List.cons_prefix_cons] at h1
      obtain ⟨m', h2, h3⟩ := restore_save d (s p) (maps p) [] (hr p) (hn p d (hd ▸ List.mem_cons_self))
      have ih := receives_inv ms (fun q => if q = p then m' else maps q) (fun q => if q = p then (save (s p) d).1 else s q)
        (fun q => if q = p then ds' else ds q) (by
          intro q
          by_cases hq : q = p
          · rw [if_pos hq, if_pos hq]; exact h3
          · rw [if_neg hq, if_neg hq]; exact hr q) (by
          intro q d' hd'
          by_cases hq : q = p
          · rw [if_pos hq] at hd'; exact hn p d' (hd ▸ List.mem_cons_of_mem _ hd')
          · rw [if_neg hq] at hd'; exact hn q d' hd') (by
          intro q
          by_cases hq : q = p
          · rw [if_pos hq, if_pos hq, hq]; exact h1.2
          · rw [if_neg hq, if_neg hq]
            have := hp q
            rw [List.filter_cons_of_neg (by rw [decide_eq_true_eq]; exact fun e => hq e.symm)] at this
            exact this)
      obtain ⟨rs, h4, h5, h6⟩ := ih
      refine ⟨(p, d) :: rs, ?_, ?_, ?_⟩
      · unfold receives
        rw [h1.1, h2]
        dsimp only
        rw [h4]
        rfl
      · rw [List.map_cons, List.map_cons, h5]
      · intro q
        have h7 := h6 q
        by_cases hq : q = p
        · rw [if_pos hq] at h7
          rw [List.filter_cons, if_pos (decide_eq_true hq.symm), List.map_cons, hq, hd, List.cons_prefix_cons]
          rw [hq] at h7
          exact ⟨rfl, h7⟩
        · rw [if_neg hq] at h7
          rw [List.filter_cons_of_neg (by rw [decide_eq_true_eq]; exact fun e => hq e.symm)]
          exact h7

/-- C146: what several processes have written is read back as it was, in whatever order their pieces come, as long as the
pieces of each process come in their order and none is left out in the middle; and whatever is left from processes that
had the same number before. -/
theorem read_back (ms : List (P × Msg V)) (maps : P → List (Nat × V)) (ds : P → List (Deps V))
    (hn : ∀ p d, d ∈ ds p → (d.map (·.1)).Nodup)
    (hp : ∀ p, (ms.filter fun x => x.1 = p).map (·.2) <+: sends Saver.fresh (ds p)) :
    ∃ rs, receives maps ms = some rs ∧ rs.map (·.1) = ms.map (·.1) ∧ ∀ p, (rs.filter fun x => x.1 = p).map (·.2) <+: ds p :=
  receives_inv ms maps (fun _ => Saver.fresh) ds (fun p => rel_fresh (maps p)) hn hp

/-- How often a set is written. -/
def written (v : V) : List (Msg V) → Nat
  | [] => 0
  | m :: ms => (m.filter fun x => x.2.1 = some v).length + written v ms

theorem save_written (v : V) (d : Deps V) : ∀ s : Saver V,
    ((save s d).2.filter fun x => x.2.1 = some v).length + (if (s.map.lookup v).isSome then 1 else 0) =
      if ((save s d).1.map.lookup v).isSome then 1 else 0 := by
  induction d with
  | nil => intro s; exact Nat.zero_add _
  | cons x d ih =>
    obtain ⟨k, w⟩ := x
    intro s
    cases w with
    | none =>
      have := ih s
      exact this
    | some w =>
      cases hl : s.map.lookup w with
      | some n =>
        have e : save s ((k, some w) :: d) = ((save s d).1, (k, none, some n) :: (save s d).2) := by
          rw [save, hl]
        rw [e]
        exact ih s
      | none =>
        have e : save s ((k, some w) :: d) = ((save ⟨(w, s.count) :: s.map, s.count + 1⟩ d).1,
            (k, some w, some s.count) :: (save ⟨(w, s.count) :: s.map, s.count + 1⟩ d).2) := by
          rw [save, hl]
        rw [e]
        have h := ih ⟨(w, s.count) :: s.map, s.count + 1⟩
        dsimp only at h ⊢
        rw [← h]
        by_cases hw : w = v
        · subst hw
          rw [List.filter_cons, if_pos (decide_eq_true rfl), List.length_cons, hl, List.lookup_cons, beq_self_eq_true]
          rfl
        · rw [List.filter_cons_of_neg (by rw [decide_eq_true_eq]; intro h; injection h with h; exact hw h), List.lookup_cons,
            (beq_eq_false_iff_ne.2 (Ne.symm hw) : (v == w) = false)]

/-- C146: no set is written twice. -/
theorem written_once (v : V) (ds : List (Deps V)) : written v (sends Saver.fresh ds) ≤ 1 := by
  have key : ∀ (ds : List (Deps V)) (s : Saver V), written v (sends s ds) + (if (s.map.lookup v).isSome then 1 else 0) ≤ 1 := by
    intro ds
    induction ds with
    | nil =>
      intro s
      show 0 + _ ≤ 1
      split <;> omega
    | cons d ds ih =>
      intro s
      have h1 := save_written v d s
      have h2 := ih (save s d).1
      show ((save s d).2.filter fun x => x.2.1 = some v).length + written v (sends (save s d).1 ds) + _ ≤ 1
      omega
  have := key ds Saver.fresh
  have h0 : (if ((Saver.fresh : Saver V).map.lookup v).isSome then 1 else 0) = 0 := rfl
  omega

end

def deps1 : Deps Nat := [("A".toList, some 7), ("B".toList, none), ("C".toList, some 7)]
def deps2 : Deps Nat := [("A".toList, some 8), ("D".toList, some 7)]

example : sends Saver.fresh [deps1, deps2] = [[("A".toList, some 7, some 1), ("B".toList, none, none), ("C".toList, none, some 1)],
    [("A".toList, some 8, some 2), ("D".toList, none, some 1)]] := by decide

example : receives (fun _ : Nat => []) [(0, (save .fresh deps1).2), (1, (save .fresh deps2).2), (0, (save (save .fresh deps1).1 deps2).2)] =
    some [(0, deps1), (1, deps2), (0, deps2)] := by decide

/-- Beside C146: a piece that is left out makes the next one unreadable. -/
theorem left_out : receives (fun _ : Nat => []) [(0, (save (save .fresh deps1).1 deps2).2)] = none := by decide

end Bb.Save
