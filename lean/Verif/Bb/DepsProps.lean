import Verif.Bb.DepsSpec
import Verif.Bb.VersionProps
/-!
# Properties of dependency strings (C37)
-/

namespace Bb.Deps
open Py

/-! ### `explode_deps` -/

/-- There are open parentheses after these words. -/
def Open (pre : List Str) : Prop :=
  ∃ j, j < pre.length ∧ (∃ w, pre[j]? = some w ∧ w.head? = some '(') ∧
    ∀ k, j ≤ k → k < pre.length → ∀ w, pre[k]? = some w → w.getLast? ≠ some ')'

theorem inside_here (pre l : List Str) (i : Str) :
    Inside (pre ++ i :: l) pre.length ↔ Open pre ∨ i.head? = some '(' := by
  constructor
  · rintro ⟨j, hj, ⟨w, hw, hp⟩, hk⟩
    by_cases h : j = pre.length
    · subst h
      right
      rw [List.getElem?_append_right (Nat.le_refl _), Nat.sub_self] at hw
      rw [Option.some.inj hw]; exact hp
    · left
      have hlt : j < pre.length := by omega
      refine ⟨j, hlt, ⟨w, by rwa [List.getElem?_append_left hlt] at hw, hp⟩, ?_⟩
      intro k h1 h2 w hw
      exact hk k h1 h2 w (by rwa [List.getElem?_append_left h2])
  · rintro (⟨j, hj, ⟨w, hw, hp⟩, hk⟩ | h)
    · refine ⟨j, by omega, ⟨w, by rwa [List.getElem?_append_left hj], hp⟩, ?_⟩
      intro k h1 h2 w hw
      rw [List.getElem?_append_left h2] at hw
      exact hk k h1 h2 w hw
    · refine ⟨pre.length, Nat.le_refl _, ⟨i, ?_, h⟩, fun k h1 h2 => by omega⟩
      rw [List.getElem?_append_right (Nat.le_refl _), Nat.sub_self]; rfl

theorem open_snoc (pre : List Str) (i : Str) :
    Open (pre ++ [i]) ↔ (Open pre ∨ i.head? = some '(') ∧ i.getLast? ≠ some ')' := by
  rw [← inside_here pre [] i]
  constructor
  · rintro ⟨j, hj, hw, hk⟩
    rw [List.length_append, List.length_singleton] at hj hk
    refine ⟨⟨j, by omega, hw, fun k h1 h2 => hk k h1 (by omega)⟩, hk pre.length (by omega) (by omega) i ?_⟩
    rw [List.getElem?_append_right (Nat.le_refl _), Nat.sub_self]; rfl
  · rintro ⟨⟨j, hj, hw, hk⟩, hi⟩
    refine ⟨j, by rw [List.length_append, List.length_singleton]; omega, hw, ?_⟩
    intro k h1 h2 w hw
    rw [List.length_append, List.length_singleton] at h2
    by_cases h : k = pre.length
    · subst h
      rw [List.getElem?_append_right (Nat.le_refl _), Nat.sub_self] at hw
      rw [← Option.some.inj hw]; exact hi
    · exact hk k h1 (by omega) w hw

theorem startsWith_char {s : Str} {c : Char} : startsWith s [c] = true ↔ s.head? = some c := by
  rw [startsWith_iff]
  cases s with
  | nil => simp
  | cons d s =>
    simp only [List.cons_append, List.nil_append, List.head?_cons, Option.some.injEq]
    constructor
    · rintro ⟨t, h⟩; injection h
    · rintro rfl; exact ⟨s, rfl⟩

theorem endsWith_char {s : Str} {c : Char} : endsWith s [c] = true ↔ s.getLast? = some c := by
  rw [endsWith_iff]
  constructor
  · rintro ⟨t, rfl⟩; simp
  · intro h
    obtain ⟨hne, h⟩ := List.getLast?_eq_some_iff.mp h
    exact ⟨hne, h⟩

open Classical in
theorem explodeGo_eq : ∀ (l pre : List Str) (flag : Bool), (flag = true ↔ Open pre) →
    explodeGo flag l =
      ((l.zipIdx pre.length).filter fun x => decide (¬ Inside (pre ++ l) x.2)).map (·.1)
  | [], _, _, _ => rfl
  | i :: l, pre, flag, hf => by
    unfold explodeGo
    dsimp only
    have happ : pre ++ i :: l = (pre ++ [i]) ++ l := by simp
    rw [List.zipIdx_cons, List.filter_cons]
    have hin := inside_here pre l i
    by_cases h : (flag || startsWith i ['(']) = true
    · have hI : Inside (pre ++ i :: l) pre.length := by
        rw [hin, ← hf, ← startsWith_char]
        simpa using h
      rw [if_pos h, if_neg (by simpa using hI)]
      have := explodeGo_eq l (pre ++ [i]) (!endsWith i [')']) (by
        rw [open_snoc, ← hin, Ne, ← endsWith_char]
        simp [hI])
      rw [this, List.length_append, List.length_singleton, happ]
    · have hI : ¬ Inside (pre ++ i :: l) pre.length := by
        rw [hin, ← hf, ← startsWith_char]
        simpa using h
      rw [if_neg h, if_pos (by simpa using hI)]
      have := explodeGo_eq l (pre ++ [i]) false (by
        rw [open_snoc, ← hin]
        simp [hI])
      rw [this, List.length_append, List.length_singleton, happ]
      rfl

open Classical in
/-- **C37.**  Exactly the words outside of parentheses are returned, in their order. -/
theorem explode_deps_exact (s : Str) : explodeDeps s =
    ((words s).zipIdx.filter fun x => decide (¬ Inside (words s) x.2)).map (·.1) := by
  have := explodeGo_eq (words s) [] false (by
    constructor
    · intro h; cases h
    · rintro ⟨j, hj, _⟩; cases hj)
  rwa [List.nil_append] at this

/-! ### Operators -/

theorem takeOp_op : ∀ op ∈ ops, takeOp op = some (op, []) := by decide

theorem sw2 (p q a b : Char) (v : Str) : startsWith (a :: b :: v) [p, q] = (p == a && q == b) := by
  simp [startsWith, List.isPrefixOf]

theorem takeOp_two {a b : Char} {v : Str} (h : [a, b] ∈
    ["<=", "=<", "<<", "==", "!=", ">=", "=>", ">>"].map String.toList) :
    takeOp (a :: b :: v) = some ([a, b], v) := by
  unfold takeOp
  rw [if_pos]
  · rfl
  · obtain ⟨o, ho, he⟩ := List.mem_map.mp h
    exact List.any_eq_true.mpr ⟨o, ho, by rw [he, startsWith_iff]; exact ⟨v, rfl⟩⟩

theorem takeOp_one {a : Char} {v : Str} (h : a = '<' ∨ a = '>' ∨ a = '=')
    (hv : ∀ x, v.head? = some x → x ≠ '<' ∧ x ≠ '>' ∧ x ≠ '=') : takeOp (a :: v) = some ([a], v) := by
  unfold takeOp
  rw [if_neg, if_pos]
  · rfl
  · rcases h with rfl | rfl | rfl <;> rfl
  · intro hc
    obtain ⟨o, ho, hs⟩ := List.any_eq_true.mp hc
    cases v with
    | nil => rcases h with rfl | rfl | rfl <;> revert o <;> decide
    | cons x v =>
      obtain ⟨h1, h2, h3⟩ := hv x rfl
      simp only [List.mem_cons, List.not_mem_nil, or_false] at ho
      rcases ho with rfl | rfl | rfl | rfl | rfl | rfl | rfl | rfl
      · rw [show "<=".toList = ['<', '='] from rfl, sw2] at hs
        simp [Ne.symm h3] at hs
      · rw [show "=<".toList = ['=', '<'] from rfl, sw2] at hs
        simp [Ne.symm h1] at hs
      · rw [show "<<".toList = ['<', '<'] from rfl, sw2] at hs
        simp [Ne.symm h1] at hs
      · rw [show "==".toList = ['=', '='] from rfl, sw2] at hs
        simp [Ne.symm h3] at hs
      · rw [show "!=".toList = ['!', '='] from rfl, sw2] at hs
        simp [Ne.symm h3] at hs
      · rw [show ">=".toList = ['>', '='] from rfl, sw2] at hs
        simp [Ne.symm h3] at hs
      · rw [show "=>".toList = ['=', '>'] from rfl, sw2] at hs
        simp [Ne.symm h2] at hs
      · rw [show ">>".toList = ['>', '>'] from rfl, sw2] at hs
        simp [Ne.symm h2] at hs

theorem takeOp_glued {op v : Str} (ho : op ∈ ops)
    (hv : ∀ x, v.head? = some x → x ≠ '<' ∧ x ≠ '>' ∧ x ≠ '=') :
    takeOp (op ++ v) = some (op, v) := by
  unfold ops at ho
  simp only [List.map_cons, List.map_nil, List.mem_cons, List.not_mem_nil, or_false] at ho
  rcases ho with rfl | rfl | rfl | rfl | rfl | rfl | rfl | rfl | rfl | rfl | rfl
  · exact takeOp_two (by decide)
  · exact takeOp_two (by decide)
  · exact takeOp_two (by decide)
  · exact takeOp_two (by decide)
  · exact takeOp_two (by decide)
  · exact takeOp_two (by decide)
  · exact takeOp_two (by decide)
  · exact takeOp_two (by decide)
  · exact takeOp_one (by decide) hv
  · exact takeOp_one (by decide) hv
  · exact takeOp_one (by decide) hv

theorem op_head : ∀ op ∈ ops, op ≠ [] ∧ op.head? ≠ some '(' := by decide

/-! ### One entry -/

theorem turns_append (a b : List Str) (st : St) :
    turns (a ++ b) st = (turns a st).bind (turns b) := by
  induction a generalizing st with
  | nil => rfl
  | cons i a ih =>
    rw [List.cons_append]
    unfold turns
    cases turn st i with
    | none => rfl
    | some st => exact ih st

theorem noparen {i : Str} (h : i.head? ≠ some '(') : startsWith i ['('] = false := by
  cases hs : startsWith i ['('] with
  | false => rfl
  | true => exact absurd (startsWith_char.mp hs) h

/-- What a turn does after an opening parenthesis. -/
def afterOpen (st : St) (i : Str) : Option St :=
  match takeOp i with
  | none => none
  | some (op, rest) =>
    if rest = [] then some { st with incmp := false, inversion := true, lastcmp := op }
    else some (inVersion { st with incmp := false, inversion := true, lastcmp := op } rest)

theorem turn_open (st : St) : turn st ['('] = some { st with incmp := true } := by
  unfold turn
  dsimp only
  rw [if_pos ⟨rfl, rfl⟩]
  congr 2
  exact Bool.or_true _

theorem turn_incmp {st : St} {i : Str} (h : st.incmp = true) (hi : i.head? ≠ some '(') :
    turn st i = afterOpen st i := by
  unfold turn afterOpen
  simp [noparen hi, h]
  rfl

theorem turn_glued {st : St} {i : Str} (hi : i ≠ []) :
    turn st ('(' :: i) = afterOpen st i := by
  unfold turn afterOpen
  dsimp only
  have hp : startsWith ('(' :: i) ['('] = true := startsWith_char.mpr rfl
  rw [hp, if_pos rfl]
  rw [if_neg (by simp [hi]), if_pos (by simp)]
  rfl

theorem turn_version {st : St} {i : Str} (h : st.incmp = false) (hv : st.inversion = true)
    (hi : i.head? ≠ some '(') : turn st i = some (inVersion st i) := by
  unfold turn
  simp [noparen hi, h, hv]
  rw [← h, ← hv]

theorem turn_name {st : St} {i : Str} (h : st.incmp = false) (hv : st.inversion = false)
    (hi : i.head? ≠ some '(') : turn st i = some (inName st i) := by
  unfold turn
  obtain ⟨r, a, b, c, d, e⟩ := st
  subst h; subst hv
  simp [noparen hi]

/-- The words of version and closing parenthesis. -/
def closed (c : Constraint) : List Str :=
  if c.spaceClose then [c.ver, ")".toList] else [c.ver ++ ")".toList]

theorem closed_cons (c : Constraint) : closed c = (closed c).headD [] :: (closed c).tail := by
  unfold closed; split <;> rfl

theorem closed_head {c : Constraint} (h : c.ver ≠ []) : ((closed c).headD []).head? = c.ver.head? := by
  unfold closed
  obtain ⟨x, t, hx⟩ := List.exists_cons_of_ne_nil h
  split <;> rw [hx] <;> rfl

/-- The state after a constraint. -/
def done (st : St) (op ver : Str) : St :=
  { st with
    incmp := false, inversion := false, lastcmp := op, lastver := ver
    r := st.r.append st.lastdep (op ++ [' '] ++ ver) }

theorem closed_ok {c : Constraint} (hc : OkConstraint c) {st : St} (hi : st.incmp = false)
    (hv : st.inversion = true) (hl : st.lastver = []) :
    turns (closed c).tail (inVersion st ((closed c).headD [])) = some (done st st.lastcmp c.ver) := by
  have hne : c.ver ≠ [] := hc.ver.1.1
  unfold closed
  by_cases hs : c.spaceClose = true
  · rw [if_pos hs]
    have h1 : inVersion st c.ver = { done st st.lastcmp c.ver with inversion := true } := by
      unfold inVersion done
      have he : endsWith c.ver [')'] = false := by
        cases h : endsWith c.ver [')'] with
        | false => rfl
        | true => exact absurd (endsWith_char.mp h) (hc.noClose hs)
      simp [he, hne, hl, hi, hv]
    show turns [")".toList] (inVersion st c.ver) = _
    rw [h1]
    unfold turns
    rw [turn_version rfl rfl (by decide)]
    show turns [] (inVersion _ [')']) = _
    unfold turns
    congr 1
    have he : endsWith [')'] [')'] = true := rfl
    simp [inVersion, done, he]
  · rw [if_neg hs]
    show turns [] (inVersion st (c.ver ++ ")".toList)) = _
    unfold turns
    congr 1
    unfold inVersion done
    have he : endsWith (c.ver ++ ")".toList) [')'] = true := by
      rw [endsWith_iff]; exact ⟨c.ver, rfl⟩
    have hd : (c.ver ++ ")".toList).dropLast = c.ver := List.dropLast_concat
    simp only [he, hd, hl, hi]
    simp [hne]

/-- The words after the opening parenthesis. -/
def opver (c : Constraint) : List Str :=
  if c.spaceOp then c.op :: closed c else (c.op ++ (closed c).headD []) :: (closed c).tail

theorem opver_cons (c : Constraint) : opver c = (opver c).headD [] :: (opver c).tail := by
  unfold opver; split <;> rfl

theorem words_eq (c : Constraint) : c.words =
    if c.spaceOpen then "(".toList :: opver c
    else ("(".toList ++ (opver c).headD []) :: (opver c).tail := rfl

theorem opver_head {c : Constraint} (hc : OkConstraint c) :
    (opver c).headD [] ≠ [] ∧ ((opver c).headD []).head? ≠ some '(' := by
  obtain ⟨h1, h2⟩ := op_head c.op hc.op
  obtain ⟨x, t, hx⟩ := List.exists_cons_of_ne_nil h1
  unfold opver
  split <;> rw [hx] at h2 ⊢
  · exact ⟨List.cons_ne_nil _ _, h2⟩
  · exact ⟨List.cons_ne_nil _ _, h2⟩

theorem opver_ok {c : Constraint} (hc : OkConstraint c) {st : St} (hl : st.lastver = []) :
    (afterOpen st ((opver c).headD [])).bind (turns (opver c).tail) = some (done st c.op c.ver) := by
  have hne : c.ver ≠ [] := hc.ver.1.1
  have hh := closed_head (c := c) hne
  unfold opver
  by_cases hs : c.spaceOp = true
  · rw [if_pos hs]
    show (afterOpen st c.op).bind (turns (closed c)) = _
    unfold afterOpen
    rw [takeOp_op c.op hc.op]
    dsimp only
    rw [if_pos rfl, closed_cons c]
    dsimp only [Option.bind_some]
    unfold turns
    rw [turn_version rfl rfl (by rw [hh]; exact hc.ver.2.2)]
    dsimp only
    exact closed_ok hc (st := { st with incmp := false, inversion := true, lastcmp := c.op }) rfl rfl hl
  · rw [if_neg hs]
    show (afterOpen st (c.op ++ (closed c).headD [])).bind (turns (closed c).tail) = _
    unfold afterOpen
    rw [takeOp_glued hc.op (by rw [hh]; exact hc.noOp (by simpa using hs))]
    have hcne : (closed c).headD [] ≠ [] := by
      intro e
      rw [e] at hh
      exact hne (List.head?_eq_none_iff.mp hh.symm)
    dsimp only
    rw [if_neg hcne]
    dsimp only [Option.bind_some]
    exact closed_ok hc (st := { st with incmp := false, inversion := true, lastcmp := c.op }) rfl rfl hl

theorem constraint_ok {c : Constraint} (hc : OkConstraint c) {st : St} (hl : st.lastver = []) :
    turns c.words st = some (done st c.op c.ver) := by
  obtain ⟨h1, h2⟩ := opver_head hc
  rw [words_eq]
  by_cases hs : c.spaceOpen = true
  · rw [if_pos hs, opver_cons c]
    unfold turns
    rw [show "(".toList = ['('] from rfl, turn_open]
    dsimp only
    unfold turns
    rw [turn_incmp rfl h2]
    have := opver_ok hc (st := { st with incmp := true }) hl
    cases ha : afterOpen { st with incmp := true } ((opver c).headD []) with
    | none => rw [ha] at this; cases this
    | some st2 => rw [ha] at this; exact this
  · rw [if_neg hs]
    unfold turns
    show (match turn st ('(' :: (opver c).headD []) with | none => none | some st => turns _ st) = _
    rw [turn_glued h1]
    have := opver_ok hc (st := st) hl
    cases ha : afterOpen st ((opver c).headD []) with
    | none => rw [ha] at this; cases this
    | some st2 => rw [ha] at this; exact this

/-! ### The dictionary -/

/-- The dictionary of the entries. -/
def dictOf (occs : List Occ) : Dict :=
  (firsts (occs.map (·.name))).map fun n => (some n, constraints occs n)

theorem mem_firsts {l : List Str} {n : Str} : n ∈ firsts l ↔ n ∈ l := by
  induction l with
  | nil => simp [firsts]
  | cons a l ih =>
    unfold firsts
    simp only [List.mem_cons, List.mem_filter, ih, decide_eq_true_eq]
    constructor
    · rintro (h | ⟨h, _⟩)
      · exact Or.inl h
      · exact Or.inr h
    · rintro (h | h)
      · exact Or.inl h
      · by_cases e : n = a
        · exact Or.inl e
        · exact Or.inr ⟨h, e⟩

theorem firsts_snoc (l : List Str) (n : Str) :
    firsts (l ++ [n]) = if n ∈ l then firsts l else firsts l ++ [n] := by
  induction l with
  | nil => simp [firsts]
  | cons a l ih =>
    rw [List.cons_append, firsts, ih, firsts]
    by_cases h : n ∈ l
    · rw [if_pos h, if_pos (List.mem_cons_of_mem _ h)]
    · rw [if_neg h]
      by_cases e : n = a
      · rw [if_pos (by rw [e]; exact List.mem_cons_self), List.filter_append]
        simp [e]
      · rw [if_neg (by simp [e, h]), List.filter_append]
        simp [e]

theorem firsts_nodup (l : List Str) : (firsts l).Nodup := by
  induction l with
  | nil => exact List.nodup_nil
  | cons a l ih =>
    unfold firsts
    refine List.nodup_cons.mpr ⟨?_, ih.filter _⟩
    simp

theorem any_dictOf (occs : List Occ) (n : Str) :
    (dictOf occs).any (fun x => x.1 = some n) = decide (n ∈ occs.map (·.name)) := by
  rw [Bool.eq_iff_iff, List.any_eq_true, decide_eq_true_iff]
  unfold dictOf
  constructor
  · rintro ⟨x, hx, h⟩
    obtain ⟨m, hm, rfl⟩ := List.mem_map.mp hx
    have : m = n := by simpa using h
    exact this ▸ mem_firsts.mp hm
  · intro h
    exact ⟨_, List.mem_map.mpr ⟨n, mem_firsts.mpr h, rfl⟩, by simp⟩

theorem constraints_snoc (occs : List Occ) (o : Occ) (n : Str) :
    constraints (occs ++ [o]) n =
      constraints occs n ++ if o.name = n then (o.con.map Constraint.text).toList else [] := by
  unfold constraints
  rw [List.flatMap_append, List.flatMap_singleton]

theorem constraints_absent {occs : List Occ} {n : Str} (h : n ∉ occs.map (·.name)) :
    constraints occs n = [] := by
  unfold constraints
  rw [List.flatMap_eq_nil_iff]
  intro o ho
  rw [if_neg (fun e => h (List.mem_map.mpr ⟨o, ho, e⟩))]

/-- A name without a constraint. -/
theorem inName_dict {st : St} {occs : List Occ} (h : st.r = dictOf occs) (n : Str) :
    (inName st n).r = dictOf (occs ++ [⟨n, none⟩]) := by
  have hd : dictOf (occs ++ [⟨n, none⟩]) =
      if n ∈ occs.map (·.name) then dictOf occs else dictOf occs ++ [(some n, [])] := by
    unfold dictOf
    rw [List.map_append, List.map_singleton, firsts_snoc]
    have hc : ∀ m, constraints (occs ++ [⟨n, none⟩]) m = constraints occs m := by
      intro m; rw [constraints_snoc]; simp
    simp only [hc]
    split
    · rfl
    · rename_i hn
      rw [List.map_append, List.map_singleton, constraints_absent hn]
  rw [hd]
  unfold inName
  dsimp only
  rw [h]
  unfold Dict.clear
  by_cases hn : n ∈ occs.map (·.name)
  · rw [if_pos hn]
    split
    · rfl
    · rename_i hany
      rw [if_pos (by rw [any_dictOf]; simpa using hn)]
      -- the entry is empty
      have hmem : (some n, constraints occs n) ∈ dictOf occs :=
        List.mem_map.mpr ⟨n, mem_firsts.mpr hn, rfl⟩
      have hempty : constraints occs n = [] := by
        by_cases he : constraints occs n = []
        · exact he
        · exact absurd (List.any_eq_true.mpr ⟨_, hmem, by simp [he]⟩) hany
      rw [List.map_congr_left (g := fun x => x), List.map_id']
      intro x hx
      obtain ⟨m, hm, rfl⟩ := List.mem_map.mp hx
      split
      · rename_i e
        have : m = n := by simpa using e
        rw [this, hempty]
      · rfl
  · rw [if_neg hn, if_neg, if_neg]
    · rw [any_dictOf]; simpa using hn
    · intro hany
      obtain ⟨x, hx, h2⟩ := List.any_eq_true.mp hany
      obtain ⟨m, hm, rfl⟩ := List.mem_map.mp hx
      have : m = n := by
        have := of_decide_eq_true h2
        simpa using this.1
      exact hn (this ▸ mem_firsts.mp hm)

/-- The constraint of the last name. -/
theorem append_dict (occs : List Occ) (n : Str) (c : Constraint) :
    (dictOf (occs ++ [⟨n, none⟩])).append (some n) (c.op ++ [' '] ++ c.ver) =
      dictOf (occs ++ [⟨n, some c⟩]) := by
  unfold Dict.append
  rw [if_pos (by rw [any_dictOf]; simp)]
  unfold dictOf
  rw [List.map_append, List.map_singleton, List.map_append, List.map_singleton, List.map_map]
  refine List.map_congr_left (fun m _ => ?_)
  simp only [Function.comp]
  rw [constraints_snoc, constraints_snoc]
  by_cases h : m = n
  · subst h
    simp [Constraint.text]
  · have h' : n ≠ m := fun e => h e.symm
    simp [h, h']

theorem occ_ok {o : Occ} (ho : OkOcc o) {st : St} {occs : List Occ} (h : st.r = dictOf occs)
    (h1 : st.incmp = false) (h2 : st.inversion = false) :
    ∃ st', turns o.words st = some st' ∧ st'.r = dictOf (occs ++ [o]) ∧ st'.incmp = false ∧
      st'.inversion = false := by
  obtain ⟨n, con⟩ := o
  unfold Occ.words
  unfold turns
  rw [turn_name h1 h2 ho.1.2.2]
  dsimp only
  have hd := inName_dict h n
  cases con with
  | none => exact ⟨_, rfl, hd, h1, h2⟩
  | some c =>
    have hc := ho.2 c rfl
    show ∃ st', turns c.words (inName st n) = some st' ∧ _
    rw [constraint_ok hc rfl]
    refine ⟨_, rfl, ?_, rfl, rfl⟩
    unfold done
    dsimp only
    rw [hd]
    exact append_dict occs n c

theorem occs_ok : ∀ (l occs : List Occ) (st : St), (∀ o ∈ l, OkOcc o) → st.r = dictOf occs →
    st.incmp = false → st.inversion = false →
    ∃ st', turns (l.flatMap Occ.words) st = some st' ∧ st'.r = dictOf (occs ++ l)
  | [], occs, st, _, h, _, _ => ⟨st, rfl, by rw [List.append_nil]; exact h⟩
  | o :: l, occs, st, hl, h, h1, h2 => by
    obtain ⟨st1, e1, e2, e3, e4⟩ := occ_ok (hl o List.mem_cons_self) h h1 h2
    obtain ⟨st2, f1, f2⟩ := occs_ok l (occs ++ [o]) st1
      (fun x hx => hl x (List.mem_cons_of_mem _ hx)) e2 e3 e4
    refine ⟨st2, ?_, by rw [f2, List.append_assoc]; rfl⟩
    rw [List.flatMap_cons, turns_append, e1]
    exact f1

/-- **C37.**  However the entries are written, the dictionary has exactly their names, in the order
in which they first occur, each with exactly its constraints, in their order. -/
theorem explode_versions {s : Str} {occs : List Occ} (hs : Writes s occs) (ho : ∀ o ∈ occs, OkOcc o) :
    explode2 s = some ((firsts (occs.map (·.name))).map fun n => (some n, constraints occs n)) := by
  unfold explode2
  unfold Writes at hs
  rw [hs]
  obtain ⟨st, h1, h2⟩ := occs_ok occs [] ⟨[], none, [], [], false, false⟩ ho rfl rfl rfl
  rw [h1]
  show some st.r = _
  rw [h2, List.nil_append]; rfl

/-! ### `join_deps` -/

theorem words_join (xs : List Str) : words (join [' '] xs) = xs.flatMap words := by
  induction xs with
  | nil => rfl
  | cons x xs ih =>
    cases xs with
    | nil => simp [join]
    | cons y xs =>
      rw [List.flatMap_cons, ← ih]
      show words (x ++ [' '] ++ join [' '] (y :: xs)) = _
      rw [List.append_assoc, List.singleton_append, words_append_ws _ _ _ (by decide)]

theorem filter_join (xs : List Str) :
    (join [',', ' '] xs).filter (· ≠ ',') = join [' '] (xs.map (·.filter (· ≠ ','))) := by
  induction xs with
  | nil => rfl
  | cons x xs ih =>
    cases xs with
    | nil => simp [join]
    | cons y xs =>
      show (x ++ [',', ' '] ++ join [',', ' '] (y :: xs)).filter (· ≠ ',') = _
      rw [List.filter_append, List.filter_append, ih]
      rfl

theorem filter_join_sp (xs : List Str) :
    (join [' '] xs).filter (· ≠ ',') = join [' '] (xs.map (·.filter (· ≠ ','))) := by
  induction xs with
  | nil => rfl
  | cons x xs ih =>
    cases xs with
    | nil => simp [join]
    | cons y xs =>
      show (x ++ [' '] ++ join [' '] (y :: xs)).filter (· ≠ ',') = _
      rw [List.filter_append, List.filter_append, ih]
      rfl

/-- Operator and version of a text. -/
def opOf (v : Str) : Str := v.takeWhile (· ≠ ' ')
def verOf (v : Str) : Str := (v.dropWhile (· ≠ ' ')).drop 1

/-- The constraint that `join_deps` writes. -/
def conOf (v : Str) : Constraint := ⟨opOf v, verOf v, false, true, false⟩

theorem op_nospace : ∀ op ∈ ops, ∀ c ∈ op, decide (c ≠ ' ') = true := by decide
theorem op_plain : ∀ op ∈ ops, IsWord ('(' :: op) ∧ ',' ∉ op := by
  unfold IsWord; decide

theorem conOf_eq {op ver : Str} (h : op ∈ ops) :
    opOf (op ++ ' ' :: ver) = op ∧ verOf (op ++ ' ' :: ver) = ver := by
  unfold opOf verOf
  rw [List.takeWhile_append_of_pos (op_nospace op h), List.dropWhile_append_of_pos (op_nospace op h)]
  simp

/-- The entries that `join_deps` writes. -/
def occsOne (d : Str × List Str) : List Occ :=
  if d.2 = [] then [⟨d.1, none⟩] else d.2.map fun v => ⟨d.1, some (conOf v)⟩

theorem occsOne_name (d : Str × List Str) : ∀ o ∈ occsOne d, o.name = d.1 := by
  unfold occsOne
  intro o ho
  split at ho
  · rw [List.mem_singleton.mp ho]
  · obtain ⟨v, _, rfl⟩ := List.mem_map.mp ho; rfl

theorem text_conOf {v : Str} (h : OkText v) : (conOf v).text = v := by
  obtain ⟨op, ver, rfl, ho, _⟩ := h
  unfold Constraint.text conOf
  dsimp only
  rw [(conOf_eq ho).1, (conOf_eq ho).2]

theorem okConstraint {v : Str} (h : OkText v) : OkConstraint (conOf v) := by
  obtain ⟨op, ver, rfl, ho, hp⟩ := h
  unfold conOf
  rw [(conOf_eq ho).1, (conOf_eq ho).2]
  exact ⟨ho, hp, (fun h => by cases h), (fun h => by cases h)⟩

theorem nocomma {s : Str} (h : ',' ∉ s) : s.filter (· ≠ ',') = s := by
  rw [List.filter_eq_self]
  intro c hc
  have : c ≠ ',' := fun e => h (e ▸ hc)
  simpa using this

theorem words_three {a b c : Str} (ha : IsWord a) (hb : IsWord b) (hc : IsWord c) :
    words (a ++ ' ' :: (b ++ ' ' :: c)) = [a, b, c] := by
  have := words_join_sp [a, b, c] (by
    intro w hw
    simp only [List.mem_cons, List.not_mem_nil, or_false] at hw
    rcases hw with rfl | rfl | rfl
    · exact ha
    · exact hb
    · exact hc)
  rw [← this]
  simp [join]

theorem joinOne_words {d : Str × List Str} (hn : Plain d.1) (hv : ∀ v ∈ d.2, OkText v) :
    ((joinOne d).map (·.filter (· ≠ ','))).flatMap words = (occsOne d).flatMap Occ.words ∧
    (joinOne d).flatMap words = (occsOne d).flatMap Occ.words := by
  unfold joinOne occsOne
  by_cases h : d.2 = []
  · rw [if_pos h, if_pos h]
    simp only [List.map_cons, List.map_nil, List.flatMap_cons, List.flatMap_nil, List.append_nil]
    rw [nocomma hn.2.1, words_word hn.1]
    exact ⟨rfl, rfl⟩
  · rw [if_neg h, if_neg h]
    clear h
    have key : ∀ v ∈ d.2, (d.1 ++ " (".toList ++ v ++ ")".toList).filter (· ≠ ',') =
          d.1 ++ " (".toList ++ v ++ ")".toList ∧
        words (d.1 ++ " (".toList ++ v ++ ")".toList) = Occ.words ⟨d.1, some (conOf v)⟩ := by
      intro v hmem
      obtain ⟨op, ver, rfl, ho, hp⟩ := hv v hmem
      obtain ⟨o1, o2⟩ := op_plain op ho
      constructor
      · apply nocomma
        simp only [List.mem_append, List.mem_cons, not_or]
        exact ⟨⟨⟨hn.2.1, by decide⟩, o2, by decide, hp.2.1⟩, by decide⟩
      · have he : d.1 ++ " (".toList ++ (op ++ ' ' :: ver) ++ ")".toList =
            d.1 ++ ' ' :: (('(' :: op) ++ ' ' :: (ver ++ [')'])) := by
          show d.1 ++ [' ', '('] ++ (op ++ ' ' :: ver) ++ [')'] = _
          simp
        have hw3 : IsWord (ver ++ [')']) := by
          refine ⟨by simp, ?_⟩
          intro c hc
          rcases List.mem_append.mp hc with hc | hc
          · exact hp.1.2 c hc
          · rw [List.mem_singleton.mp hc]; decide
        rw [he, words_three hn.1 o1 hw3]
        show _ = [d.1, "(".toList ++ opOf _, verOf _ ++ ")".toList]
        rw [(conOf_eq ho).1, (conOf_eq ho).2]
        rfl
    generalize hl : d.2 = l at *
    clear hl hv
    induction l with
    | nil => exact ⟨rfl, rfl⟩
    | cons v l ih =>
      obtain ⟨k1, k2⟩ := key v List.mem_cons_self
      obtain ⟨i1, i2⟩ := ih (fun w hw => key w (List.mem_cons_of_mem _ hw))
      constructor
      · rw [List.map_cons, List.map_cons, List.flatMap_cons, List.map_cons, List.flatMap_cons, k1, k2, i1]
      · rw [List.map_cons, List.flatMap_cons, List.map_cons, List.flatMap_cons, k2, i2]

theorem join_writes {deps : List (Str × List Str)} (h : ∀ d ∈ deps, Plain d.1 ∧ ∀ v ∈ d.2, OkText v)
    (c : Bool) : Writes (joinDeps deps c) (deps.flatMap occsOne) := by
  unfold Writes joinDeps
  have hf : (join (if c then ", ".toList else " ".toList) (deps.flatMap joinOne)).filter (· ≠ ',') =
      join [' '] ((deps.flatMap joinOne).map (·.filter (· ≠ ','))) := by
    cases c
    · exact filter_join_sp _
    · exact filter_join _
  rw [hf, words_join]
  clear hf
  induction deps with
  | nil => rfl
  | cons d deps ih =>
    obtain ⟨h1, h2⟩ := h d List.mem_cons_self
    rw [List.flatMap_cons, List.map_append, List.flatMap_append, (joinOne_words h1 h2).1,
      ih (fun x hx => h x (List.mem_cons_of_mem _ hx)), List.flatMap_cons, List.flatMap_append]

theorem occs_okocc {deps : List (Str × List Str)}
    (h : ∀ d ∈ deps, Plain d.1 ∧ ∀ v ∈ d.2, OkText v) : ∀ o ∈ deps.flatMap occsOne, OkOcc o := by
  intro o ho
  obtain ⟨d, hd, ho⟩ := List.mem_flatMap.mp ho
  obtain ⟨h1, h2⟩ := h d hd
  unfold occsOne at ho
  split at ho
  · rw [List.mem_singleton.mp ho]; exact ⟨h1, fun c hc => by cases hc⟩
  · obtain ⟨v, hv, rfl⟩ := List.mem_map.mp ho
    refine ⟨h1, fun c hc => ?_⟩
    rw [← Option.some.inj hc]; exact okConstraint (h2 v hv)

theorem firsts_rep {n : Str} {l m : List Str} (hl : l ≠ []) (h : ∀ x ∈ l, x = n) (hm : n ∉ m) :
    firsts (l ++ m) = n :: firsts m := by
  have hfilter : (firsts m).filter (· ≠ n) = firsts m := by
    rw [List.filter_eq_self]
    intro x hx
    have : x ≠ n := fun e => hm (e ▸ mem_firsts.mp hx)
    simpa using this
  induction l with
  | nil => exact absurd rfl hl
  | cons a l ih =>
    have ha := h a List.mem_cons_self
    subst ha
    rw [List.cons_append, firsts]
    by_cases e : l = []
    · rw [e, List.nil_append, hfilter]
    · rw [ih e (fun x hx => h x (List.mem_cons_of_mem _ hx)), List.filter_cons, if_neg (by simp), hfilter]

theorem constraints_append (a b : List Occ) (n : Str) :
    constraints (a ++ b) n = constraints a n ++ constraints b n := by
  unfold constraints; rw [List.flatMap_append]

theorem constraints_occsOne {d : Str × List Str} (hv : ∀ v ∈ d.2, OkText v) :
    constraints (occsOne d) d.1 = d.2 := by
  unfold occsOne
  by_cases h : d.2 = []
  · rw [if_pos h, h]; simp [constraints]
  · rw [if_neg h]
    clear h
    generalize d.2 = l at hv
    unfold constraints
    induction l with
    | nil => rfl
    | cons v l ih =>
      rw [List.map_cons, List.flatMap_cons, ih (fun w hw => hv w (List.mem_cons_of_mem _ hw)), if_pos rfl]
      show (conOf v).text :: l = _
      rw [text_conOf (hv v List.mem_cons_self)]

theorem dictOf_occs {deps : List (Str × List Str)} (h : OkDeps deps) :
    dictOf (deps.flatMap occsOne) = deps.map fun d => (some d.1, d.2) := by
  obtain ⟨hn, h⟩ := h
  induction deps with
  | nil => rfl
  | cons d deps ih =>
    rw [List.map_cons, List.nodup_cons] at hn
    obtain ⟨hn1, hn2⟩ := hn
    have ih := ih hn2 (fun x hx => h x (List.mem_cons_of_mem _ hx))
    have hnot : d.1 ∉ (deps.flatMap occsOne).map (·.name) := by
      intro hm
      obtain ⟨o, ho, he⟩ := List.mem_map.mp hm
      obtain ⟨d2, hd2, ho⟩ := List.mem_flatMap.mp ho
      rw [occsOne_name d2 o ho] at he
      exact hn1 (List.mem_map.mpr ⟨d2, hd2, he⟩)
    unfold dictOf at ih ⊢
    rw [List.flatMap_cons, List.map_append, firsts_rep (n := d.1) ?_ ?_ hnot, List.map_cons, List.map_cons, ← ih,
      constraints_append, constraints_occsOne (h d List.mem_cons_self).2, constraints_absent hnot, List.append_nil]
    · congr 1
      refine List.map_congr_left (fun m hm => ?_)
      rw [constraints_append, constraints_absent (occs := occsOne d), List.nil_append]
      intro hm2
      obtain ⟨o, ho, he⟩ := List.mem_map.mp hm2
      rw [occsOne_name d o ho] at he
      exact hnot (he ▸ mem_firsts.mp hm)
    · unfold occsOne
      split
      · simp
      · rename_i hne; simpa using hne
    · intro x hx
      obtain ⟨o, ho, rfl⟩ := List.mem_map.mp hx
      exact occsOne_name d o ho

/-- **C37.**  Joining dependencies and exploding them gives the same dependencies back. -/
theorem join_explode {deps : List (Str × List Str)} (h : OkDeps deps) (c : Bool) :
    explode2 (joinDeps deps c) = some (deps.map fun d => (some d.1, d.2)) := by
  rw [explode_versions (join_writes h.2 c) (occs_okocc h.2), ← dictOf_occs h]
  rfl

theorem explodeGo_true (i : Str) (l : List Str) :
    explodeGo true (i :: l) = explodeGo (!endsWith i [')']) l := rfl

theorem explodeGo_con {c : Constraint} (hc : OkConstraint c) (rest : List Str) :
    explodeGo false (c.words ++ rest) = explodeGo false rest := by
  obtain ⟨h1, h2⟩ := opver_head hc
  have hclosed : explodeGo true (closed c ++ rest) = explodeGo false rest := by
    unfold closed
    by_cases hs : c.spaceClose = true
    · rw [if_pos hs]
      have he : endsWith c.ver [')'] = false := by
        cases h : endsWith c.ver [')'] with
        | false => rfl
        | true => exact absurd (endsWith_char.mp h) (hc.noClose hs)
      show explodeGo true (c.ver :: ")".toList :: rest) = _
      rw [explodeGo_true, he]
      show explodeGo true (")".toList :: rest) = _
      rw [explodeGo_true]
      rfl
    · rw [if_neg hs]
      have he : endsWith (c.ver ++ ")".toList) [')'] = true := by
        rw [endsWith_iff]; exact ⟨c.ver, rfl⟩
      show explodeGo true ((c.ver ++ ")".toList) :: rest) = _
      rw [explodeGo_true, he]
      rfl
  have hend : ∀ (p i : Str), i ≠ [] → endsWith (p ++ i) [')'] = endsWith i [')'] := by
    intro p i hi
    rw [Bool.eq_iff_iff, endsWith_char, endsWith_char, List.getLast?_append]
    obtain ⟨x, t, rfl⟩ := List.exists_cons_of_ne_nil hi
    rw [List.getLast?_cons]; rfl
  have hglue : ∀ (p i : Str) (l : List Str), i ≠ [] →
      explodeGo true ((p ++ i) :: l) = explodeGo true (i :: l) := by
    intro p i l hi
    rw [explodeGo_true, explodeGo_true, hend p i hi]
  have hopver : explodeGo true (opver c ++ rest) = explodeGo false rest := by
    unfold opver
    by_cases hs : c.spaceOp = true
    · rw [if_pos hs]
      have he : endsWith c.op [')'] = false := (by decide : ∀ op ∈ ops, endsWith op [')'] = false) c.op hc.op
      show explodeGo true (c.op :: (closed c ++ rest)) = _
      rw [explodeGo_true, he]
      exact hclosed
    · rw [if_neg hs, List.cons_append, hglue, ← List.cons_append, ← closed_cons, hclosed]
      intro e
      have := closed_head (c := c) hc.ver.1.1
      rw [e] at this
      exact hc.ver.1.1 (List.head?_eq_none_iff.mp this.symm)
  rw [words_eq]
  by_cases hs : c.spaceOpen = true
  · rw [if_pos hs]
    show explodeGo true (opver c ++ rest) = _
    exact hopver
  · rw [if_neg hs, List.cons_append]
    have : explodeGo false (("(".toList ++ (opver c).headD []) :: ((opver c).tail ++ rest)) =
        explodeGo true (("(".toList ++ (opver c).headD []) :: ((opver c).tail ++ rest)) := by
      unfold explodeGo
      have hp : startsWith ("(".toList ++ (opver c).headD []) ['('] = true := startsWith_char.mpr rfl
      rw [hp]
      rfl
    rw [this, hglue _ _ _ h1, ← List.cons_append, ← opver_cons, hopver]

/-- **C37.**  For a string without commas, exactly the names are returned and no constraint is taken
for a name. -/
theorem explode_deps_names {s : Str} {occs : List Occ} (hs : words s = occs.flatMap Occ.words)
    (ho : ∀ o ∈ occs, OkOcc o) : explodeDeps s = occs.map (·.name) := by
  unfold explodeDeps
  rw [hs]
  clear hs
  induction occs with
  | nil => rfl
  | cons o occs ih =>
    obtain ⟨h1, h2⟩ := ho o List.mem_cons_self
    have ih := ih (fun x hx => ho x (List.mem_cons_of_mem _ hx))
    rw [List.flatMap_cons]
    unfold Occ.words
    rw [List.cons_append]
    unfold explodeGo
    dsimp only
    rw [noparen h1.2.2, if_neg (by simp), List.map_cons]
    congr 1
    cases hc : o.con with
    | none => exact ih
    | some c =>
      show explodeGo false (c.words ++ _) = _
      rw [explodeGo_con (h2 c hc)]
      exact ih

/-- The names in a comma-separated string keep their commas. -/
theorem comma_kept : explodeDeps "a, b".toList = ["a,".toList, "b".toList] := by decide

/-! ### Exploding, joining and exploding again -/

/-- What holds during the loop. -/
structure Inv (st : St) : Prop where
  nodup : (st.r.map (·.1)).Nodup
  plain : ∀ x ∈ st.r, ∀ n, x.1 = some n → Plain n
  last : ∀ n, st.lastdep = some n → Plain n

theorem keys_append (r : Dict) (k : Option Str) (v : Str) :
    (r.append k v).map (·.1) = if k ∈ r.map (·.1) then r.map (·.1) else r.map (·.1) ++ [k] := by
  unfold Dict.append
  have hany : r.any (fun x => x.1 = k) = decide (k ∈ r.map (·.1)) := by
    rw [Bool.eq_iff_iff, List.any_eq_true, decide_eq_true_iff, List.mem_map]
    simp
  by_cases h : k ∈ r.map (·.1)
  · rw [if_pos (by rw [hany]; simpa using h), if_pos h, List.map_map]
    refine List.map_congr_left (fun x _ => ?_)
    simp only [Function.comp]
    split
    · rename_i e; exact e.symm
    · rfl
  · rw [if_neg (by rw [hany]; simpa using h), if_neg h, List.map_append]; rfl

theorem keys_clear (r : Dict) (k : Option Str) :
    (r.clear k).map (·.1) = if k ∈ r.map (·.1) then r.map (·.1) else r.map (·.1) ++ [k] := by
  unfold Dict.clear
  have hany : r.any (fun x => x.1 = k) = decide (k ∈ r.map (·.1)) := by
    rw [Bool.eq_iff_iff, List.any_eq_true, decide_eq_true_iff, List.mem_map]
    simp
  by_cases h : k ∈ r.map (·.1)
  · rw [if_pos (by rw [hany]; simpa using h), if_pos h, List.map_map]
    refine List.map_congr_left (fun x _ => ?_)
    simp only [Function.comp]
    split
    · rename_i e; exact e.symm
    · rfl
  · rw [if_neg (by rw [hany]; simpa using h), if_neg h, List.map_append]; rfl

theorem inv_keys {st st' : St} {k : Option Str} (h : Inv st) (hk : ∀ n, k = some n → Plain n)
    (he : st'.r.map (·.1) = if k ∈ st.r.map (·.1) then st.r.map (·.1) else st.r.map (·.1) ++ [k])
    (hl : ∀ n, st'.lastdep = some n → Plain n) : Inv st' := by
  refine ⟨?_, ?_, hl⟩
  · rw [he]
    split
    · exact h.nodup
    · rename_i hn
      rw [List.nodup_append]
      refine ⟨h.nodup, List.pairwise_singleton _ _, ?_⟩
      intro a ha b hb
      rw [List.mem_singleton.mp hb]
      exact fun e => hn (e ▸ ha)
  · intro x hx n hn
    have hmem : some n ∈ st'.r.map (·.1) := hn ▸ List.mem_map_of_mem hx
    rw [he] at hmem
    have hold : some n ∈ st.r.map (·.1) → Plain n := by
      intro hm
      obtain ⟨y, hy, hy2⟩ := List.mem_map.mp hm
      exact h.plain y hy n hy2
    split at hmem
    · exact hold hmem
    · rcases List.mem_append.mp hmem with hm | hm
      · exact hold hm
      · exact hk n (List.mem_singleton.mp hm).symm

theorem inv_congr {st st' : St} (h : Inv st) (h1 : st'.r = st.r) (h2 : st'.lastdep = st.lastdep) : Inv st' := by
  obtain ⟨a, b, c⟩ := h
  exact ⟨h1 ▸ a, h1 ▸ b, h2 ▸ c⟩

theorem inVersion_cases (st : St) (i : Str) : (inVersion st i).lastdep = st.lastdep ∧
    ((inVersion st i).r = st.r ∨ ∃ v, (inVersion st i).r = st.r.append st.lastdep v) := by
  unfold inVersion
  dsimp only
  by_cases h : (if endsWith i [')'] = true then i.dropLast else i) = []
  · rw [if_pos h]; exact ⟨rfl, Or.inl rfl⟩
  · rw [if_neg h]; exact ⟨rfl, Or.inr ⟨_, rfl⟩⟩

theorem inv_version {st : St} (h : Inv st) (i : Str) : Inv (inVersion st i) := by
  obtain ⟨h1, h2 | ⟨v, h2⟩⟩ := inVersion_cases st i
  · exact inv_congr h h2 h1
  · exact inv_keys h h.last (by rw [h2]; exact keys_append _ _ _) (by rw [h1]; exact h.last)

theorem inv_afterOpen {st st' : St} {i : Str} (h : Inv st) (ht : afterOpen st i = some st') : Inv st' := by
  unfold afterOpen at ht
  cases hop : takeOp i with
  | none => rw [hop] at ht; cases ht
  | some p =>
    obtain ⟨op, rest⟩ := p
    rw [hop] at ht
    dsimp only at ht
    have h2 : Inv { st with incmp := false, inversion := true, lastcmp := op } := inv_congr h rfl rfl
    split at ht <;> rw [← Option.some.inj ht]
    · exact h2
    · exact inv_version h2 _

theorem inv_turn {st st' : St} {i : Str} (h : Inv st) (hw : IsWord i) (hc : ',' ∉ i)
    (ht : turn st i = some st') : Inv st' := by
  by_cases hp : i.head? = some '('
  · obtain ⟨t, rfl⟩ : ∃ t, i = '(' :: t := by
      cases i with
      | nil => cases hp
      | cons c t => exact ⟨t, by rw [Option.some.inj hp]⟩
    by_cases he : t = []
    · subst he
      rw [turn_open] at ht
      rw [← Option.some.inj ht]
      exact inv_congr h rfl rfl
    · rw [turn_glued he] at ht
      exact inv_afterOpen h ht
  · cases h1 : st.incmp with
    | true => rw [turn_incmp h1 hp] at ht; exact inv_afterOpen h ht
    | false =>
      cases h2 : st.inversion with
      | true =>
        rw [turn_version h1 h2 hp] at ht
        rw [← Option.some.inj ht]; exact inv_version h i
      | false =>
        rw [turn_name h1 h2 hp] at ht
        rw [← Option.some.inj ht]
        have hplain : Plain i := ⟨hw, hc, hp⟩
        have hl : ∀ n, some i = some n → Plain n := fun n e => Option.some.inj e ▸ hplain
        by_cases hany : st.r.any (fun x => x.1 = some i ∧ x.2 ≠ []) = true
        · have hr : (inName st i).r = st.r := if_pos hany
          exact ⟨hr ▸ h.nodup, hr ▸ h.plain, hl⟩
        · have hr : (inName st i).r = st.r.clear (some i) := if_neg hany
          exact inv_keys h hl (by rw [hr]; exact keys_clear _ _) hl

theorem inv_turns : ∀ (l : List Str) (st st' : St), (∀ i ∈ l, IsWord i ∧ ',' ∉ i) → Inv st →
    turns l st = some st' → Inv st'
  | [], st, st', _, h, ht => by
    rw [← Option.some.inj (show some st = some st' from ht)]; exact h
  | i :: l, st, st', hl, h, ht => by
    unfold turns at ht
    cases hs : turn st i with
    | none => rw [hs] at ht; cases ht
    | some st2 =>
      rw [hs] at ht
      obtain ⟨h1, h2⟩ := hl i List.mem_cons_self
      exact inv_turns l st2 st' (fun x hx => hl x (List.mem_cons_of_mem _ hx)) (inv_turn h h1 h2 hs) ht

theorem words_chars (s : Str) : ∀ w ∈ words s, ∀ c ∈ w, c ∈ s := by
  have key : ∀ (s cur : Str), ∀ w ∈ wordsGo s cur, ∀ c ∈ w, c ∈ s ∨ c ∈ cur := by
    intro s
    induction s with
    | nil =>
      intro cur w hw c hc
      unfold wordsGo at hw
      split at hw
      · cases hw
      · rw [List.mem_singleton.mp hw] at hc
        exact Or.inr (by simpa using hc)
    | cons d s ih =>
      intro cur w hw c hc
      unfold wordsGo at hw
      split at hw
      · split at hw
        · rcases ih [] w hw c hc with h | h
          · exact Or.inl (List.mem_cons_of_mem _ h)
          · cases h
        · rcases List.mem_cons.mp hw with hw | hw
          · rw [hw] at hc; exact Or.inr (by simpa using hc)
          · rcases ih [] w hw c hc with h | h
            · exact Or.inl (List.mem_cons_of_mem _ h)
            · cases h
      · rcases ih _ w hw c hc with h | h
        · exact Or.inl (List.mem_cons_of_mem _ h)
        · rcases List.mem_append.mp h with h | h
          · exact Or.inr h
          · exact Or.inl (List.mem_singleton.mp h ▸ List.mem_cons_self)
  intro w hw c hc
  rcases key s [] w hw c hc with h | h
  · exact h
  · cases h

/-- The dictionary as it is given to `join_deps`. -/
def named (r : Dict) : List (Str × List Str) := r.map fun x => (x.1.getD [], x.2)

theorem explode2_ok {s : Str} {r : Dict} (h : explode2 s = some r) (hn : ∀ x ∈ r, x.1 ≠ none)
    (hv : ∀ x ∈ r, ∀ v ∈ x.2, OkText v) :
    OkDeps (named r) ∧ (named r).map (fun d => (some d.1, d.2)) = r := by
  obtain ⟨st, hst, hr⟩ := Option.map_eq_some_iff.mp h
  have hinv := inv_turns _ ⟨[], none, [], [], false, false⟩ st (fun i hi => ⟨words_isWord hi, fun hc => by
    have := words_chars _ i hi ',' hc
    simp at this⟩) ⟨List.nodup_nil, (fun x hx => by cases hx), (fun n e => by cases e)⟩ hst
  subst hr
  have hback : (named st.r).map (fun d => (some d.1, d.2)) = st.r := by
    unfold named
    rw [List.map_map, List.map_congr_left (g := fun x => x), List.map_id']
    intro x hx
    obtain ⟨k, vs⟩ := x
    cases k with
    | none => exact absurd rfl (hn _ hx)
    | some n => rfl
  refine ⟨⟨?_, ?_⟩, hback⟩
  · have h2 := hinv.nodup
    rw [← hback, List.map_map] at h2
    have h3 : ((named st.r).map (·.1)).map some = (named st.r).map ((·.1) ∘ fun d => (some d.1, d.2)) := by
      rw [List.map_map]; rfl
    rw [← h3] at h2
    refine List.Pairwise.imp ?_ (List.pairwise_map.mp h2)
    intro a b hab e
    exact hab (by rw [e])
  · intro d hd
    obtain ⟨x, hx, rfl⟩ := List.mem_map.mp hd
    obtain ⟨k, vs⟩ := x
    cases k with
    | none => exact absurd rfl (hn _ hx)
    | some n => exact ⟨hinv.plain _ hx n rfl, hv _ hx⟩

/-- **C37.**  Exploding, joining and exploding again gives the same result, if every constraint is an
operator and one word. -/
theorem explode_join_explode_partial {s : Str} {r : Dict} (h : explode2 s = some r)
    (hn : ∀ x ∈ r, x.1 ≠ none) (hv : ∀ x ∈ r, ∀ v ∈ x.2, OkText v) (c : Bool) :
    explode2 (joinDeps (named r) c) = some r := by
  obtain ⟨h1, h2⟩ := explode2_ok h hn hv
  rw [join_explode h1 c, h2]

theorem keyLe_trans (a b c : Option Str × List Str) (h1 : keyLe a b = true) (h2 : keyLe b c = true) :
    keyLe a c = true := by
  obtain ⟨a, _⟩ := a; obtain ⟨b, _⟩ := b; obtain ⟨c, _⟩ := c
  unfold keyLe at *
  rcases a with _ | a <;> rcases b with _ | b <;> rcases c with _ | c <;> try (first | rfl | contradiction)
  simp only [Bool.not_eq_true'] at *
  cases hca : Version.strLt c a with
  | false => rfl
  | true =>
    exfalso
    cases hab : Version.strLt a b with
    | true =>
      have := Version.strLt_trans hca hab
      rw [this] at h2; cases h2
    | false =>
      have := Version.strLt_total hab h1
      subst this
      rw [hca] at h2; cases h2

theorem keyLe_total (a b : Option Str × List Str) : (keyLe a b || keyLe b a) = true := by
  obtain ⟨a, _⟩ := a; obtain ⟨b, _⟩ := b
  unfold keyLe
  rcases a with _ | a <;> rcases b with _ | b <;> try rfl
  cases h : Version.strLt b a with
  | false => simp [h]
  | true => simp [Version.strLt_asymm h]

theorem sorted_keyLe {s : Str} {r : Dict} (h : explode2Sorted s = some r) :
    ∃ r0, explode2 s = some r0 ∧ r.Perm r0 ∧ r.Pairwise (fun a b => keyLe a b = true) := by
  unfold explode2Sorted at h
  cases h0 : explode2 s with
  | none => rw [h0] at h; cases h
  | some r0 =>
    rw [h0] at h
    dsimp only at h
    split at h
    · cases h
    · rw [← Option.some.inj h]
      exact ⟨r0, rfl, List.mergeSort_perm _ _, List.pairwise_mergeSort keyLe_trans keyLe_total _⟩

/-- **C37.**  The sorted dictionary has the same entries, in the alphabetical order of the names. -/
theorem sorted_same {s : Str} {r : Dict} (h : explode2Sorted s = some r) :
    ∃ r0, explode2 s = some r0 ∧ r.Perm r0 ∧
      r.Pairwise (fun a b => ∀ x y, a.1 = some x → b.1 = some y → ¬ Version.TextLt y x) := by
  obtain ⟨r0, h0, hp, hs⟩ := sorted_keyLe h
  refine ⟨r0, h0, hp, hs.imp ?_⟩
  intro a b hab x y hx hy hlt
  unfold keyLe at hab
  rw [hx, hy] at hab
  simp [Version.strLt_iff.mpr hlt] at hab

/-- **C37.**  The same with the sorted dictionary (the default). -/
theorem sorted_join_sorted_partial {s : Str} {r : Dict} (h : explode2Sorted s = some r)
    (hn : ∀ x ∈ r, x.1 ≠ none) (hv : ∀ x ∈ r, ∀ v ∈ x.2, OkText v) (c : Bool) :
    explode2Sorted (joinDeps (named r) c) = some r := by
  obtain ⟨r0, h0, hperm, hs⟩ := sorted_keyLe h
  obtain ⟨⟨h1, h2⟩, _⟩ := explode2_ok h0 (fun x hx => hn x (hperm.mem_iff.mpr hx))
    (fun x hx => hv x (hperm.mem_iff.mpr hx))
  have hback : (named r).map (fun d => (some d.1, d.2)) = r := by
    unfold named
    rw [List.map_map, List.map_congr_left (g := fun x => x), List.map_id']
    intro x hx
    obtain ⟨k, vs⟩ := x
    cases k with
    | none => exact absurd rfl (hn _ hx)
    | some n => rfl
  have hok : OkDeps (named r) := by
    have hp2 : (named r).Perm (named r0) := hperm.map _
    exact ⟨(hp2.map _).nodup_iff.mpr h1, fun d hd => h2 d (hp2.mem_iff.mp hd)⟩
  unfold explode2Sorted
  rw [join_explode hok c, hback]
  dsimp only
  rw [if_neg, List.mergeSort_of_pairwise hs]
  rintro ⟨ha, _⟩
  obtain ⟨x, hx, hxn⟩ := List.any_eq_true.mp ha
  exact hn x hx (by simpa using hxn)

theorem takeOp_none {i : Str} (h : ∀ op ∈ ops, ¬ ∃ t, i = op ++ t) : takeOp i = none := by
  have key : ∀ o ∈ ["<=", "=<", "<<", "==", "!=", ">=", "=>", ">>", "<", ">", "="],
      ¬ startsWith i o.toList = true := by
    intro o ho hs
    exact h o.toList (List.mem_map_of_mem ho) (startsWith_iff.mp hs)
  unfold takeOp
  rw [if_neg, if_neg]
  · intro hc
    obtain ⟨o, ho, hs⟩ := List.any_eq_true.mp hc
    exact key o (List.mem_append_right ["<=", "=<", "<<", "==", "!=", ">=", "=>", ">>"] ho) hs
  · intro hc
    obtain ⟨o, ho, hs⟩ := List.any_eq_true.mp hc
    exact key o (List.mem_append_left ["<", ">", "="] ho) hs

/-- **C37.**  An opening parenthesis that is followed by something else than an operator is refused. -/
theorem bad_operator_refused {s : Str} {w : Str} (hw : '(' :: w ∈ words (s.filter (· ≠ ',')))
    (hne : w ≠ []) (h : ∀ op ∈ ops, ¬ ∃ t, w = op ++ t) : explode2 s = none := by
  obtain ⟨a, b, hab⟩ := List.append_of_mem hw
  unfold explode2
  rw [hab, turns_append]
  cases turns a ⟨[], none, [], [], false, false⟩ with
  | none => rfl
  | some st =>
    show (turns (('(' :: w) :: b) st).map _ = none
    unfold turns
    rw [turn_glued hne]
    unfold afterOpen
    rw [takeOp_none h]
    rfl

example : explode2 "a (1.0)".toList = none := by decide

/-- A version of several words is added word by word. -/
theorem many_words_wrong : explode2 "a (>= 1 b)".toList =
    some [(some "a".toList, [">= 1".toList, ">= 1 b".toList])] := by decide

/-- A second constraint for the same name gets the version of the first one in front. -/
theorem two_groups_wrong : explode2 "a (>= 1) (<= 2)".toList =
    some [(some "a".toList, [">= 1".toList, "<= 1 2".toList])] := by decide

/-- So exploding, joining and exploding again does not always give the same result. -/
theorem explode_join_explode_fails : ∃ s r, explode2 s = some r ∧
    explode2 (joinDeps (named r) true) ≠ some r := by
  refine ⟨"a (>= 1 b)".toList, _, many_words_wrong, ?_⟩
  decide

/-- The entries of the examples. -/
def exampleOccs : List Occ :=
  [⟨"b".toList, some ⟨">=".toList, "1.0".toList, false, true, false⟩⟩, ⟨"a".toList, none⟩,
   ⟨"b".toList, some ⟨"<".toList, "2".toList, true, false, true⟩⟩]

example : Writes "b (>= 1.0), a b ( <2 )".toList exampleOccs := by unfold Writes; decide
example : explode2 "b (>= 1.0), a b ( <2 )".toList =
    some [(some "b".toList, [">= 1.0".toList, "< 2".toList]), (some "a".toList, [])] := by decide
example : ∀ o ∈ exampleOccs, OkOcc o := by
  intro o ho
  simp only [exampleOccs, List.mem_cons, List.not_mem_nil, or_false] at ho
  rcases ho with rfl | rfl | rfl
  · refine ⟨⟨⟨by decide, by decide⟩, by decide, by decide⟩, fun c hc => ?_⟩
    rw [← Option.some.inj hc]
    exact ⟨by decide, ⟨⟨by decide, by decide⟩, by decide, by decide⟩, (fun h => by cases h), (fun h => by cases h)⟩
  · exact ⟨⟨⟨by decide, by decide⟩, by decide, by decide⟩, fun c hc => by cases hc⟩
  · refine ⟨⟨⟨by decide, by decide⟩, by decide, by decide⟩, fun c hc => ?_⟩
    rw [← Option.some.inj hc]
    refine ⟨by decide, ⟨⟨by decide, by decide⟩, by decide, by decide⟩, ?_, (fun _ => by decide)⟩
    intro _ x hx
    rw [← Option.some.inj hx]
    decide
example : explodeDeps "b (>= 1.0) a (x".toList = ["b".toList, "a".toList] := by decide
example : OkDeps [("a".toList, [">= 1".toList]), ("b".toList, [])] := by
  refine ⟨by decide, ?_⟩
  intro d hd
  simp only [List.mem_cons, List.not_mem_nil, or_false] at hd
  rcases hd with rfl | rfl
  · refine ⟨⟨⟨by decide, by decide⟩, by decide, by decide⟩, fun v hv => ?_⟩
    exact ⟨">=".toList, "1".toList, List.mem_singleton.mp hv, by decide, ⟨by decide, by decide⟩, by decide, by decide⟩
  · exact ⟨⟨⟨by decide, by decide⟩, by decide, by decide⟩, fun v hv => by cases hv⟩

end Bb.Deps
