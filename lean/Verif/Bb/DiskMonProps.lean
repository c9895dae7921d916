import Verif.Bb.DiskMonModel
/-!
# A build stops when the disk is full, once, and not before
-/

namespace Bb.DiskMon

open Py

/-! ## Values -/

theorem dec_head {n : Nat} (hn : 0 < n) : (dec n).head? ≠ some '0' := by
  have key : ∀ (fuel n : Nat) (acc : Str), 0 < n → n < fuel → (decGo fuel n acc).head? ≠ some '0' := by
    intro fuel
    induction fuel with
    | zero => intro n acc _ h; omega
    | succ fuel ih =>
      intro n acc h0 h
      unfold decGo
      split
      · rename_i hd
        intro e
        have e' : digitChar n = '0' := Option.some.inj e
        have := digitVal_digitChar n
        rw [e'] at this
        have h00 : digitVal '0' = 0 := by decide
        omega
      · exact ih _ _ (by omega) (by omega)
  exact key _ _ _ hn (by omega)

theorem digits_split {d t : Str} (hd : ∀ c ∈ d, c.isDigit = true) (ht : ∀ c, t.head? = some c → c.isDigit = false) :
    (d ++ t).takeWhile Char.isDigit = d ∧ (d ++ t).dropWhile Char.isDigit = t := by
  induction d with
  | nil =>
    cases t with
    | nil => exact ⟨rfl, rfl⟩
    | cons c t =>
      have := ht c rfl
      exact ⟨List.takeWhile_cons_of_neg (by rw [this]; exact Bool.false_ne_true),
        List.dropWhile_cons_of_neg (by rw [this]; exact Bool.false_ne_true)⟩
  | cons c d ih =>
    obtain ⟨h1, h2⟩ := ih fun x hx => hd x (List.mem_cons_of_mem _ hx)
    have hc := hd c List.mem_cons_self
    constructor
    · rw [List.cons_append, List.takeWhile_cons_of_pos hc, h1]
    · rw [List.cons_append, List.dropWhile_cons_of_pos hc, h2]

/-- The units, in either case. -/
inductive Factor : Str → Nat → Prop
  | none : Factor [] 1
  | k {c} : c = 'k' ∨ c = 'K' → Factor [c] 1024
  | m {c} : c = 'm' ∨ c = 'M' → Factor [c] (1024 * 1024)
  | g {c} : c = 'g' ∨ c = 'G' → Factor [c] (1024 * 1024 * 1024)

theorem Factor.head {u : Str} {f : Nat} (h : Factor u f) : ∀ c, u.head? = some c → c.isDigit = false := by
  intro c hc
  cases h with
  | none => cases hc
  | k h | m h | g h =>
    cases hc
    rcases h with rfl | rfl <;> decide

/-- **Numbers with units.** A positive number with a unit means that number times the unit. -/
theorem convert {n f : Nat} {u : Str} (hn : 0 < n) (hu : Factor u f) : convertGMK (dec n ++ u) = some (n * f) := by
  obtain ⟨h1, h2⟩ := digits_split (fun c hc => dec_digits hc) hu.head (d := dec n)
  unfold convertGMK
  dsimp only
  rw [h1, h2, if_neg, decVal_dec]
  · cases hu with
    | none => dsimp only; rw [Nat.mul_one]
    | k h =>
      dsimp only
      rcases h with rfl | rfl <;>
        rw [if_neg (by decide), if_neg (by decide), if_pos (by decide)]
    | m h =>
      dsimp only
      rcases h with rfl | rfl <;>
        rw [if_neg (by decide), if_pos (by decide)]
    | g h =>
      dsimp only
      rcases h with rfl | rfl <;>
        rw [if_pos (by decide)]
  · rintro (h | h)
    · exact dec_ne_nil n h
    · exact dec_head hn h

theorem convertGMK_digit {s : Str} {v : Nat} (h : convertGMK s = some v) :
    ∃ c t, s = c :: t ∧ c.isDigit = true ∧ c ≠ '0' := by
  unfold convertGMK at h
  dsimp only at h
  cases s with
  | nil => cases h
  | cons c t =>
    by_cases hc : c.isDigit = true
    · refine ⟨c, t, rfl, hc, fun e => ?_⟩
      subst e
      rw [List.takeWhile_cons_of_pos hc, if_pos (Or.inr (show ('0' :: t.takeWhile Char.isDigit).head? = some '0' from rfl))] at h
      cases h
    · rw [List.takeWhile_cons_of_neg hc, if_pos (Or.inl rfl)] at h
      cases h

/-- What does not begin with a digit from 1 to 9 is an error, so that no minimum is zero by mistake. -/
theorem convert_wrong {s : Str} (h : ∀ c t, s = c :: t → c.isDigit = true → c = '0') : convertGMK s = none := by
  cases hs : convertGMK s with
  | none => rfl
  | some v =>
    obtain ⟨c, t, e, h1, h2⟩ := convertGMK_digit hs
    exact absurd (h c t e h1) h2

example : convertGMK "1G".toList = some 1073741824 ∧ convertGMK "100K".toList = some 102400 ∧
    convertGMK "0G".toList = none ∧ convertGMK "1GB".toList = none ∧ convertGMK "5".toList = some 5 := by
  decide +kernel

/-- The names of the actions. -/
inductive ActionName : Str → Action → Prop
  | halt : ActionName "HALT".toList .halt
  | abort : ActionName "ABORT".toList .halt
  | stop : ActionName "STOPTASKS".toList .stoptasks
  | warn : ActionName "WARN".toList .warn

theorem actionOf_iff {s : Str} {a : Action} : actionOf s = some a ↔ ActionName s a := by
  constructor
  · intro h
    unfold actionOf at h
    by_cases h1 : s = "ABORT".toList
    · rw [if_pos h1] at h; cases h; rw [h1]; exact .abort
    rw [if_neg h1] at h
    by_cases h2 : s = "HALT".toList
    · rw [if_pos h2] at h; cases h; rw [h2]; exact .halt
    rw [if_neg h2] at h
    by_cases h3 : s = "STOPTASKS".toList
    · rw [if_pos h3] at h; cases h; rw [h3]; exact .stop
    rw [if_neg h3] at h
    by_cases h4 : s = "WARN".toList
    · rw [if_pos h4] at h; cases h; rw [h4]; exact .warn
    rw [if_neg h4] at h
    cases h
  · intro h
    cases h <;> decide

/-- A value in an entry: nothing, or a number with a unit. -/
inductive Value : Str → Option Nat → Prop
  | none : Value [] none
  | some {n f u} : 0 < n → Factor u f → Value (dec n ++ u) (some (n * f))

theorem Value.of {s : Str} {v : Option Nat} (h : Value s v) : valueOf s = Option.some v := by
  cases h with
  | none => rfl
  | some hn hu =>
    unfold valueOf
    rw [if_neg fun e => dec_ne_nil _ (List.append_eq_nil_iff.1 e).1, convert hn hu]
    rfl

theorem not_comma_digit {c : Char} (h : c.isDigit = true) : c ≠ ',' := by
  rintro rfl
  revert h
  decide

theorem Value.comma {s : Str} {v : Option Nat} (h : Value s v) : ',' ∉ s := by
  cases h with
  | none => exact fun h => nomatch h
  | some hn hu =>
    intro hx
    rcases List.mem_append.1 hx with hx | hx
    · exact not_comma_digit (dec_digits hx) rfl
    · cases hu with
      | none => cases hx
      | k h | m h | g h =>
        have := List.mem_singleton.1 hx
        subst this
        revert h
        decide

/-- **What an entry means.** `action,directory,space,inodes` watches the real path of the directory with the
values given; a value may be missing, but not both. -/
theorem entry {real : Str → Str} {a p s i : Str} {act : Action} {ms mi : Option Nat} (ha : ActionName a act)
    (hp : ',' ∉ p) (hr : real p ≠ []) (hs : Value s ms) (hi : Value i mi) (hn : ¬ (ms = none ∧ mi = none)) :
    parseOne real (join [','] [a, p, s, i]) = some ⟨real p, act, ms, mi, 0, 0, false⟩ := by
  have hac : ',' ∉ a := by cases ha <;> decide
  unfold parseOne
  rw [splitOn_join ',' [a, p, s, i] (List.cons_ne_nil _ _)]
  · dsimp only
    rw [actionOf_iff.2 ha]
    dsimp only
    rw [if_neg hr, hs.of]
    have e : join [','] [i] = i := rfl
    rw [e, hi.of]
    dsimp only
    rw [if_neg hn]
  · intro w hw
    simp only [List.mem_cons, List.not_mem_nil, or_false] at hw
    rcases hw with rfl | rfl | rfl | rfl
    · exact hac
    · exact hp
    · exact hs.comma
    · exact hi.comma

example : getDiskData id "STOPTASKS,/tmp,1G,100K WARN,/dl,,5 ABORT,/tmp,10M".toList =
    some [⟨"/tmp".toList, .stoptasks, some 1073741824, some 102400, 0, 0, false⟩,
      ⟨"/dl".toList, .warn, none, some 5, 0, 0, false⟩, ⟨"/tmp".toList, .halt, some 10485760, none, 0, 0, false⟩] := by
  decide +kernel

/-- **Mistakes are not passed over.** If any word is wrong, there is no monitor at all (and a message says
so). -/
theorem one_wrong {real : Str → Str} : ∀ {ws : List Str} {acc : List Entry} {w : Str}, w ∈ ws →
    parseOne real w = none → parseGo real ws acc = none
  | v :: ws, acc, w, hw, h => by
    unfold parseGo
    cases hv : parseOne real v with
    | none => rfl
    | some e =>
      dsimp only
      rcases List.mem_cons.1 hw with rfl | hw
      · rw [h] at hv; cases hv
      · exact one_wrong hw h

theorem setEntry_mem {l : List Entry} {e x : Entry} : x ∈ setEntry l e ↔
    x = e ∨ (x ∈ l ∧ ¬ (x.path = e.path ∧ x.action = e.action)) := by
  unfold setEntry
  by_cases h : (l.any fun x => x.path = e.path && x.action = e.action) = true
  · rw [if_pos h, List.mem_map]
    constructor
    · rintro ⟨y, hy, hxy⟩
      by_cases hk : y.path = e.path ∧ y.action = e.action
      · rw [if_pos hk] at hxy
        exact Or.inl hxy.symm
      · rw [if_neg hk] at hxy
        subst hxy
        exact Or.inr ⟨hy, hk⟩
    · rintro (rfl | ⟨h1, h2⟩)
      · obtain ⟨y, hy, hk⟩ := List.any_eq_true.1 h
        rw [Bool.and_eq_true, decide_eq_true_eq, decide_eq_true_eq] at hk
        exact ⟨y, hy, if_pos hk⟩
      · exact ⟨x, h1, if_neg h2⟩
  · rw [if_neg h, List.mem_append, List.mem_singleton]
    have hno : ∀ y ∈ l, ¬ (y.path = e.path ∧ y.action = e.action) := by
      intro y hy hk
      refine h (List.any_eq_true.2 ⟨y, hy, ?_⟩)
      rw [Bool.and_eq_true, decide_eq_true_eq, decide_eq_true_eq]
      exact hk
    constructor
    · rintro (h | h)
      · exact Or.inr ⟨h, hno x h⟩
      · exact Or.inl h
    · rintro (h | ⟨h, _⟩)
      · exact Or.inr h
      · exact Or.inl h

/-- Of several words for a directory and an action the last one is taken, the others are watched as they
are. -/
theorem parse_mem {real : Str → Str} : ∀ {ws : List Str} {acc es : List Entry}, parseGo real ws acc = some es →
    ∀ x, x ∈ es ↔
      (∃ a w b, ws = a ++ w :: b ∧ parseOne real w = some x ∧
        ∀ v ∈ b, ∀ y, parseOne real v = some y → ¬ (x.path = y.path ∧ x.action = y.action)) ∨
      (x ∈ acc ∧ ∀ v ∈ ws, ∀ y, parseOne real v = some y → ¬ (x.path = y.path ∧ x.action = y.action))
  | [], acc, es, h, x => by
    cases h
    constructor
    · exact fun h => Or.inr ⟨h, fun _ h => nomatch h⟩
    · rintro (⟨a, w, b, e, _⟩ | ⟨h, _⟩)
      · cases a <;> cases e
      · exact h
  | w :: ws, acc, es, h, x => by
    unfold parseGo at h
    cases hw : parseOne real w with
    | none => rw [hw] at h; cases h
    | some e =>
      rw [hw] at h
      dsimp only at h
      rw [parse_mem h x, setEntry_mem]
      constructor
      · rintro (⟨a, v, b, e1, h2, h3⟩ | ⟨rfl | ⟨h1, h2⟩, h3⟩)
        · exact Or.inl ⟨w :: a, v, b, by rw [e1]; rfl, h2, h3⟩
        · exact Or.inl ⟨[], w, ws, rfl, hw, h3⟩
        · refine Or.inr ⟨h1, fun v hv y hy => ?_⟩
          rcases List.mem_cons.1 hv with rfl | hv
          · rw [hw] at hy; cases hy; exact h2
          · exact h3 v hv y hy
      · rintro (⟨a, v, b, e1, h2, h3⟩ | ⟨h1, h2⟩)
        · cases a with
          | nil =>
            cases e1
            rw [hw] at h2
            cases h2
            exact Or.inr ⟨Or.inl rfl, h3⟩
          | cons a0 a =>
            cases e1
            exact Or.inl ⟨a, v, b, rfl, h2, h3⟩
        · exact Or.inr ⟨Or.inr ⟨h1, h2 w List.mem_cons_self e hw⟩,
            fun v hv => h2 v (List.mem_cons_of_mem _ hv)⟩

/-- A directory that is missing in an entry is not an error as meant: its real path is the working directory,
which is watched instead. -/
theorem no_directory : parseOne (fun p => if p = [] then "/cwd".toList else p) "HALT,,1G".toList =
    some ⟨"/cwd".toList, .halt, some 1073741824, none, 0, 0, false⟩ := by decide +kernel

/-- The intervals of warnings, with their defaults. -/
theorem interval {s i : Str} {x y : Nat} (hs : Value s (some x)) (hi : Value i (some y)) :
    getInterval (s ++ ',' :: i) = some (x, y) ∧ getInterval s = some (x, 5 * 1024) ∧
    getInterval (',' :: i) = some (50 * 1024 * 1024, y) := by
  have key : ∀ {s : Str}, ',' ∉ s → ∀ t, (s ++ ',' :: t).takeWhile (· ≠ ',') = s ∧
      (s ++ ',' :: t).dropWhile (· ≠ ',') = ',' :: t := by
    intro s hs t
    induction s with
    | nil => exact ⟨rfl, rfl⟩
    | cons c s ih =>
      have hc : c ≠ ',' := fun e => hs (e ▸ List.mem_cons_self)
      obtain ⟨h1, h2⟩ := ih fun hx => hs (List.mem_cons_of_mem _ hx)
      constructor
      · rw [List.cons_append, List.takeWhile_cons_of_pos (p := fun x => decide (x ≠ ',')) (decide_eq_true hc), h1]
      · rw [List.cons_append, List.dropWhile_cons_of_pos (p := fun x => decide (x ≠ ',')) (decide_eq_true hc), h2]
  have alone : ∀ {s : Str}, ',' ∉ s → s.takeWhile (· ≠ ',') = s ∧ s.dropWhile (· ≠ ',') = [] := by
    intro s hs
    induction s with
    | nil => exact ⟨rfl, rfl⟩
    | cons c s ih =>
      have hc : c ≠ ',' := fun e => hs (e ▸ List.mem_cons_self)
      obtain ⟨h1, h2⟩ := ih fun hx => hs (List.mem_cons_of_mem _ hx)
      constructor
      · rw [List.takeWhile_cons_of_pos (p := fun x => decide (x ≠ ',')) (decide_eq_true hc), h1]
      · rw [List.dropWhile_cons_of_pos (p := fun x => decide (x ≠ ',')) (decide_eq_true hc), h2]
  have conv : ∀ {s : Str} {x : Nat}, Value s (some x) → s ≠ [] ∧ convertGMK s = some x ∧ lstrip s = s := by
    intro s x h
    cases h with
    | some hn hu =>
      rename_i n f u
      refine ⟨fun e => dec_ne_nil _ (List.append_eq_nil_iff.1 e).1, convert hn hu, ?_⟩
      obtain ⟨c, t, e, h1, _⟩ := convertGMK_digit (convert hn hu)
      rw [e]
      unfold lstrip
      refine List.dropWhile_cons_of_neg ?_
      intro hw
      have : c.isDigit = true → isWs c = false := by
        intro hd
        rw [Bool.eq_false_iff]
        intro hw
        unfold isWs at hw
        simp only [Bool.or_eq_true, decide_eq_true_eq] at hw
        rcases hw with ((((((((h | h) | h) | h) | h) | h) | h) | h) | h) | h <;> subst h <;> revert hd <;> decide
      rw [this h1] at hw
      cases hw
  obtain ⟨s1, s2, s3⟩ := conv hs
  obtain ⟨i1, i2, i3⟩ := conv hi
  refine ⟨?_, ?_, ?_⟩
  · unfold getInterval
    dsimp only
    obtain ⟨k1, k2⟩ := key hs.comma i
    rw [k1, k2]
    have e : (',' :: i).drop 1 = i := rfl
    rw [e, i3, if_neg s1, if_neg i1, s2, i2]
  · unfold getInterval
    dsimp only
    obtain ⟨k1, k2⟩ := alone hs.comma
    rw [k1, k2, if_neg s1, s2]
    rfl
  · unfold getInterval
    dsimp only
    obtain ⟨k1, k2⟩ := key (s := []) (fun h => nomatch h) i
    rw [List.nil_append] at k1 k2
    rw [k1, k2]
    have e : (',' :: i).drop 1 = i := rfl
    rw [e, i3, if_pos rfl, if_neg i1, i2]

example : getInterval "50M,5K".toList = some (52428800, 5120) ∧ getInterval "50M, 5K".toList = some (52428800, 5120) ∧
    getInterval "x".toList = none := by decide +kernel

/-! ## Checks -/

/-- There is less left than wanted. -/
def Low (e : Entry) (st : Stat) : Prop :=
  (∃ m, e.minSpace = some m ∧ st.free < m) ∨
  (∃ m, e.minInode = some m ∧ st.favail < m ∧ st.files ≠ 0 ∧ st.favail ≠ -1)

/-- The file system counts inodes. -/
def Counts (st : Stat) : Prop := st.files ≠ 0 ∧ st.favail ≠ -1

/-- What is asked of the run queue. -/
def finishes (l : List Ev) : List Bool :=
  l.filterMap fun e => match e with
    | .finish b => some b
    | _ => none

theorem finishes_append (a b : List Ev) : finishes (a ++ b) = finishes a ++ finishes b := List.filterMap_append

/-- Whether the action ends the run queue, and how. -/
def Ends : Action → Option Bool
  | .halt => some true
  | .stoptasks => some false
  | .warn => none

/-- What `stop` does. -/
theorem stop_spec (e : Entry) : (stop e).1.path = e.path ∧ (stop e).1.action = e.action ∧
    (stop e).1.minSpace = e.minSpace ∧ (stop e).1.minInode = e.minInode ∧
    (stop e).1.preS = e.preS ∧ (stop e).1.preI = e.preI ∧
    (stop e).1.checked = (e.checked || (Ends e.action).isSome) ∧
    (stop e).2 = if e.checked then [] else ((Ends e.action).map Ev.finish).toList := by
  obtain ⟨p, a, ms, mi, s, i, c⟩ := e
  cases a <;> cases c <;> exact ⟨rfl, rfl, rfl, rfl, rfl, rfl, rfl, rfl⟩

/-- The parts of an entry that do not change. -/
structure Same (e e' : Entry) : Prop where
  path : e'.path = e.path
  action : e'.action = e.action
  minSpace : e'.minSpace = e.minSpace

theorem space_spec (si : Int) (st : Stat) (e : Entry) :
    Same e (checkSpace si st e).1 ∧ (checkSpace si st e).1.minInode = e.minInode ∧
    ((¬ ∃ m, e.minSpace = some m ∧ st.free < m) → checkSpace si st e = (e, [])) ∧
    ((∃ m, e.minSpace = some m ∧ st.free < m) →
      (checkSpace si st e).1.checked = (e.checked || (Ends e.action).isSome) ∧
      finishes (checkSpace si st e).2 = if e.checked then [] else (Ends e.action).toList) := by
  obtain ⟨p, a, ms, mi, s, i, c⟩ := e
  cases ms with
  | none => exact ⟨⟨rfl, rfl, rfl⟩, rfl, fun _ => rfl, fun ⟨m, h, _⟩ => nomatch h⟩
  | some m =>
    unfold checkSpace
    dsimp only
    by_cases hf : st.free < m
    · rw [if_pos hf]
      have hlow : ∃ m', some m = some m' ∧ st.free < m' := ⟨m, rfl, hf⟩
      by_cases hw : s = 0 ∨ (s - st.free > si ∧ c = false)
      · simp only [if_pos hw]
        obtain ⟨s1, s2, s3, s4, s5, s6, s7, s8⟩ := stop_spec ⟨p, a, some m, mi, st.free, i, c⟩
        refine ⟨⟨s1, s2, s3⟩, s4, fun h => absurd hlow h, fun _ => ⟨s7, ?_⟩⟩
        rw [finishes_append, s8]
        cases c <;> cases a <;> rfl
      · simp only [if_neg hw]
        obtain ⟨s1, s2, s3, s4, s5, s6, s7, s8⟩ := stop_spec ⟨p, a, some m, mi, s, i, c⟩
        refine ⟨⟨s1, s2, s3⟩, s4, fun h => absurd hlow h, fun _ => ⟨s7, ?_⟩⟩
        rw [finishes_append, s8]
        cases c <;> cases a <;> rfl
    · rw [if_neg hf]
      refine ⟨⟨rfl, rfl, rfl⟩, rfl, fun _ => rfl, ?_⟩
      rintro ⟨m', h1, h2⟩
      cases h1
      exact absurd h2 hf

theorem inode_spec (ii : Int) (st : Stat) (e : Entry) :
    Same e (checkInode ii st e).1 ∧ (Counts st → (checkInode ii st e).1.minInode = e.minInode) ∧
    ((¬ ∃ m, e.minInode = some m ∧ st.favail < m ∧ st.files ≠ 0 ∧ st.favail ≠ -1) →
      (checkInode ii st e).2 = [] ∧ (checkInode ii st e).1.checked = e.checked) ∧
    ((∃ m, e.minInode = some m ∧ st.favail < m ∧ st.files ≠ 0 ∧ st.favail ≠ -1) →
      (checkInode ii st e).1.checked = (e.checked || (Ends e.action).isSome) ∧
      finishes (checkInode ii st e).2 = if e.checked then [] else (Ends e.action).toList) := by
  obtain ⟨p, a, ms, mi, s, i, c⟩ := e
  cases mi with
  | none => exact ⟨⟨rfl, rfl, rfl⟩, fun _ => rfl, fun _ => ⟨rfl, rfl⟩, fun ⟨m, h, _⟩ => nomatch h⟩
  | some m =>
    unfold checkInode
    dsimp only
    by_cases hf : st.favail < m
    · rw [if_pos hf]
      by_cases hd : st.files = 0 ∨ st.favail = -1
      · rw [if_pos hd]
        refine ⟨⟨rfl, rfl, rfl⟩, fun hc => ?_, fun _ => ⟨rfl, rfl⟩, ?_⟩
        · rcases hd with h | h
          · exact absurd h hc.1
          · exact absurd h hc.2
        · rintro ⟨_, _, _, h3, h4⟩
          rcases hd with h | h
          · exact absurd h h3
          · exact absurd h h4
      · rw [if_neg hd]
        have hlow : ∃ m', some m = some m' ∧ st.favail < m' ∧ st.files ≠ 0 ∧ st.favail ≠ -1 :=
          ⟨m, rfl, hf, fun h => hd (Or.inl h), fun h => hd (Or.inr h)⟩
        by_cases hw : i = 0 ∨ (i - st.favail > ii ∧ c = false)
        · simp only [if_pos hw]
          obtain ⟨s1, s2, s3, s4, s5, s6, s7, s8⟩ := stop_spec ⟨p, a, ms, some m, s, st.favail, c⟩
          refine ⟨⟨s1, s2, s3⟩, fun _ => s4, fun h => absurd hlow h, fun _ => ⟨s7, ?_⟩⟩
          rw [finishes_append, s8]
          cases c <;> cases a <;> rfl
        · simp only [if_neg hw]
          obtain ⟨s1, s2, s3, s4, s5, s6, s7, s8⟩ := stop_spec ⟨p, a, ms, some m, s, i, c⟩
          refine ⟨⟨s1, s2, s3⟩, fun _ => s4, fun h => absurd hlow h, fun _ => ⟨s7, ?_⟩⟩
          rw [finishes_append, s8]
          cases c <;> cases a <;> rfl
    · rw [if_neg hf]
      refine ⟨⟨rfl, rfl, rfl⟩, fun _ => rfl, fun _ => ⟨rfl, rfl⟩, ?_⟩
      rintro ⟨m', h1, h2, _⟩
      cases h1
      exact absurd h2 hf

/-- One check: the run queue is asked to end exactly if there is too little left, the action is one to end it and
it was not asked before. -/
theorem one_check (si ii : Int) (st : Stat) (e : Entry) :
    Same e (checkOne si ii st e).1 ∧ (Counts st → (checkOne si ii st e).1.minInode = e.minInode) ∧
    (¬ Low e st → finishes (checkOne si ii st e).2 = [] ∧ (checkOne si ii st e).1.checked = e.checked) ∧
    (Low e st → finishes (checkOne si ii st e).2 = (if e.checked then [] else (Ends e.action).toList) ∧
      (checkOne si ii st e).1.checked = (e.checked || (Ends e.action).isSome)) := by
  obtain ⟨a1, a2, a3, a4⟩ := space_spec si st e
  obtain ⟨b1, b2, b3, b4⟩ := inode_spec ii st (checkSpace si st e).1
  have e1 : checkOne si ii st e = ((checkInode ii st (checkSpace si st e).1).1,
    (checkSpace si st e).2 ++ (checkInode ii st (checkSpace si st e).1).2) := rfl
  rw [e1]
  refine ⟨⟨b1.path.trans a1.path, b1.action.trans a1.action, b1.minSpace.trans a1.minSpace⟩,
    fun hc => (b2 hc).trans a2, fun hl => ?_, fun hl => ?_⟩
  · have hs : checkSpace si st e = (e, []) := a3 fun h => hl (Or.inl h)
    dsimp only
    rw [finishes_append]
    rw [a2] at b3
    obtain ⟨c1, c2⟩ := b3 fun h => hl (Or.inr h)
    rw [c1, c2, hs]
    exact ⟨rfl, rfl⟩
  · dsimp only
    rw [finishes_append]
    rw [a2] at b3 b4
    by_cases hs : ∃ m, e.minSpace = some m ∧ st.free < m
    · obtain ⟨c1, c2⟩ := a4 hs
      by_cases hi : ∃ m, e.minInode = some m ∧ st.favail < m ∧ st.files ≠ 0 ∧ st.favail ≠ -1
      · obtain ⟨d1, d2⟩ := b4 hi
        rw [c1, a1.action] at d1 d2
        rw [c2, d1, d2]
        cases e.checked <;> cases e.action <;> exact ⟨rfl, rfl⟩
      · obtain ⟨d1, d2⟩ := b3 hi
        rw [c2, d1, d2, c1, show finishes [] = [] from rfl, List.append_nil]
        exact ⟨rfl, rfl⟩
    · rw [a3 hs] at b4 ⊢
      obtain ⟨d1, d2⟩ := b4 (hl.resolve_left hs)
      rw [show finishes (e, ([] : List Ev)).2 = [] from rfl, List.nil_append]
      exact ⟨d2, d1⟩

/-- The same minima: an entry of later checks is low when the first one is. -/
theorem Low.same {e e' : Entry} {st : Stat} (h : Same e e') (hi : e'.minInode = e.minInode) : Low e' st ↔ Low e st := by
  unfold Low
  rw [h.minSpace, hi]

theorem run_quiet (si ii : Int) : ∀ (h : List Stat) (e : Entry), (∀ st ∈ h, Counts st) →
    (e.checked = true ∨ Ends e.action = none ∨ ∀ st ∈ h, ¬ Low e st) →
    ∀ l ∈ run si ii e h, finishes l = []
  | [], _, _, _, l, hl => (nomatch hl)
  | st :: h, e, hc, hq, l, hl => by
    obtain ⟨o1, o2, o3, o4⟩ := one_check si ii st e
    have o2 := o2 (hc st List.mem_cons_self)
    unfold run at hl
    rcases List.mem_cons.1 hl with rfl | hl
    · by_cases hlow : Low e st
      · rw [(o4 hlow).1]
        rcases hq with hq | hq | hq
        · rw [if_pos hq]
        · rw [hq]; cases e.checked <;> rfl
        · exact absurd hlow (hq st List.mem_cons_self)
      · exact (o3 hlow).1
    · refine run_quiet si ii h _ (fun s hs => hc s (List.mem_cons_of_mem _ hs)) ?_ l hl
      rcases hq with hq | hq | hq
      · left
        by_cases hlow : Low e st
        · rw [(o4 hlow).2, hq]; rfl
        · rw [(o3 hlow).2, hq]
      · right; left
        rw [o1.action]; exact hq
      · right; right
        intro s hs hx
        exact hq s (List.mem_cons_of_mem _ hs) ((Low.same o1 o2).1 hx)

theorem run_append (si ii : Int) : ∀ (h g : List Stat) (e : Entry), ∃ e', (h = [] → e' = e) ∧
    run si ii e (h ++ g) = run si ii e h ++ run si ii e' g ∧
    ((∀ st ∈ h, Counts st ∧ ¬ Low e st) → Same e e' ∧ e'.minInode = e.minInode ∧ e'.checked = e.checked)
  | [], g, e => ⟨e, fun _ => rfl, rfl, fun _ => ⟨⟨rfl, rfl, rfl⟩, rfl, rfl⟩⟩
  | st :: h, g, e => by
    obtain ⟨e', _, h2, h3⟩ := run_append si ii h g (checkOne si ii st e).1
    refine ⟨e', fun h => (nomatch h), ?_, fun hq => ?_⟩
    · have e1 : ∀ l, run si ii e (st :: l) = (checkOne si ii st e).2 :: run si ii (checkOne si ii st e).1 l :=
        fun _ => rfl
      rw [List.cons_append, e1, e1, h2]
      rfl
    · obtain ⟨o1, o2, o3, _⟩ := one_check si ii st e
      obtain ⟨q1, q2⟩ := hq st List.mem_cons_self
      have o2 := o2 q1
      obtain ⟨s1, s2, s3⟩ := h3 fun s hs => ⟨(hq s (List.mem_cons_of_mem _ hs)).1,
        fun hx => (hq s (List.mem_cons_of_mem _ hs)).2 ((Low.same o1 o2).1 hx)⟩
      exact ⟨⟨s1.path.trans o1.path, s1.action.trans o1.action, s1.minSpace.trans o1.minSpace⟩, s2.trans o2,
        s3.trans (o3 q2).2⟩

/-- **The build ends when there is too little left.** On a file system that counts inodes, with an action to end
the build, the run queue is not asked to end as long as enough is left, it is asked so in the first check in
which there is too little, once, at once for `HALT` and after the running tasks for `STOPTASKS`, and not again. -/
theorem ends_partial (si ii : Int) {e : Entry} (hn : e.checked = false) {pre post : List Stat} {st : Stat}
    (hc : ∀ s ∈ pre ++ st :: post, Counts s) (hpre : ∀ s ∈ pre, ¬ Low e s) (hlow : Low e st) :
    ∃ a b c, run si ii e (pre ++ st :: post) = a ++ b :: c ∧ a.length = pre.length ∧
      (∀ l ∈ a, finishes l = []) ∧ finishes b = (Ends e.action).toList ∧ ∀ l ∈ c, finishes l = [] := by
  obtain ⟨e', h1, h2, h3⟩ := run_append si ii pre (st :: post) e
  obtain ⟨s1, s2, s3⟩ := h3 fun s hs => ⟨hc s (List.mem_append_left _ hs), hpre s hs⟩
  have hl' : Low e' st := (Low.same s1 s2).2 hlow
  obtain ⟨o1, o2, o3, o4⟩ := one_check si ii st e'
  obtain ⟨p1, p2⟩ := o4 hl'
  refine ⟨run si ii e pre, (checkOne si ii st e').2, run si ii (checkOne si ii st e').1 post, h2, ?_, ?_, ?_, ?_⟩
  · have : ∀ (h : List Stat) (e : Entry), (run si ii e h).length = h.length := by
      intro h
      induction h with
      | nil => intro e; rfl
      | cons s h ih =>
        intro e
        show (_ :: run si ii _ h).length = _
        rw [List.length_cons, ih]
        rfl
    exact this _ _
  · exact run_quiet si ii pre e (fun s hs => hc s (List.mem_append_left _ hs)) (Or.inr (Or.inr hpre))
  · rw [p1, s3, hn, s1.action]
    rfl
  · refine run_quiet si ii post _ (fun s hs => hc s (List.mem_append_right _ (List.mem_cons_of_mem _ hs))) ?_
    by_cases ha : Ends e.action = none
    · right; left
      rw [o1.action, s1.action]; exact ha
    · left
      rw [p2, s1.action]
      cases hx : Ends e.action with
      | none => exact absurd hx ha
      | some b => cases e'.checked <;> rfl

/-- With enough left in all checks, or with the action `WARN`, the run queue is never asked to end. -/
theorem goes_on (si ii : Int) {e : Entry} {h : List Stat} (hc : ∀ s ∈ h, Counts s)
    (hq : e.action = .warn ∨ ∀ s ∈ h, ¬ Low e s) : ∀ l ∈ run si ii e h, finishes l = [] :=
  run_quiet si ii h e hc (Or.inr (hq.imp (fun h => by rw [h]; rfl) id))

/-- An entry with both minima. -/
def e1 : Entry := ⟨"/b".toList, .halt, some 100, some 10, 0, 0, false⟩

example : run 20 5 e1 [⟨200, 50, 90⟩, ⟨99, 50, 90⟩, ⟨98, 9, 90⟩, ⟨70, 9, 90⟩] =
    [[], [.warnS 99, .finish true], [.warnI 9], []] := by decide

example : (¬ Low e1 ⟨200, 50, 90⟩) ∧ Low e1 ⟨99, 50, 90⟩ ∧ Counts ⟨99, 50, 90⟩ := by
  refine ⟨?_, Or.inl ⟨100, rfl, by decide⟩, by decide, by decide⟩
  rintro (⟨m, h, h2⟩ | ⟨m, h, h2, _⟩)
  · cases h; revert h2; decide
  · cases h; revert h2; decide

/-- All entries are watched on their own: what is done in a check is what each of them does. -/
theorem all_entries (si ii : Int) : ∀ (h : List (Str → Stat)) (es : List Entry) (n : Nat) (l : List Ev),
    (runAll si ii es h)[n]? = some l → ∀ ev, ev ∈ l ↔
      ∃ e ∈ es, ∃ k, (run si ii e (h.map fun st => st e.path))[n]? = some k ∧ ev ∈ k
  | [], _, _, _, hl => by cases hl
  | st :: h, es, n, l, hl => by
    intro ev
    have e1 : ∀ e : Entry, run si ii e ((st :: h).map fun s => s e.path) =
        (checkOne si ii (st e.path) e).2 :: run si ii (checkOne si ii (st e.path) e).1 (h.map fun s => s e.path) :=
      fun _ => rfl
    cases n with
    | zero =>
      have : l = (check si ii st es).2 := (Option.some.inj hl).symm
      rw [this]
      unfold check
      rw [List.mem_flatMap]
      constructor
      · rintro ⟨e, he, hx⟩
        exact ⟨e, he, _, by rw [e1]; rfl, hx⟩
      · rintro ⟨e, he, k, hk, hx⟩
        rw [e1] at hk
        cases hk
        exact ⟨e, he, hx⟩
    | succ n =>
      have hl' : (runAll si ii (check si ii st es).1 h)[n]? = some l := hl
      rw [all_entries si ii h _ n l hl' ev]
      unfold check
      constructor
      · rintro ⟨e', he', k, hk, hx⟩
        obtain ⟨e, he, rfl⟩ := List.mem_map.1 he'
        rw [(one_check si ii (st e.path) e).1.path] at hk
        exact ⟨e, he, k, by rw [e1]; exact hk, hx⟩
      · rintro ⟨e, he, k, hk, hx⟩
        rw [e1] at hk
        refine ⟨_, List.mem_map.2 ⟨e, he, rfl⟩, k, ?_, hx⟩
        rw [(one_check si ii (st e.path) e).1.path]
        exact hk

/-- The full claim is false: a single answer that looks like one of a file system that does not count inodes ends
the watch over inodes for good. -/
theorem inodes_not_watched : run 20 5 e1 [⟨200, -1, 90⟩, ⟨200, 2, 90⟩, ⟨200, 0, 90⟩] = [[], [], []] ∧
    Low e1 ⟨200, 0, 90⟩ := ⟨by decide, Or.inr ⟨10, rfl, by decide, by decide, by decide⟩⟩

/-! ## Warnings -/

/-- What the warnings about space say is left. -/
def warnings (l : List Ev) : List Int :=
  l.filterMap fun e => match e with
    | .warnS f => some f
    | _ => none

theorem stop_no_warning (e : Entry) : warnings (stop e).2 = [] := by
  rw [(stop_spec e).2.2.2.2.2.2.2]
  cases e.checked <;> cases e.action <;> rfl

theorem inode_no_warning (ii : Int) (st : Stat) (e : Entry) :
    warnings (checkInode ii st e).2 = [] ∧ (checkInode ii st e).1.preS = e.preS := by
  unfold checkInode
  cases e.minInode with
  | none => exact ⟨rfl, rfl⟩
  | some m =>
    dsimp only
    by_cases hf : st.favail < m
    · rw [if_pos hf]
      by_cases hd : st.files = 0 ∨ st.favail = -1
      · rw [if_pos hd]; exact ⟨rfl, rfl⟩
      · rw [if_neg hd]
        by_cases hw : e.preI = 0 ∨ (e.preI - st.favail > ii ∧ e.checked = false)
        · simp only [if_pos hw]
          refine ⟨?_, (stop_spec _).2.2.2.2.1⟩
          unfold warnings
          rw [List.filterMap_append]
          exact stop_no_warning _
        · simp only [if_neg hw]
          refine ⟨?_, (stop_spec _).2.2.2.2.1⟩
          rw [List.nil_append]
          exact stop_no_warning _
    · rw [if_neg hf]; exact ⟨rfl, rfl⟩

/-- One check warns about space with what is left now, only if that is too little, and only if it was not
warned before or what is left is less by more than the interval. -/
theorem one_warning (si ii : Int) (st : Stat) (e : Entry) :
    (warnings (checkOne si ii st e).2 = [] ∧ (checkOne si ii st e).1.preS = e.preS) ∨
    (warnings (checkOne si ii st e).2 = [st.free] ∧ (checkOne si ii st e).1.preS = st.free ∧
      (∃ m, e.minSpace = some m ∧ st.free < m) ∧ (e.preS = 0 ∨ e.preS - st.free > si)) := by
  obtain ⟨i1, i2⟩ := inode_no_warning ii st (checkSpace si st e).1
  have e1 : checkOne si ii st e = ((checkInode ii st (checkSpace si st e).1).1,
    (checkSpace si st e).2 ++ (checkInode ii st (checkSpace si st e).1).2) := rfl
  have happ : ∀ a b : List Ev, warnings (a ++ b) = warnings a ++ warnings b := fun a b => List.filterMap_append
  rw [e1]
  dsimp only
  rw [happ, i1, List.append_nil, i2]
  unfold checkSpace
  cases hm : e.minSpace with
  | none => exact Or.inl ⟨rfl, rfl⟩
  | some m =>
    dsimp only
    by_cases hf : st.free < m
    · rw [if_pos hf]
      by_cases hw : e.preS = 0 ∨ (e.preS - st.free > si ∧ e.checked = false)
      · right
        simp only [if_pos hw]
        refine ⟨?_, (stop_spec _).2.2.2.2.1, ⟨m, rfl, hf⟩, hw.imp id And.left⟩
        rw [happ, stop_no_warning]
        rfl
      · left
        simp only [if_neg hw]
        refine ⟨?_, (stop_spec _).2.2.2.2.1⟩
        rw [List.nil_append]
        exact stop_no_warning _
    · rw [if_neg hf]
      exact Or.inl ⟨rfl, rfl⟩

theorem warn_inv (si ii : Int) : ∀ (h : List Stat) (e : Entry), (∀ s ∈ h, s.free ≠ 0) →
    ((run si ii e h).flatMap warnings).Pairwise (fun a b => a - b > si) ∧
    (e.preS ≠ 0 → ∀ x ∈ (run si ii e h).flatMap warnings, e.preS - x > si) ∨ si < 0
  | [], e, _ => Or.inl ⟨List.Pairwise.nil, fun _ _ h => nomatch h⟩
  | st :: h, e, hz => by
    by_cases hneg : si < 0
    · exact Or.inr hneg
    left
    have hr : (run si ii e (st :: h)).flatMap warnings =
        warnings (checkOne si ii st e).2 ++ (run si ii (checkOne si ii st e).1 h).flatMap warnings := rfl
    rcases warn_inv si ii h (checkOne si ii st e).1 (fun s hs => hz s (List.mem_cons_of_mem _ hs)) with ⟨i1, i2⟩ | i
    · rw [hr]
      rcases one_warning si ii st e with ⟨w1, w2⟩ | ⟨w1, w2, _, w4⟩
      · rw [w1, List.nil_append]
        rw [w2] at i2
        exact ⟨i1, i2⟩
      · rw [w1]
        rw [w2] at i2
        have i2 := i2 (hz st List.mem_cons_self)
        refine ⟨List.pairwise_cons.2 ⟨i2, i1⟩, fun hp x hx => ?_⟩
        have w4 := w4.resolve_left hp
        rcases List.mem_cons.1 hx with rfl | hx
        · exact w4
        · have := i2 x hx
          omega
    · exact absurd i hneg

/-- **Warnings are not repeated.** As long as there is some space left, each further warning says that there is
less left by more than the interval. -/
theorem warnings_partial {si ii : Int} (hsi : 0 ≤ si) {h : List Stat} (hz : ∀ s ∈ h, s.free ≠ 0) (e : Entry) :
    ((run si ii e h).flatMap warnings).Pairwise fun a b => a - b > si := by
  rcases warn_inv si ii h e hz with h | h
  · exact h.1
  · omega

example : (run 20 5 { e1 with action := .warn } [⟨99, 50, 90⟩, ⟨90, 50, 90⟩, ⟨70, 50, 90⟩, ⟨60, 50, 90⟩,
    ⟨40, 50, 90⟩]).flatMap warnings = [99, 70, 40] := by decide

/-- The first time that there is too little there is a warning. -/
theorem first_warning (si ii : Int) (st : Stat) {e : Entry} (hp : e.preS = 0) {m : Nat} (hm : e.minSpace = some m)
    (hf : st.free < m) : Ev.warnS st.free ∈ (checkOne si ii st e).2 := by
  have e1 : checkOne si ii st e = ((checkInode ii st (checkSpace si st e).1).1,
    (checkSpace si st e).2 ++ (checkInode ii st (checkSpace si st e).1).2) := rfl
  rw [e1]
  refine List.mem_append_left _ ?_
  unfold checkSpace
  rw [hm]
  dsimp only
  rw [if_pos hf]
  simp only [if_pos (show e.preS = 0 ∨ (e.preS - st.free > si ∧ e.checked = false) from Or.inl hp)]
  exact List.mem_append_left _ List.mem_cons_self

/-- With nothing left at all the same warning comes in every check: what was left is kept as 0, which means
that there was no warning yet. -/
theorem warned_for_ever : (run 20 5 e1 [⟨0, 50, 90⟩, ⟨0, 50, 90⟩, ⟨0, 50, 90⟩]).flatMap warnings = [0, 0, 0] := by
  decide

end Bb.DiskMon
