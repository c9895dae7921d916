import Verif.Meta.OuthashProps
/-!
# The hash of the output of a task: C211, C212
-/

namespace Isar.Outhash

open Py

/-! ## Specification -/

/-- Two files cannot be told apart but for the owner, the group, their permissions and the time: the type, the permissions of
the owner, the target of a link, the numbers of a device, and the length and the checksum of a content.  For a file of the
file map it is the checksum of what is left of the content. -/
def Looks (c : Cfg) (path : Str) (a b : St) : Prop :=
  a.mode.rusr = b.mode.rusr ∧ a.mode.wusr = b.mode.wusr ∧ a.mode.xusr = b.mode.xusr ∧ a.mode.suid = b.mode.suid ∧
    match a.kind with
    | .reg s => ∃ s', b.kind = .reg s' ∧
      (filtered c path = false → s.length = s'.length ∧ c.sha s = c.sha s') ∧
      (filtered c path = true → c.sha (cleaned c path s) = c.sha (cleaned c path s'))
    | k => b.kind = k

/-- The text of a path of the output. -/
def pathText : List Str → Str := fun p => ".".toList ++ (p.map ('/' :: ·)).flatten

/-- No name and no target has a line break, no link has a `>` in its path, and no file is called `fixmepath`. -/
def Plain (n : Node) : Prop :=
  ∀ p st b, At n p (st, b) → (∀ k ∈ p, '\n' ∉ k) ∧
    (∀ t, st.kind = .lnk t → '\n' ∉ t ∧ ∀ k ∈ p, '>' ∉ k) ∧ (b = false → p.getLast? ≠ some "fixmepath".toList)

/-- A checksum is written as 64 characters of one line. -/
def Checksum (sha : Str → Str) : Prop := ∀ s, (sha s).length = 64 ∧ '\n' ∉ sha s

/-! ## Lemmas: columns -/

theorem split_stop {x : Char} {a b r s : Str} (ha : x ∉ a) (hb : x ∉ b) (h : a ++ x :: r = b ++ x :: s) : a = b ∧ r = s := by
  have f : ∀ y : Char, (decide (y ≠ x)) = true ↔ y ≠ x := fun y => decide_eq_true_iff
  have h1 : ∀ a : Str, x ∉ a → ∀ y ∈ a, (decide (y ≠ x)) = true := fun a ha y hy =>
    (f y).2 fun e => ha (e ▸ hy)
  have e1 := congrArg (List.takeWhile fun y => decide (y ≠ x)) h
  rw [takeWhile_append_stop (h1 a ha) (by simp), takeWhile_append_stop (h1 b hb) (by simp)] at e1
  subst e1
  exact ⟨rfl, (List.cons.inj (List.append_cancel_left h)).2⟩

theorem drop_blanks (k : Nat) {s : Str} (hs : s.head? ≠ some ' ') :
    (List.replicate k ' ' ++ s).dropWhile (· == ' ') = s := by
  induction k with
  | zero =>
    cases s with
    | nil => rfl
    | cons a s =>
      rw [List.replicate_zero, List.nil_append, List.dropWhile_cons, if_neg]
      intro h
      exact hs (by rw [eq_of_beq h]; rfl)
  | succ k ih => rw [List.replicate_succ, List.cons_append, List.dropWhile_cons, if_pos (beq_self_eq_true ' '), ih]

theorem head_ne {s r : Str} (hs : ' ' ∉ s) (hne : s ≠ []) : (s ++ r).head? ≠ some ' ' := by
  cases s with
  | nil => exact absurd rfl hne
  | cons a s =>
    intro h
    cases h
    exact hs List.mem_cons_self

/-- A column of texts without blanks. -/
theorem column {k : Nat} {a b r s : Str} (ha : ' ' ∉ a) (ha0 : a ≠ []) (hb : ' ' ∉ b) (hb0 : b ≠ [])
    (h : rjust a k ' ' ++ ' ' :: r = rjust b k ' ' ++ ' ' :: s) : a = b ∧ r = s := by
  unfold rjust at h
  rw [List.append_assoc, List.append_assoc] at h
  have := congrArg (List.dropWhile (· == ' ')) h
  rw [drop_blanks _ (head_ne ha ha0), drop_blanks _ (head_ne hb hb0)] at this
  exact split_stop ha hb this

/-- A column that is filled is not blank. -/
theorem column_blank {k : Nat} {a r s : Str} (ha : ' ' ∉ a) (ha0 : a ≠ [])
    (h : rjust a k ' ' ++ r = List.replicate k ' ' ++ s) : k = 0 := by
  cases hk : k with
  | zero => rfl
  | succ j =>
    subst hk
    unfold rjust at h
    have hl : 0 < a.length := List.length_pos_iff.2 ha0
    have e : List.replicate (j + 1) ' ' =
        List.replicate (j + 1 - a.length) ' ' ++ List.replicate (j + 1 - (j + 1 - a.length)) ' ' := by
      rw [List.replicate_append_replicate]
      congr 1
      omega
    rw [e, List.append_assoc, List.append_assoc] at h
    have h2 := List.append_cancel_left h
    obtain ⟨i, hi⟩ : ∃ i, j + 1 - (j + 1 - a.length) = i + 1 := ⟨j + 1 - (j + 1 - a.length) - 1, by omega⟩
    rw [hi, List.replicate_succ] at h2
    exact absurd (by rw [h2]; rfl) (head_ne (r := r) ha ha0)

theorem digit_not {n : Nat} {x : Char} (hx : x.isDigit = false) : x ∉ dec n := by
  intro h
  rw [dec_digits h] at hx
  cases hx

theorem blank_dec (n : Nat) : ' ' ∉ dec n := digit_not rfl

theorem blank_dev (a b : Nat) : ' ' ∉ dec a ++ '.' :: dec b := by
  rw [List.mem_append, List.mem_cons]
  rintro (h | h | h)
  · exact blank_dec _ h
  · cases h
  · exact blank_dec _ h

theorem dev_ne (a b : Nat) : dec a ++ '.' :: dec b ≠ [] := by simp

theorem dev_inj {a b a' b' : Nat} (h : dec a ++ '.' :: dec b = dec a' ++ '.' :: dec b') : a = a' ∧ b = b' := by
  obtain ⟨h1, h2⟩ := split_stop (digit_not rfl) (digit_not rfl) h
  exact ⟨dec_injective h1, dec_injective h2⟩

/-! ## Lines -/

/-- The columns behind the permissions. -/
def tailOf (c : Cfg) (path : Str) (st : St) : Str :=
  device st.kind ++ ' ' :: (size c path st.kind ++ ' ' :: (contents c path st.kind ++ ' ' :: (path ++ target st.kind)))

theorem line_plain {c : Cfg} (ho : includeOwners c = false) (ht : includeTimes c = false) (path : Str) (st : St) :
    line c path st = some (typeChar st.kind :: (userPerms st.mode ++ ' ' :: tailOf c path st)) := by
  unfold line owners times tailOf
  rw [ho, ht]
  simp only [Bool.false_eq_true, if_false, Option.map_some, List.append_nil, List.append_assoc, List.cons_append, List.nil_append]

theorem perms_inj {m m' : Mode} {r r' : Str} (h : userPerms m ++ r = userPerms m' ++ r') :
    m.rusr = m'.rusr ∧ m.wusr = m'.wusr ∧ m.xusr = m'.xusr ∧ m.suid = m'.suid ∧ r = r' := by
  unfold userPerms at h
  obtain ⟨h1, h⟩ := List.cons.inj h
  obtain ⟨h2, h⟩ := List.cons.inj h
  obtain ⟨h3, h⟩ := List.cons.inj h
  refine ⟨?_, ?_, ?_, ?_, h⟩
  · revert h1; cases m.rusr <;> cases m'.rusr <;> decide
  · revert h2; cases m.wusr <;> cases m'.wusr <;> decide
  · revert h3; cases m.xusr <;> cases m'.xusr <;> cases m.suid <;> cases m'.suid <;> decide
  · revert h3; cases m.xusr <;> cases m'.xusr <;> cases m.suid <;> cases m'.suid <;> decide

theorem type_dir {k : Kind} (h : 'd' = typeChar k) : k = .dir := by cases k <;> simp [typeChar] at h ⊢
theorem type_sock {k : Kind} (h : 's' = typeChar k) : k = .sock := by cases k <;> simp [typeChar] at h ⊢
theorem type_fifo {k : Kind} (h : 'p' = typeChar k) : k = .fifo := by cases k <;> simp [typeChar] at h ⊢
theorem type_chr {k : Kind} (h : 'c' = typeChar k) : ∃ a b, k = .chr a b := by cases k <;> simp [typeChar] at h ⊢
theorem type_blk {k : Kind} (h : 'b' = typeChar k) : ∃ a b, k = .blk a b := by cases k <;> simp [typeChar] at h ⊢
theorem type_lnk {k : Kind} (h : 'l' = typeChar k) : ∃ t, k = .lnk t := by cases k <;> simp [typeChar] at h ⊢
theorem type_reg {k : Kind} (h : '-' = typeChar k) : ∃ t, k = .reg t := by cases k <;> simp [typeChar] at h ⊢

/-- The line of a path says what is there. -/
theorem line_inj {c : Cfg} (hs : Checksum c.sha) {p p' : Str} {a b : St}
    (hp : ∀ t, a.kind = .lnk t → '>' ∉ p) (hp' : ∀ t, b.kind = .lnk t → '>' ∉ p')
    (h : typeChar a.kind :: (userPerms a.mode ++ ' ' :: tailOf c p a) =
      typeChar b.kind :: (userPerms b.mode ++ ' ' :: tailOf c p' b)) : p = p' ∧ Looks c p a b := by
  obtain ⟨h1, h⟩ := List.cons.inj h
  obtain ⟨h2, h3, h4, h5, h⟩ := perms_inj h
  have h := (List.cons.inj h).2
  suffices p = p' ∧ (match a.kind with
    | .reg s => ∃ s', b.kind = .reg s' ∧
      (filtered c p = false → s.length = s'.length ∧ c.sha s = c.sha s') ∧
      (filtered c p = true → c.sha (cleaned c p s) = c.sha (cleaned c p s'))
    | k => b.kind = k) from ⟨this.1, h2, h3, h4, h5, this.2⟩
  unfold tailOf at h
  cases ea : a.kind with
  | dir =>
    rw [ea] at h1
    have eb := type_dir h1
    rw [ea, eb] at h
    have h := (List.cons.inj (List.append_cancel_left h)).2
    have h := (List.cons.inj (List.append_cancel_left h)).2
    have h := (List.cons.inj (List.append_cancel_left h)).2
    exact ⟨List.append_cancel_right h, eb⟩
  | sock =>
    rw [ea] at h1
    have eb := type_sock h1
    rw [ea, eb] at h
    have h := (List.cons.inj (List.append_cancel_left h)).2
    have h := (List.cons.inj (List.append_cancel_left h)).2
    have h := (List.cons.inj (List.append_cancel_left h)).2
    exact ⟨List.append_cancel_right h, eb⟩
  | fifo =>
    rw [ea] at h1
    have eb := type_fifo h1
    rw [ea, eb] at h
    have h := (List.cons.inj (List.append_cancel_left h)).2
    have h := (List.cons.inj (List.append_cancel_left h)).2
    have h := (List.cons.inj (List.append_cancel_left h)).2
    exact ⟨List.append_cancel_right h, eb⟩
  | chr x y =>
    rw [ea] at h1
    obtain ⟨x', y', eb⟩ := type_chr h1
    rw [ea, eb] at h
    obtain ⟨e, h⟩ := column (blank_dev _ _) (dev_ne _ _) (blank_dev _ _) (dev_ne _ _) h
    obtain ⟨rfl, rfl⟩ := dev_inj e
    have h := (List.cons.inj (List.append_cancel_left h)).2
    have h := (List.cons.inj (List.append_cancel_left h)).2
    exact ⟨List.append_cancel_right h, eb⟩
  | blk x y =>
    rw [ea] at h1
    obtain ⟨x', y', eb⟩ := type_blk h1
    rw [ea, eb] at h
    obtain ⟨e, h⟩ := column (blank_dev _ _) (dev_ne _ _) (blank_dev _ _) (dev_ne _ _) h
    obtain ⟨rfl, rfl⟩ := dev_inj e
    have h := (List.cons.inj (List.append_cancel_left h)).2
    have h := (List.cons.inj (List.append_cancel_left h)).2
    exact ⟨List.append_cancel_right h, eb⟩
  | lnk t =>
    rw [ea] at h1
    obtain ⟨t', eb⟩ := type_lnk h1
    rw [ea, eb] at h
    have h := (List.cons.inj (List.append_cancel_left h)).2
    have h := (List.cons.inj (List.append_cancel_left h)).2
    have h := (List.cons.inj (List.append_cancel_left h)).2
    have e : ∀ (q u : Str), q ++ target (.lnk u) = (q ++ [' ', '-']) ++ '>' :: (' ' :: u) := by
      intro q u
      rw [List.append_assoc]
      rfl
    rw [e, e] at h
    have nin : ∀ q : Str, '>' ∉ q → '>' ∉ q ++ [' ', '-'] := by
      intro q hq hm
      rcases List.mem_append.1 hm with hm | hm
      · exact hq hm
      · exact absurd hm (by decide)
    obtain ⟨h6, h7⟩ := split_stop (nin p (hp t ea)) (nin p' (hp' t' eb)) h
    cases (List.cons.inj h7).2
    exact ⟨List.append_cancel_right h6, eb⟩
  | reg s =>
    rw [ea] at h1
    obtain ⟨s', eb⟩ := type_reg h1
    rw [ea, eb] at h
    have h := (List.cons.inj (List.append_cancel_left (as := List.replicate 9 ' ') h)).2
    have rest : ∀ {x y : Str}, contents c p (.reg s) ++ ' ' :: (p ++ target (.reg s)) =
        contents c p' (.reg s') ++ ' ' :: (p' ++ target (.reg s')) →
        contents c p (.reg s) = contents c p' (.reg s') ∧ p = p' := by
      intro _ _ h
      obtain ⟨h6, h7⟩ := List.append_inj h ((hs _).1.trans (hs _).1.symm)
      exact ⟨h6, List.append_cancel_right (List.cons.inj h7).2⟩
    cases ef : filtered c p with
    | true =>
      cases ef' : filtered c p' with
      | true =>
        have z : ∀ (q s : Str), filtered c q = true → size c q (.reg s) = List.replicate 10 ' ' := by
          intro q s hq
          show (if filtered c q = true then _ else _) = _
          rw [hq]
          rfl
        rw [z _ _ ef, z _ _ ef'] at h
        obtain ⟨h6, h7⟩ := rest (x := []) (y := []) (List.cons.inj (List.append_cancel_left h)).2
        refine ⟨h7, s', eb, fun e => (nomatch e), fun _ => ?_⟩
        subst h7
        have : ∀ s, contents c p (.reg s) = c.sha (cleaned c p s) := by
          intro s
          show c.sha (if filtered c p = true then _ else _) = _
          rw [ef]
          rfl
        rwa [this, this] at h6
      | false =>
        have z : size c p (.reg s) = List.replicate 10 ' ' := by
          show (if filtered c p = true then _ else _) = _
          rw [ef]
          rfl
        have z' : size c p' (.reg s') = rjust (dec s'.length) 10 ' ' := by
          show (if filtered c p' = true then _ else _) = _
          rw [ef']
          rfl
        rw [z, z'] at h
        exact absurd (column_blank (blank_dec _) (dec_ne_nil _) h.symm) (by decide)
    | false =>
      cases ef' : filtered c p' with
      | true =>
        have z : size c p (.reg s) = rjust (dec s.length) 10 ' ' := by
          show (if filtered c p = true then _ else _) = _
          rw [ef]
          rfl
        have z' : size c p' (.reg s') = List.replicate 10 ' ' := by
          show (if filtered c p' = true then _ else _) = _
          rw [ef']
          rfl
        rw [z, z'] at h
        exact absurd (column_blank (blank_dec _) (dec_ne_nil _) h) (by decide)
      | false =>
        have z : ∀ (q s : Str), filtered c q = false → size c q (.reg s) = rjust (dec s.length) 10 ' ' := by
          intro q s hq
          show (if filtered c q = true then _ else _) = _
          rw [hq]
          rfl
        rw [z _ _ ef, z _ _ ef'] at h
        obtain ⟨h5, h⟩ := column (blank_dec _) (dec_ne_nil _) (blank_dec _) (dec_ne_nil _) h
        obtain ⟨h6, h7⟩ := rest (x := []) (y := []) h
        refine ⟨h7, s', eb, fun _ => ⟨dec_injective h5, ?_⟩, fun e => (nomatch e)⟩
        subst h7
        have : ∀ s, contents c p (.reg s) = c.sha s := by
          intro s
          show c.sha (if filtered c p = true then _ else _) = _
          rw [ef]
          rfl
        rwa [this, this] at h6

/-! ## Paths -/

/-- The text of a path below a directory. -/
def below (root : Str) (p : List Str) : Str := root ++ (p.map ('/' :: ·)).flatten

def RootOk (root : Str) : Prop := root ≠ [] ∧ root.getLast? ≠ some '/'

theorem join_root {root k : Str} (hr : RootOk root) (hk : '/' ∉ k) : pathJoin root k = root ++ '/' :: k := by
  unfold pathJoin
  rw [if_neg, if_neg]
  · rintro (h | h)
    · exact hr.1 h
    · exact hr.2 h
  · intro h
    obtain ⟨t, rfl⟩ := isabs_iff.1 h
    exact hk List.mem_cons_self

theorem root_join {root k : Str} (hk : k ≠ [] ∧ '/' ∉ k) : RootOk (root ++ '/' :: k) := by
  refine ⟨fun h => List.cons_ne_nil _ _ (List.append_eq_nil_iff.1 h).2, fun h => ?_⟩
  rw [List.getLast?_append, List.getLast?_cons_of_ne_nil hk.1] at h
  cases e : k.getLast? with
  | none => exact hk.1 (List.getLast?_eq_none_iff.1 e)
  | some x =>
    rw [e] at h
    cases h
    exact hk.2 (List.mem_of_getLast? e)

theorem below_cons (root k : Str) (p : List Str) : below root (k :: p) = below (root ++ '/' :: k) p := by
  unfold below
  rw [List.map_cons, List.flatten_cons, List.append_assoc]

theorem flat_head (p : List Str) : (p.map ('/' :: ·)).flatten = [] ∨ ∃ t, (p.map ('/' :: ·)).flatten = '/' :: t := by
  cases p with
  | nil => exact Or.inl rfl
  | cons k p => exact Or.inr ⟨_, rfl⟩

theorem take_all {f : Char → Bool} : ∀ {k : Str}, (∀ y ∈ k, f y = true) → k.takeWhile f = k
  | [], _ => rfl
  | a :: k, h => by
    rw [List.takeWhile_cons, if_pos (h a List.mem_cons_self), take_all fun y hy => h y (List.mem_cons_of_mem _ hy)]

theorem take_name {k : Str} (hk : '/' ∉ k) (p : List Str) : (k ++ (p.map ('/' :: ·)).flatten).takeWhile (· ≠ '/') = k := by
  have hall : ∀ y ∈ k, (decide (y ≠ '/')) = true := fun y hy => decide_eq_true fun e => hk (e ▸ hy)
  rcases flat_head p with h | ⟨t, h⟩
  · rw [h, List.append_nil]
    exact take_all hall
  · rw [h, takeWhile_append_stop hall (by decide)]

theorem flat_inj : ∀ {p q : List Str}, (∀ k ∈ p, '/' ∉ k) → (∀ k ∈ q, '/' ∉ k) →
    (p.map ('/' :: ·)).flatten = (q.map ('/' :: ·)).flatten → p = q
  | [], [], _, _, _ => rfl
  | [], _ :: _, _, _, h => nomatch h
  | _ :: _, [], _, _, h => nomatch h
  | k :: p, l :: q, hp, hq, h => by
    have h : k ++ (p.map ('/' :: ·)).flatten = l ++ (q.map ('/' :: ·)).flatten := (List.cons.inj h).2
    have e := congrArg (List.takeWhile (· ≠ '/')) h
    rw [take_name (hp k List.mem_cons_self), take_name (hq l List.mem_cons_self)] at e
    subst e
    rw [flat_inj (fun x hx => hp x (List.mem_cons_of_mem _ hx)) (fun x hx => hq x (List.mem_cons_of_mem _ hx))
      (List.append_cancel_left h)]

theorem at_names {n : Node} {p : List Str} {x : St × Bool} (h : At n p x) : Ok n → ∀ k ∈ p, k ≠ [] ∧ '/' ∉ k := by
  induction h with
  | here n => intro _ k hk; cases hk
  | inside hm _ ih =>
    intro ho k hk
    unfold Ok at ho
    cases hk with
    | head => exact (okAll_mem ho.2.2 hm).1
    | tail _ hk => exact ih (okAll_mem ho.2.2 hm).2 k hk

/-- Each path of the output has a line. -/
theorem visit_all {c : Cfg} (hi : includeRoot c = true) {n : Node} {p : List Str} {x : St × Bool} (h : At n p x) :
    Ok n → n.about.1.kind = .dir → ∀ root, RootOk root → (x.2 = false → p.getLast? ≠ some "fixmepath".toList) →
    (below root p, x.1) ∈ visit c root n := by
  induction h with
  | here n =>
    intro ho hk root hr _
    cases n with
    | leaf st b => unfold Ok at ho; exact absurd hk ho
    | dir st kids =>
      rw [visit_dir, hi]
      refine List.mem_append_left _ (List.mem_append_left _ (List.mem_append_left _ ?_))
      show (root ++ [], st) ∈ [(root, st)]
      rw [List.append_nil]
      exact List.mem_cons_self
  | @inside st kids k n p x hm ha ih =>
    intro ho _ root hr hf
    unfold Ok at ho
    obtain ⟨hk, hn⟩ := okAll_mem ho.2.2 hm
    rw [visit_dir, below_cons]
    cases n with
    | leaf s b =>
      cases ha
      show (below (root ++ '/' :: k) [], s) ∈ _
      have e : below (root ++ '/' :: k) [] = pathJoin root k := by
        rw [join_root hr hk.2]
        exact List.append_nil _
      rw [e]
      cases b with
      | false =>
        refine List.mem_append_left _ (List.mem_append_left _ (List.mem_append_right _ ?_))
        refine List.mem_map.2 ⟨(k, s), List.mem_filter.2 ⟨(sortBy_perm _ _).mem_iff.2 (mem_files.2 hm), ?_⟩, rfl⟩
        exact decide_eq_true fun e => hf rfl (by rw [← e]; rfl)
      | true =>
        refine List.mem_append_left _ (List.mem_append_right _ ?_)
        exact List.mem_map.2 ⟨(k, s), (sortBy_perm _ _).mem_iff.2 (mem_links.2 hm), rfl⟩
    | dir s d =>
      refine List.mem_append_right _ (List.mem_flatten.2 ⟨visit c (pathJoin root k) (.dir s d), List.mem_map.2
        ⟨(k, _), (sortBy_perm _ _).mem_iff.2 (mem_dirs.2 ⟨s, d, hm, rfl⟩), rfl⟩, ?_⟩)
      rw [join_root hr hk.2]
      refine ih hn ?_ _ (root_join hk) fun hx hl => hf hx ?_
      · unfold Ok at hn; exact hn.1
      · rw [List.getLast?_cons_of_ne_nil (fun e => by rw [e] at hl; cases hl)]
        exact hl

/-- What is proved of the lines of a tree. -/
def Known (c : Cfg) (n : Node) : Prop :=
  ∀ root, RootOk root → Ok n → ∀ q st, (q, st) ∈ visit c root n → ∃ p b, q = below root p ∧ At n p (st, b)

theorem known_dir {c : Cfg} {s : St} {kids : List (Str × Node)} (ih : ∀ e ∈ kids, Known c e.2) : Known c (.dir s kids) := by
  intro root hr ho q st h
  unfold Ok at ho
  have kid : ∀ {k : Str} {n : Node}, (k, n) ∈ kids → ∀ b, n = .leaf st b → q = pathJoin root k →
      ∃ p b, q = below root p ∧ At (.dir s kids) p (st, b) := by
    intro k n hm b hn hq
    obtain ⟨hk, -⟩ := okAll_mem ho.2.2 hm
    subst hn
    refine ⟨[k], b, ?_, .inside hm (.here _)⟩
    rw [hq, join_root hr hk.2, below_cons]
    exact (List.append_nil _).symm
  rw [visit_dir] at h
  rcases List.mem_append.1 h with h | h
  · rcases List.mem_append.1 h with h | h
    · rcases List.mem_append.1 h with h | h
      · have : (q, st) ∈ [(root, s)] := by
          revert h
          split
          · exact id
          · intro h; cases h
        cases List.mem_singleton.1 this
        exact ⟨[], true, (List.append_nil _).symm, .here _⟩
      · obtain ⟨⟨k, st'⟩, h1, h2⟩ := List.mem_map.1 h
        have h3 := mem_files.1 ((sortBy_perm _ _).mem_iff.1 (List.mem_filter.1 h1).1)
        cases h2
        exact kid h3 _ rfl rfl
    · obtain ⟨⟨k, st'⟩, h1, h2⟩ := List.mem_map.1 h
      have h3 := mem_links.1 ((sortBy_perm _ _).mem_iff.1 h1)
      cases h2
      exact kid h3 _ rfl rfl
  · obtain ⟨v, hv, h1⟩ := List.mem_flatten.1 h
    obtain ⟨⟨k, v'⟩, h2, rfl⟩ := List.mem_map.1 hv
    obtain ⟨s', d, hm, rfl⟩ := mem_dirs.1 ((sortBy_perm _ _).mem_iff.1 h2)
    obtain ⟨hk, hn⟩ := okAll_mem ho.2.2 hm
    dsimp only at h1
    rw [join_root hr hk.2] at h1
    obtain ⟨p, b, h3, h4⟩ := ih _ hm _ (root_join hk) hn q st h1
    exact ⟨k :: p, b, by rw [h3, below_cons], .inside hm h4⟩

mutual
theorem known (c : Cfg) : ∀ n : Node, Known c n
  | .leaf st b => fun root _ _ q st' h => by
    unfold visit at h
    cases h
  | .dir st kids => known_dir (knownAll c kids)
theorem knownAll (c : Cfg) : ∀ l : List (Str × Node), ∀ e ∈ l, Known c e.2
  | [], _, h => nomatch h
  | (k, n) :: l, e, h => by
    cases h with
    | head => exact known c n
    | tail _ h => exact knownAll c l e h
end

/-! ## Text -/

/-- The line of a path, outside of pseudo. -/
def row (c : Cfg) (e : Str × St) : Str := typeChar e.2.kind :: (userPerms e.2.mode ++ ' ' :: tailOf c e.1 e.2)

theorem lines_rows {c : Cfg} (ho : includeOwners c = false) (ht : includeTimes c = false) : ∀ l : List (Str × St),
    linesOf c l = some ((l.map fun e => row c e ++ ['\n']).flatten)
  | [] => rfl
  | (p, st) :: l => by
    show (match line c p st, linesOf c l with
      | some a, some b => some (a ++ '\n' :: b)
      | _, _ => none) = _
    rw [lines_rows ho ht l, line_plain ho ht, List.map_cons, List.flatten_cons, List.append_assoc]
    rfl

theorem rows_inj {α β : Type} (f : α → Str) (g : β → Str) : ∀ {l : List α} {m : List β}, (∀ e ∈ l, '\n' ∉ f e) → (∀ e ∈ m, '\n' ∉ g e) →
    (l.map fun e => f e ++ ['\n']).flatten = (m.map fun e => g e ++ ['\n']).flatten → l.map f = m.map g
  | [], [], _, _, _ => rfl
  | [], e :: m, _, _, h => by
    rw [List.map_cons, List.flatten_cons, List.append_assoc] at h
    exact absurd (List.append_eq_nil_iff.1 h.symm).2 (List.cons_ne_nil _ _)
  | e :: l, [], _, _, h => by
    rw [List.map_cons, List.flatten_cons, List.append_assoc] at h
    exact absurd (List.append_eq_nil_iff.1 h).2 (List.cons_ne_nil _ _)
  | a :: l, b :: m, hl, hm, h => by
    rw [List.map_cons, List.flatten_cons, List.append_assoc, List.map_cons, List.flatten_cons, List.append_assoc] at h
    obtain ⟨h1, h2⟩ := split_stop (hl a List.mem_cons_self) (hm b List.mem_cons_self) h
    rw [List.map_cons, List.map_cons, h1,
      rows_inj f g (fun x hx => hl x (List.mem_cons_of_mem _ hx)) (fun x hx => hm x (List.mem_cons_of_mem _ hx)) h2]

theorem blanks_line (k : Nat) : '\n' ∉ List.replicate k ' ' := by
  intro h
  exact absurd (List.eq_of_mem_replicate h) (by decide)

theorem rjust_line {s : Str} {k : Nat} (h : '\n' ∉ s) : '\n' ∉ rjust s k ' ' := by
  unfold rjust
  intro hm
  rcases List.mem_append.1 hm with hm | hm
  · exact blanks_line _ hm
  · exact h hm

theorem app_line {a b : Str} (ha : '\n' ∉ a) (hb : '\n' ∉ b) : '\n' ∉ a ++ b := fun h =>
  (List.mem_append.1 h).elim ha hb

theorem cons_line {x : Char} {b : Str} (hx : '\n' ≠ x) (hb : '\n' ∉ b) : '\n' ∉ x :: b := fun h =>
  (List.mem_cons.1 h).elim hx hb

theorem row_line {c : Cfg} (hs : Checksum c.sha) {e : Str × St} (hp : '\n' ∉ e.1) (ht : ∀ t, e.2.kind = .lnk t → '\n' ∉ t) :
    '\n' ∉ row c e := by
  obtain ⟨p, st⟩ := e
  have hdev : ∀ a b, '\n' ∉ rjust (dec a ++ '.' :: dec b) 9 ' ' := fun a b =>
    rjust_line (app_line (digit_not rfl) (cons_line (by decide) (digit_not rfl)))
  unfold row tailOf
  refine cons_line ?_ (app_line ?_ (cons_line (by decide) (app_line ?_ (cons_line (by decide) (app_line ?_ (cons_line (by decide)
    (app_line ?_ (cons_line (by decide) (app_line hp ?_)))))))))
  · dsimp only
    cases st.kind <;> (dsimp only [typeChar]; decide)
  · unfold userPerms perm
    dsimp only
    cases st.mode.rusr <;> cases st.mode.wusr <;> cases st.mode.xusr <;> cases st.mode.suid <;> decide
  · dsimp only
    cases st.kind
    case chr a b => exact hdev a b
    case blk a b => exact hdev a b
    all_goals exact blanks_line 9
  · dsimp only
    cases st.kind
    case reg s =>
      show '\n' ∉ if filtered c p = true then _ else _
      split
      · exact blanks_line 10
      · exact rjust_line (digit_not rfl)
    all_goals exact blanks_line 10
  · dsimp only
    cases st.kind
    case reg s => exact (hs _).2
    all_goals exact blanks_line 64
  · dsimp only at ht ⊢
    cases hk : st.kind
    case lnk t => exact app_line (by decide) (ht t hk)
    all_goals exact List.not_mem_nil

theorem below_line {x : Char} {root : Str} {p : List Str} (hr : x ∉ root) (hx : x ≠ '/') (hp : ∀ k ∈ p, x ∉ k) : x ∉ below root p := by
  unfold below
  intro h
  rcases List.mem_append.1 h with h | h
  · exact hr h
  · obtain ⟨l, h1, h2⟩ := List.mem_flatten.1 h
    obtain ⟨k, hk, rfl⟩ := List.mem_map.1 h1
    rcases List.mem_cons.1 h2 with h2 | h2
    · exact hx h2
    · exact hp k hk h2

theorem dot_ok : RootOk ".".toList := ⟨by decide, by decide⟩

/-! ## C211 -/

/-- **C211.**  If two outputs of a task have the same hashed text, then each path of the one is a path of the other, and what is
there has the same type, the same permissions of the owner, the same target or device, and a content of the same length and
checksum.  That is for builds outside of pseudo and for tasks other than `package`, and if no name or target has a line break,
no link has a `>` in its path and no file is called `fixmepath`; see `text_twice`, `group_lost` and `fixme_lost` for what is
missing. -/
theorem text_tells_partial (c : Cfg) (n m : Node) (hs : Checksum c.sha) (hp : c.pseudo ≠ some "0".toList)
    (ht : c.task ≠ "package".toList) (hn : Ok n) (hm : Ok m) (hnd : n.about.1.kind = .dir)
    (pn : Plain n) (pm : Plain m) (h : outText c n = outText c m) (p : List Str) (st : St) (b : Bool) (ha : At n p (st, b)) :
    ∃ st' b', At m p (st', b') ∧ Looks c (pathText p) st st' := by
  have ho : includeOwners c = false := by
    unfold includeOwners
    rw [beq_eq_false_iff_ne.2 hp, Bool.false_and]
  have hi : includeTimes c = false := by
    unfold includeTimes
    rw [beq_eq_false_iff_ne.2 ht]
  have hr : includeRoot c = true := by
    unfold includeRoot
    rw [beq_eq_false_iff_ne.2 ht]
    rfl
  unfold outText at h
  rw [lines_rows ho hi, lines_rows ho hi, Option.map_some, Option.map_some] at h
  have h := List.append_cancel_left (Option.some.inj h)
  have plain : ∀ {n : Node}, Ok n → Plain n → ∀ e ∈ visit c ".".toList n, '\n' ∉ row c e := by
    intro n hn pn ⟨q, s⟩ he
    obtain ⟨p, b, rfl, h2⟩ := known c n _ dot_ok hn q s he
    obtain ⟨g1, g2, -⟩ := pn p s b h2
    exact row_line hs (below_line (by decide) (by decide) g1) fun t e => (g2 t e).1
  have h := rows_inj (row c) (row c) (plain hn pn) (plain hm pm) h
  have h1 := visit_all hr ha hn hnd _ dot_ok (pn p st b ha).2.2
  have h2 : row c (below ".".toList p, st) ∈ (visit c ".".toList m).map (row c) := h ▸ List.mem_map.2 ⟨_, h1, rfl⟩
  obtain ⟨⟨q, st'⟩, h3, h4⟩ := List.mem_map.1 h2
  obtain ⟨p', b', rfl, h5⟩ := known c m _ dot_ok hm q st' h3
  have gt : ∀ {n : Node} {p : List Str} {s : St} {b : Bool}, Plain n → At n p (s, b) → ∀ t, s.kind = .lnk t →
      '>' ∉ below ".".toList p := fun pn h t e => below_line (by decide) (by decide) ((pn _ _ _ h).2.1 t e).2
  obtain ⟨e1, e2⟩ := line_inj hs (gt pn ha) (gt pm h5) h4.symm
  have : p = p' := flat_inj (fun k hk => (at_names ha hn k hk).2) (fun k hk => (at_names h5 hm k hk).2)
    (List.append_cancel_left e1)
  subst this
  exact ⟨st', b', h5, e2⟩

/-- **C211, other tasks.**  The hashed texts of different tasks, or of outputs that are stored under different names, are
different. -/
theorem other_task (c c' : Cfg) (n m : Node) (t : Str) (hv : c.version = c'.version) (he : c.extra = c'.extra)
    (h1 : '\n' ∉ c.pkgspec ∧ '\n' ∉ c.task) (h2 : '\n' ∉ c'.pkgspec ∧ '\n' ∉ c'.task) (hn : outText c n = some t)
    (hm : outText c' m = some t) : c.pkgspec = c'.pkgspec ∧ c.task = c'.task := by
  unfold outText at hn hm
  cases e1 : linesOf c (visit c ".".toList n) with
  | none => rw [e1] at hn; cases hn
  | some a =>
    cases e2 : linesOf c' (visit c' ".".toList m) with
    | none => rw [e2] at hm; cases hm
    | some b =>
      rw [e1] at hn
      rw [e2] at hm
      have h := (Option.some.inj hn).trans (Option.some.inj hm).symm
      unfold header at h
      rw [hv, he] at h
      simp only [List.append_assoc] at h
      have h := List.append_cancel_left (List.append_cancel_left (List.append_cancel_left (List.append_cancel_left h)))
      rw [List.cons_append, List.cons_append] at h
      obtain ⟨e3, h⟩ := split_stop h1.1 h2.1 h
      have h := List.append_cancel_left h
      exact ⟨e3, (split_stop h1.2 h2.2 h).1⟩

/-! ### Examples -/

/-- A function that meets the condition on checksums. -/
def sha1 (s : Str) : Str := rjust ((s.filter (· ≠ '\n')).take 64) 64 'a'

theorem sha1_ok : Checksum sha1 := by
  intro s
  unfold sha1 rjust
  constructor
  · rw [List.length_append, List.length_replicate]
    have := List.length_take_le 64 (s.filter (· ≠ '\n'))
    omega
  · intro h
    rcases List.mem_append.1 h with h | h
    · exact absurd (List.eq_of_mem_replicate h) (by decide)
    · have := (List.mem_filter.1 (List.mem_of_mem_take h)).2
      exact absurd this (by decide)

def cfg1 : Cfg := { cfg0 with sha := sha1 }

/-- A changed content is noticed. -/
example : outText cfg1 tree0 ≠ outText cfg1 (.dir (dirSt 1) [("a".toList, file mode0 "z" 1),
    ("d".toList, .dir (dirSt 2) [("b".toList, file mode0 "yy" 3)]), ("l".toList, .leaf (linkSt "d") true)]) := by
  decide +kernel

def one (k : String) (n : Node) : Node := .dir (dirSt 0) [(k.toList, n)]

/-- **C211, what does not hold.**  A link `a` to `b -> c` and a link `a -> b` to `c` have the same text, and so have a link `a`
to `-> c` and a link `a ->` to `c`. -/
theorem text_twice :
    outText cfg1 (one "a" (.leaf (linkSt "b -> c") false)) = outText cfg1 (one "a -> b" (.leaf (linkSt "c") false)) ∧
      outText cfg1 (one "a" (.leaf (linkSt "-> c") false)) = outText cfg1 (one "a ->" (.leaf (linkSt "c") false)) := by
  decide +kernel

/-- **C211, what does not hold.**  If others may read a file or not does not matter, nor if the group may run a program with
the rights of the group. -/
theorem group_lost : outText cfg1 (one "a" (file mode0 "x" 0)) = outText cfg1 (one "a" (file mode1 "x" 0)) ∧
    outText cfg1 (one "a" (file { mode0 with xgrp := true, sgid := true } "x" 0)) = outText cfg1 (one "a" (file mode0 "x" 0)) := by
  decide +kernel

/-- **C211, what does not hold.**  A file with the name `fixmepath` is not looked at, in any directory. -/
theorem fixme_lost : outText cfg1 (one "d" (one "fixmepath" (file mode0 "x" 0))) =
    outText cfg1 (one "d" (one "fixmepath" (file mode0 "other" 0))) := by
  decide +kernel

/-- The tree of the example is plain. -/
theorem tree0_plain : Plain tree0 := by
  intro p st b h
  unfold tree0 at h
  cases p with
  | nil =>
    cases at_nil.1 h
    exact ⟨(fun k hk => nomatch hk), (fun t e => nomatch e), (fun e => nomatch e)⟩
  | cons k p =>
    obtain ⟨n, hm, h⟩ := at_cons.1 h
    simp only [List.mem_cons, List.not_mem_nil, or_false, Prod.mk.injEq] at hm
    rcases hm with ⟨rfl, rfl⟩ | ⟨rfl, rfl⟩ | ⟨rfl, rfl⟩
    · cases h
      exact ⟨by decide, (fun t e => nomatch e), fun _ => by decide⟩
    · cases p with
      | nil =>
        cases at_nil.1 h
        exact ⟨by decide, (fun t e => nomatch e), (fun e => nomatch e)⟩
      | cons k p =>
        obtain ⟨n, hm, h⟩ := at_cons.1 h
        simp only [List.mem_cons, List.not_mem_nil, or_false, Prod.mk.injEq] at hm
        obtain ⟨rfl, rfl⟩ := hm
        cases h
        exact ⟨by decide, (fun t e => nomatch e), fun _ => by decide⟩
    · cases h
      refine ⟨by decide, ?_, (fun e => nomatch e)⟩
      intro t e
      cases e
      decide

end Isar.Outhash
