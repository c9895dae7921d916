import Verif.Bb.BBProps
/-!
# Lines of recipes and classes
-/

namespace Bb.BB
open Py Spec

/-! ## Words at the beginning -/

theorem head_last {s : Str} {n : Option Str} {py fr : Bool} (h : Head s n py fr) : s.getLast? = some '{' := by
  induction h with
  | @plain n w1 w2 w3 =>
    have : n ++ (w1 ++ '(' :: (w2 ++ ')' :: (w3 ++ ['{']))) = (n ++ (w1 ++ '(' :: (w2 ++ ')' :: w3))) ++ ['{'] := by
      simp only [List.append_assoc, List.cons_append]
    rw [this, List.getLast?_concat]
  | @python w s n p f hw hh hn _ ih =>
    rw [List.getLast?_append, List.getLast?_append, ih]; rfl
  | @fakeroot w s n p f hw hh hn _ ih =>
    rw [List.getLast?_append, List.getLast?_append, ih]; rfl

/-- A line that begins with a word, white space, and something that is not a parenthesis is not a function. -/
theorem no_head {w y r : Str} (hw : w.all funcChar = true) (hp : w ≠ "python".toList) (hf : w ≠ "fakeroot".toList) (hy : y ≠ [])
    (hyw : White y) (hr : ∀ c t, r = c :: t → isWs c = false) (hn : r.head? ≠ some '(') (n : Option Str) (py fr : Bool) :
    ¬ Head (w ++ (y ++ r)) n py fr := by
  have hz : ∀ c t, y ++ r = c :: t → funcChar c = false := by
    intro c t h
    cases y with
    | nil => exact absurd rfl hy
    | cons a y => injection h with h _; exact funcChar_ws (Or.inl (h ▸ hyw a List.mem_cons_self))
  intro h
  generalize he : w ++ (y ++ r) = s at h
  cases h with
  | @plain m w1 w2 w3 h1 h2 h3 h4 h5 h6 =>
    have h7 := name_of hw hz (List.all_eq_true.2 fun c hc => funcChar_iff.2 (h1 c hc)) (tail_char h4) he
    have h8 := Conf.white_prefix hyw h4 hr (fun c t h => head_of paren_not_ws.1 h) h7.2
    exact hn (by rw [h8.2]; rfl)
  | @python w' s' _ p _ hw' hh hs hH =>
    refine hp (name_of hw hz (by decide) ?_ he).1
    intro c u h
    cases w' with
    | cons a w' => injection h with h _; exact funcChar_ws (Or.inl (h ▸ hw' a List.mem_cons_self))
    | nil =>
      rcases hh with hh | hh
      · exact absurd rfl hh
      · have h : s' = c :: u := h
        rw [h] at hh; injection hh with hh; exact funcChar_ws (Or.inr hh)
  | @fakeroot w' s' _ _ f hw' hh hs hH =>
    refine hf (name_of hw hz (by decide) ?_ he).1
    intro c u h
    cases w' with
    | cons a w' => injection h with h _; exact funcChar_ws (Or.inl (h ▸ hw' a List.mem_cons_self))
    | nil => exact absurd rfl hh

theorem rest_none {w s : Str} (h : startsWith s w = false) : Conf.rest w s = none := by
  unfold Conf.rest
  rw [Conf.keyword_none h]; rfl

theorem def_none {s : Str} (h : startsWith s "def".toList = false) : defStart s = none := by
  unfold defStart
  rw [Conf.keyword_none h]; rfl

theorem task_none {s : Str} (h : startsWith s "addtask".toList = false) : addTask s = none := by
  unfold addTask
  rw [Conf.keyword_none h]; rfl

/-- C140: the statements of classes and recipes are told by their first word. -/
theorem keyword_lines (c : Str) {y r : Str} (hy : y ≠ []) (hyw : White y) (hr : r ≠ []) (hrw : ∀ d t, r = d :: t → isWs d = false)
    (hp : r.head? ≠ some '(') :
    Single c ("EXPORT_FUNCTIONS".toList ++ (y ++ r)) (.exportFuncs r c) ∧
    Single c ("deltask".toList ++ (y ++ r)) (.delTask r) ∧
    Single c ("addhandler".toList ++ (y ++ r)) (.addHandler r) ∧
    Single c ("inherit".toList ++ (y ++ r)) (.inherit r) ∧
    Single c ("inherit_defer".toList ++ (y ++ r)) (.inheritDefer r) := by
  have hk : ∀ w : Str, Conf.rest w (w ++ (y ++ r)) = some r := fun w =>
    Conf.rest_iff.2 ⟨y, (List.append_assoc _ _ _).symm, hy, hyw, hr, Conf.head_iff.1 hrw⟩
  have hf : ∀ w : Str, w.all funcChar = true → w ≠ "python".toList → w ≠ "fakeroot".toList →
      funcStart ((w ++ (y ++ r)).length + 1) false false (w ++ (y ++ r)) = none := fun w h1 h2 h3 =>
    funcStart_none.2 (no_head h1 h2 h3 hy hyw hrw hp)
  refine ⟨?_, ?_, ?_, ?_, ?_⟩
  · unfold Single statement
    rw [hf "EXPORT_FUNCTIONS".toList (by decide) (by decide) (by decide)]
    dsimp only
    rw [def_none rfl]
    dsimp only
    rw [hk]; rfl
  · unfold Single statement
    rw [hf "deltask".toList (by decide) (by decide) (by decide)]
    dsimp only
    rw [def_none rfl]
    dsimp only
    rw [rest_none (w := "EXPORT_FUNCTIONS".toList) rfl, task_none rfl]
    dsimp only
    rw [hk]
  · unfold Single statement
    rw [hf "addhandler".toList (by decide) (by decide) (by decide)]
    dsimp only
    rw [def_none rfl]
    dsimp only
    rw [rest_none (w := "EXPORT_FUNCTIONS".toList) rfl, task_none rfl]
    dsimp only
    rw [rest_none (w := "deltask".toList) rfl]
    dsimp only
    rw [hk]
  · unfold Single statement
    rw [hf "inherit".toList (by decide) (by decide) (by decide)]
    dsimp only
    rw [def_none rfl]
    dsimp only
    rw [rest_none (w := "EXPORT_FUNCTIONS".toList) rfl, task_none rfl]
    dsimp only
    rw [rest_none (w := "deltask".toList) rfl]
    dsimp only
    rw [rest_none (w := "addhandler".toList) rfl]
    dsimp only
    rw [hk]
  · have hi : Conf.rest "inherit".toList ("inherit_defer".toList ++ (y ++ r)) = none := rfl
    unfold Single statement
    rw [hf "inherit_defer".toList (by decide) (by decide) (by decide)]
    dsimp only
    rw [def_none rfl]
    dsimp only
    rw [rest_none (w := "EXPORT_FUNCTIONS".toList) rfl, task_none rfl]
    dsimp only
    rw [rest_none (w := "deltask".toList) rfl]
    dsimp only
    rw [rest_none (w := "addhandler".toList) rfl]
    dsimp only
    rw [hi]
    dsimp only
    rw [hk]

/-! ## Assignments -/

theorem word_not_ws {c : Char} (h : wordChar c = true) : isWs c = false := by
  cases hx : isWs c with
  | false => rfl
  | true =>
    have := funcChar_ws (Or.inl hx)
    unfold funcChar at this
    rw [h] at this
    cases this

theorem after_char {rest : Str} {flag : Option Str} {op : Conf.Op} {x : Str} (h : Conf.After rest flag op x) :
    ∃ c r, rest = c :: r ∧ wordChar c = false := by
  obtain ⟨t, rfl, ht, _⟩ := h
  cases flag with
  | some f => exact ⟨'[', _, rfl, by decide⟩
  | none =>
    obtain ⟨c, r, rfl, hc⟩ := Conf.tail_head ht
    refine ⟨c, r, rfl, ?_⟩
    rcases hc with hc | rfl | rfl | rfl | rfl | rfl
    · cases h : wordChar c with
      | false => rfl
      | true => rw [word_not_ws h] at hc; cases hc
    all_goals decide

/-- A variable at the beginning of a line, and a word there. -/
theorem same_word {v rest w y t : Str} (h : v ++ rest = w ++ (y ++ t)) (hw : w.all wordChar = true) (hy : y ≠ []) (hyw : White y)
    (hv : v.all Conf.varChar = true) (hr : ∃ c r, rest = c :: r ∧ wordChar c = false) : v = w ∧ rest = y ++ t := by
  obtain ⟨c, r, hr, hc⟩ := hr
  rcases List.append_eq_append_iff.1 h with ⟨a, h1, h2⟩ | ⟨a, h1, h2⟩
  · cases a with
    | nil => rw [List.append_nil] at h1; exact ⟨h1.symm, h2⟩
    | cons d a =>
      exfalso
      rw [hr] at h2
      injection h2 with h2 _
      rw [h1, List.all_append, List.all_cons, Bool.and_eq_true, Bool.and_eq_true] at hw
      rw [h2, hw.2.1] at hc; cases hc
  · cases a with
    | nil => rw [List.append_nil] at h1; exact ⟨h1, h2.symm⟩
    | cons d a =>
      exfalso
      cases y with
      | nil => exact hy rfl
      | cons b y =>
        injection h2 with h2 _
        have h3 : Conf.varChar d = true := List.all_eq_true.1 hv d (by rw [h1]; exact List.mem_append_right _ List.mem_cons_self)
        have h4 := hyw b List.mem_cons_self
        rw [h2, (Conf.varChar_ws h3).1] at h4; cases h4

/-- The first words that are not variables. -/
def reserved : List Str :=
  ["EXPORT_FUNCTIONS".toList, "deltask".toList, "addhandler".toList, "inherit".toList, "inherit_defer".toList]

theorem assignment_keyword {s : Str} {g : Conf.Groups} {w0 w1 w2 : Str} {q : Char} (h : Conf.Spec.Assignment s g w0 w1 w2 q)
    {w r : Str} (hw : w.all wordChar = true) (hx : w ≠ "export".toList) (hk : Conf.keyword w s = some r) :
    g.exp = false ∧ g.var = w ∧ ∀ c t, r = c :: t → wordChar c = false := by
  obtain ⟨rest, hs, hwh, z, hz⟩ := Conf.whole_of h
  obtain ⟨y, e, hy, hyw, hr⟩ := Conf.keyword_iff.1 hk
  cases he : g.exp with
  | true =>
    rw [if_pos he, List.append_assoc] at hs
    exfalso
    have hwy : ∀ c t, w0 ++ (g.var ++ rest) = c :: t → funcChar c = false := by
      intro c t hct
      cases hw0 : w0 with
      | nil => exact absurd hw0 (h.exported he)
      | cons a w' =>
        rw [hw0] at hct
        injection hct with hct _
        exact funcChar_ws (Or.inl (hct ▸ h.white.1 a (by rw [hw0]; exact List.mem_cons_self)))
    have hyy : ∀ c t, y ++ r = c :: t → funcChar c = false := by
      intro c t hct
      cases y with
      | nil => exact absurd rfl hy
      | cons a y => injection hct with hct _; exact funcChar_ws (Or.inl (hct ▸ hyw a List.mem_cons_self))
    rw [e] at hs
    refine hx (name_of ?_ hyy (by decide) hwy hs).1
    refine List.all_eq_true.2 fun c hc => ?_
    unfold funcChar
    rw [List.all_eq_true.1 hw c hc]; rfl
  | false =>
    rw [if_neg (by rw [he]; exact Bool.false_ne_true)] at hs
    have hs : s = g.var ++ rest := hs
    rw [e] at hs
    have h1 := same_word hs.symm hw hy hyw hwh.2.2.1 (after_char hwh.2.2.2)
    refine ⟨rfl, h1.1, ?_⟩
    -- what follows the white space is the operator
    obtain ⟨t, ht, ⟨a1, a2, u, ha1, ha2, et, _⟩, _⟩ := hwh.2.2.2
    intro c t' hct
    cases hfl : g.flag with
    | some f =>
      rw [hfl] at ht
      have : rest = '[' :: (f ++ ([']'] ++ t)) := by
        rw [ht]; show _ = _; simp [Conf.flagText]
      rw [h1.2] at this
      cases y with
      | nil => exact absurd rfl hy
      | cons b y =>
        injection this with this _
        have hb := hyw b List.mem_cons_self
        rw [this] at hb; exact absurd hb (by decide)
    | none =>
      rw [hfl] at ht
      have ht : rest = t := ht
      obtain ⟨o, ro, ho, how, _⟩ := Conf.op_head g.op
      have h2 := Conf.white_prefix hyw ha1 hr (x := r) (y := Conf.Spec.written g.op ++ (a2 ++ u)) (fun c t h => by
        rw [ho] at h; injection h with h _; rw [← h]; exact how) (by rw [← h1.2, ht, et])
      rw [h2.2] at hct
      cases hop : g.op <;> rw [hop] at hct <;> (injection hct with hct _; rw [← hct]; decide)

/-- C140: in recipes and classes, an assignment is what it is in configuration files, if the variable is not called like
another statement. -/
theorem assignment_line (c : Str) {s : Str} {g : Conf.Groups} {w0 w1 w2 : Str} {q : Char} (h : Conf.Spec.Assignment s g w0 w1 w2 q)
    (hg : ¬ Conf.Spec.Glued g w1) (hx : ¬ Conf.Spec.Exporting g w1) (hn : g.var ∉ reserved) :
    Single c s (.conf (.data g)) := by
  have hnone : ∀ w : Str, w.all wordChar = true → w ≠ "export".toList → w ∈ reserved → Conf.rest w s = none := by
    intro w h1 h2 h3
    unfold Conf.rest
    rcases hk : Conf.keyword w s with _ | r
    · rfl
    · exact absurd ((assignment_keyword h h1 h2 hk).2.1 ▸ h3) hn
  have hhead : funcStart (s.length + 1) false false s = none := by
    refine funcStart_none.2 fun n py fr hH => ?_
    have h1 := head_last hH
    have h2 : s.getLast? = some q := by
      rw [h.text]
      have : ∀ a b d e f : Str, (a ++ (b ++ (d ++ (e ++ (f ++ (w2 ++ q :: g.value ++ [q]))))))
          = (a ++ (b ++ (d ++ (e ++ (f ++ (w2 ++ q :: g.value)))))) ++ [q] := by
        intro a b d e f
        simp only [List.append_assoc]
      rw [this, List.getLast?_concat]
    rw [h1] at h2
    injection h2 with h2
    rcases h.quote with h3 | h3 <;> rw [h3] at h2 <;> exact absurd h2 (by decide)
  have hdef : defStart s = none := by
    unfold defStart
    rcases hk : Conf.keyword "def".toList s with _ | r
    · rfl
    · have h1 := (assignment_keyword h (by decide) (by decide) hk).2.2
      show (if _ then _ else _) = _
      rw [if_neg]
      rintro ⟨h2, _⟩
      cases r with
      | nil => exact h2 rfl
      | cons a r => exact h2 (by rw [List.takeWhile_cons, if_neg (by rw [h1 a r rfl]; exact Bool.false_ne_true)])
  have htask : addTask s = none := by
    unfold addTask
    rcases hk : Conf.keyword "addtask".toList s with _ | r
    · rfl
    · have h1 := (assignment_keyword h (by decide) (by decide) hk).2.2
      show (if _ then _ else _) = _
      rw [if_pos]
      cases r with
      | nil => rfl
      | cons a r => rw [List.takeWhile_cons, if_neg (by rw [h1 a r rfl]; exact Bool.false_ne_true)]
  unfold Single statement
  rw [hhead]
  dsimp only
  rw [hdef]
  dsimp only
  rw [hnone "EXPORT_FUNCTIONS".toList (by decide) (by decide) (by decide), htask]
  dsimp only
  rw [hnone "deltask".toList (by decide) (by decide) (by decide)]
  dsimp only
  rw [hnone "addhandler".toList (by decide) (by decide) (by decide)]
  dsimp only
  rw [hnone "inherit".toList (by decide) (by decide) (by decide)]
  dsimp only
  rw [hnone "inherit_defer".toList (by decide) (by decide) (by decide)]
  dsimp only
  rw [Conf.feeder_data (Conf.config_exact h hg hx)]

/-- Against C140: a variable that is called like a statement. -/
theorem inherit_variable (c : Str) : Single c "inherit = \"x\"".toList (.inherit "= \"x\"".toList) ∧
    Single c "inherit=\"x\"".toList (.conf (.data ⟨false, "inherit".toList, none, .set, "x".toList⟩)) := by
  constructor <;> rfl

/-! ## The order of tasks -/

theorem upToLast_none {w : Str} (hw : w ≠ []) : ∀ {s : Str}, upToLast w s = none ↔ isSub w s = false
  | [] => by
    constructor
    · intro _
      cases h : isSub w [] with
      | false => rfl
      | true =>
        obtain ⟨a, b, hab⟩ := isSub_iff.1 h
        cases a <;> cases w <;> first | exact absurd rfl hw | cases hab
    · intro _; rfl
  | c :: s => by
    have ih := upToLast_none hw (s := s)
    show (match upToLast w s with
      | some (a, b) => some (c :: a, b)
      | none => if startsWith (c :: s) w then some ([], c :: s) else none) = none ↔ _
    have hsub : isSub w (c :: s) = (startsWith (c :: s) w || isSub w s) := rfl
    rw [hsub, Bool.or_eq_false_iff]
    rcases hu : upToLast w s with _ | ⟨a, b⟩
    · dsimp only
      rw [hu] at ih
      cases hs : startsWith (c :: s) w with
      | true =>
        rw [if_pos rfl]
        exact ⟨fun h => (nomatch h), fun h => (nomatch h.1)⟩
      | false =>
        rw [if_neg Bool.false_ne_true]
        exact ⟨fun _ => ⟨rfl, ih.1 rfl⟩, fun _ => rfl⟩
    · dsimp only
      rw [hu] at ih
      exact ⟨fun h => (nomatch h), fun h => (nomatch ih.2 h.2)⟩

theorem upToLast_append {w t t' : Str} {c : Char} (ht : t = c :: t') (hs : startsWith t w = true) (hn : upToLast w t' = none) :
    ∀ x : Str, upToLast w (x ++ t) = some (x, t)
  | [] => by
    subst ht
    show (match upToLast w t' with
      | some (a, b) => some (c :: a, b)
      | none => if startsWith (c :: t') w then some ([], c :: t') else none) = _
    rw [hn]
    dsimp only
    rw [if_pos hs]
  | a :: x => by
    show (match upToLast w (x ++ t) with
      | some (a', b) => some (a :: a', b)
      | none => if startsWith (a :: (x ++ t)) w then some ([], a :: (x ++ t)) else none) = _
    rw [upToLast_append ht hs hn x]

theorem last_after {y : Str} (h : isSub "after".toList y = false) (x : Str) :
    upToLast "after".toList (x ++ ("after".toList ++ y)) = some (x, "after".toList ++ y) := by
  refine upToLast_append (c := 'a') (t' := "fter".toList ++ y) rfl (startsWith_iff.2 ⟨y, rfl⟩) ?_ x
  rw [upToLast_none (by decide)]
  show isSub "after".toList ('f' :: 't' :: 'e' :: 'r' :: y) = false
  have h1 : ∀ (c : Char) (s : Str), c ≠ 'a' → isSub "after".toList (c :: s) = isSub "after".toList s := by
    intro c s hc
    show (startsWith (c :: s) "after".toList || isSub "after".toList s) = _
    have : startsWith (c :: s) "after".toList = false := by
      cases hx : startsWith (c :: s) "after".toList with
      | false => rfl
      | true =>
        obtain ⟨z, hz⟩ := startsWith_iff.1 hx
        injection hz with hz _
        exact absurd hz hc
    rw [this, Bool.false_or]
  rw [h1 _ _ (by decide), h1 _ _ (by decide), h1 _ _ (by decide), h1 _ _ (by decide), h]

theorem last_before {y : Str} (h : isSub "before".toList y = false) (x : Str) :
    upToLast "before".toList (x ++ ("before".toList ++ y)) = some (x, "before".toList ++ y) := by
  refine upToLast_append (c := 'b') (t' := "efore".toList ++ y) rfl (startsWith_iff.2 ⟨y, rfl⟩) ?_ x
  rw [upToLast_none (by decide)]
  show isSub "before".toList ('e' :: 'f' :: 'o' :: 'r' :: 'e' :: y) = false
  have h1 : ∀ (c : Char) (s : Str), c ≠ 'b' → isSub "before".toList (c :: s) = isSub "before".toList s := by
    intro c s hc
    show (startsWith (c :: s) "before".toList || isSub "before".toList s) = _
    have : startsWith (c :: s) "before".toList = false := by
      cases hx : startsWith (c :: s) "before".toList with
      | false => rfl
      | true =>
        obtain ⟨z, hz⟩ := startsWith_iff.1 hx
        injection hz with hz _
        exact absurd hz hc
    rw [this, Bool.false_or]
  rw [h1 _ _ (by decide), h1 _ _ (by decide), h1 _ _ (by decide), h1 _ _ (by decide), h1 _ _ (by decide), h]

/-- A text that does not begin with white space. -/
def Tight (x : Str) : Prop := ∀ c t, x = c :: t → isWs c = false

theorem order_before {n : Nat} {b a : Option Str} {y x : Str} (hy : White y) (hx : Tight x) (h : isSub "after".toList x = false) :
    taskOrder (n + 1) b a ("before".toList ++ (y ++ x)) = (some x, a) := by
  show (match upToLast "after".toList (lstrip (y ++ x)) with
      | some (z, r) => taskOrder n (some z) a r
      | none => (some (lstrip (y ++ x)), a)) = _
  rw [Conf.lstrip_white hy hx, (upToLast_none (by decide)).2 h]

theorem order_after {n : Nat} {b a : Option Str} {y x : Str} (hy : White y) (hx : Tight x) (h : isSub "before".toList x = false) :
    taskOrder (n + 1) b a ("after".toList ++ (y ++ x)) = (b, some x) := by
  show (match upToLast "before".toList (lstrip (y ++ x)) with
      | some (z, r) => taskOrder n b (some z) r
      | none => (b, some (lstrip (y ++ x)))) = _
  rw [Conf.lstrip_white hy hx, (upToLast_none (by decide)).2 h]

theorem isSub_append {w y x : Str} (h : isSub w (y ++ x) = false) : isSub w x = false := by
  cases hx : isSub w x with
  | false => rfl
  | true =>
    obtain ⟨a, b, e⟩ := isSub_iff.1 hx
    have : isSub w (y ++ x) = true := isSub_iff.2 ⟨y ++ a, b, by rw [e]; simp only [List.append_assoc]⟩
    rw [this] at h; cases h

theorem order_both {n : Nat} {b a : Option Str} {y x y2 x2 : Str} (hy : White y) (hx : Tight x) (hx0 : x ≠ []) (hy2 : White y2) (hx2 : Tight x2)
    (h1 : isSub "after".toList (y2 ++ x2) = false) (h2 : isSub "before".toList x2 = false) :
    taskOrder (n + 2) b a ("before".toList ++ (y ++ (x ++ ("after".toList ++ (y2 ++ x2))))) = (some x, some x2) := by
  have ht : Tight (x ++ ("after".toList ++ (y2 ++ x2))) := by
    intro c t h
    cases x with
    | nil => exact absurd rfl hx0
    | cons d x => injection h with h _; exact hx c x (by rw [h])
  show (match upToLast "after".toList (lstrip (y ++ (x ++ ("after".toList ++ (y2 ++ x2))))) with
      | some (z, r) => taskOrder (n + 1) (some z) a r
      | none => (some (lstrip (y ++ (x ++ ("after".toList ++ (y2 ++ x2))))), a)) = _
  rw [Conf.lstrip_white hy ht, last_after h1]
  exact order_after hy2 hx2 h2

theorem order_both' {n : Nat} {b a : Option Str} {y x y2 x2 : Str} (hy : White y) (hx : Tight x) (hx0 : x ≠ []) (hy2 : White y2) (hx2 : Tight x2)
    (h1 : isSub "before".toList (y2 ++ x2) = false) (h2 : isSub "after".toList x2 = false) :
    taskOrder (n + 2) b a ("after".toList ++ (y ++ (x ++ ("before".toList ++ (y2 ++ x2))))) = (some x2, some x) := by
  have ht : Tight (x ++ ("before".toList ++ (y2 ++ x2))) := by
    intro c t h
    cases x with
    | nil => exact absurd rfl hx0
    | cons d x => injection h with h _; exact hx c x (by rw [h])
  show (match upToLast "before".toList (lstrip (y ++ (x ++ ("before".toList ++ (y2 ++ x2))))) with
      | some (z, r) => taskOrder (n + 1) b (some z) r
      | none => (b, some (lstrip (y ++ (x ++ ("before".toList ++ (y2 ++ x2))))))) = _
  rw [Conf.lstrip_white hy ht, last_before h1]
  exact order_before hy2 hx2 h2

/-- What stands after the name of the task: the tasks before which and after which it is to run. -/
inductive Order : Str → Option Str → Option Str → Prop
  | none : Order [] none none
  | before {y x : Str} : White y → Tight x → isSub "after".toList x = false → Order ("before".toList ++ (y ++ x)) (some x) none
  | after {y x : Str} : White y → Tight x → isSub "before".toList x = false → Order ("after".toList ++ (y ++ x)) none (some x)
  | both {y x y2 x2 : Str} : White y → Tight x → x ≠ [] → White y2 → Tight x2 → isSub "after".toList (y2 ++ x2) = false →
      isSub "before".toList x2 = false → Order ("before".toList ++ (y ++ (x ++ ("after".toList ++ (y2 ++ x2))))) (some x) (some x2)
  | both' {y x y2 x2 : Str} : White y → Tight x → x ≠ [] → White y2 → Tight x2 → isSub "before".toList (y2 ++ x2) = false →
      isSub "after".toList x2 = false → Order ("after".toList ++ (y ++ (x ++ ("before".toList ++ (y2 ++ x2))))) (some x2) (some x)

theorem order_ok {t : Str} {b a : Option Str} (h : Order t b a) (n : Nat) : taskOrder (n + 2) none none t = (b, a) := by
  cases h with
  | none => rfl
  | before h1 h2 h3 => exact order_before h1 h2 h3
  | after h1 h2 h3 => exact order_after h1 h2 h3
  | both h1 h2 h3 h4 h5 h6 h7 => exact order_both h1 h2 h3 h4 h5 h6 h7
  | both' h1 h2 h3 h4 h5 h6 h7 => exact order_both' h1 h2 h3 h4 h5 h6 h7

theorem order_tight {t : Str} {b a : Option Str} (h : Order t b a) : Tight t := by
  intro c u e
  cases h <;> first | (injection e with e _; rw [← e]; decide) | cases e

/-- C142: a line `addtask` gives the task, and the tasks before and after it, if the names do not have the words in
them. -/
theorem addtask_line (c : Str) {y f y2 t : Str} {b a : Option Str} (hy : y ≠ []) (hyw : White y) (hf : f ≠ [])
    (hfw : ∀ d, d ∈ f → WordChar d) (hy2 : White y2) (ht : t ≠ [] → y2 ≠ []) (h : Order t b a)
    (hbad : badTask ("addtask".toList ++ (y ++ (f ++ (y2 ++ t)))) = false) :
    Single c ("addtask".toList ++ (y ++ (f ++ (y2 ++ t)))) (.addTask f b a) := by
  have hall : f.all wordChar = true := List.all_eq_true.2 fun d hd => wordChar_iff.2 (hfw d hd)
  have hr : Tight (f ++ (y2 ++ t)) := by
    intro d u e
    cases f with
    | nil => exact absurd rfl hf
    | cons x f => injection e with e _; rw [← e]; exact word_not_ws (wordChar_iff.2 (hfw x List.mem_cons_self))
  have hp : (f ++ (y2 ++ t)).head? ≠ some '(' := by
    cases f with
    | nil => exact absurd rfl hf
    | cons x f =>
      intro e
      injection e with e
      have := wordChar_iff.2 (hfw x List.mem_cons_self)
      rw [e] at this; exact absurd this (by decide)
  have hk : Conf.keyword "addtask".toList ("addtask".toList ++ (y ++ (f ++ (y2 ++ t)))) = some (f ++ (y2 ++ t)) :=
    Conf.keyword_iff.2 ⟨y, rfl, hy, hyw, hr⟩
  have hd : ∀ d u, y2 ++ t = d :: u → wordChar d = false := by
    intro d u e
    cases y2 with
    | nil =>
      by_cases h0 : t = []
      · subst h0; cases e
      · exact absurd rfl (ht h0)
    | cons x y2 =>
      injection e with e _
      have := hy2 x List.mem_cons_self
      cases hw : wordChar d with
      | false => rfl
      | true => rw [e, word_not_ws hw] at this; cases this
  have h1 := Conf.takeWhile_dropWhile hall hd
  have hlen : ∃ n, ("addtask".toList ++ (y ++ (f ++ (y2 ++ t)))).length = n + 2 := ⟨_, rfl⟩
  obtain ⟨n, hlen⟩ := hlen
  have ha : addTask ("addtask".toList ++ (y ++ (f ++ (y2 ++ t)))) = some (f, b, a) := by
    unfold addTask
    rw [hk]
    show (if _ then _ else _) = _
    rw [h1.1, if_neg hf, h1.2, Conf.lstrip_white hy2 (order_tight h), hlen, order_ok h]
  unfold Single statement
  rw [funcStart_none.2 (no_head (w := "addtask".toList) (by decide) (by decide) (by decide) hy hyw hr hp)]
  dsimp only
  rw [def_none rfl]
  dsimp only
  rw [rest_none (w := "EXPORT_FUNCTIONS".toList) rfl, ha]
  dsimp only
  rw [hbad]
  rfl

example : Order "before do_build after do_a do_b".toList (some "do_build ".toList) (some "do_a do_b".toList) :=
  .both (y := [' ']) (x := "do_build ".toList) (y2 := [' ']) (x2 := "do_a do_b".toList) (by unfold White; decide)
    (by intro c t h; injection h with h _; subst h; decide) (by decide) (by unfold White; decide)
    (by intro c t h; injection h with h _; subst h; decide) (by decide) (by decide)

/-- Against C142: the words are found within the names of tasks. -/
theorem names_are_cut (c : Str) : Single c "addtask do_a before do_afterburn".toList
    (.addTask "do_a".toList (some "do_".toList) (some "burn".toList)) := by rfl

/-- Against C142: of two lists, the last is taken. -/
theorem lists_are_lost (c : Str) : Single c "addtask do_a before do_b after do_c before do_d".toList
    (.addTask "do_a".toList (some "do_d".toList) (some "do_c ".toList)) := by rfl

end Bb.BB
