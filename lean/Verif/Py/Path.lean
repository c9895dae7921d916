import Verif.Py.Str
/-!
# `posixpath` of Python: `normpath`, `join`, `dirname`, `splitext`, `relpath`

These functions of Python's standard library are used by the code and not part of it; they are
modelled after the Python source (3.11) and are part of what is trusted.
-/

namespace Py

/-- `.` -/
def dot : Str := ['.']
/-- `..` -/
def dotdot : Str := ['.', '.']

/-- `os.path.isabs`. -/
def isabs : Str → Bool
  | '/' :: _ => true
  | _ => false

/-- The number of slashes that `normpath` keeps at the beginning: POSIX allows two, three or more
count as one. -/
def initSlashes : Str → Nat
  | '/' :: '/' :: '/' :: _ => 1
  | '/' :: '/' :: _ => 2
  | '/' :: _ => 1
  | _ => 0

/-- One component in the loop of `normpath`; `a` says whether the path is absolute. -/
def normStep (a : Bool) (acc : List Str) (c : Str) : List Str :=
  if c = [] ∨ c = dot then acc
  else if c ≠ dotdot ∨ (a = false ∧ acc = []) ∨ acc.getLast? = some dotdot then acc ++ [c]
  else acc.dropLast

/-- The components of the normalised path. -/
def normComps (s : Str) : List Str := (splitOn '/' s).foldl (normStep (isabs s)) []

/-- `os.path.normpath`. -/
def normpath (s : Str) : Str :=
  let p := List.replicate (initSlashes s) '/' ++ join ['/'] (normComps s)
  if p = [] then dot else p

/-- `os.path.join(a, b)`. -/
def pathJoin (a b : Str) : Str :=
  if isabs b then b else if a = [] ∨ a.getLast? = some '/' then a ++ b else a ++ '/' :: b

/-- The text up to and including the last slash. -/
def headPart (s : Str) : Str := (s.reverse.dropWhile (· ≠ '/')).reverse
/-- The text after the last slash: `os.path.basename`. -/
def basename (s : Str) : Str := (s.reverse.takeWhile (· ≠ '/')).reverse

/-- `os.path.dirname`. -/
def dirname (s : Str) : Str :=
  let h := headPart s
  if h.all (· = '/') then h else (h.reverse.dropWhile (· = '/')).reverse

/-- `os.path.abspath` with the current directory `cwd`. -/
def abspath (cwd s : Str) : Str := normpath (if isabs s then s else pathJoin cwd s)

/-- `[x for x in s.split('/') if x]`. -/
def parts (s : Str) : List Str := (splitOn '/' s).filter (· ≠ [])

/-- The longest common prefix: the length of it. -/
def commonLen : List Str → List Str → Nat
  | a :: as, b :: bs => if a = b then commonLen as bs + 1 else 0
  | _, _ => 0

/-- `os.path.relpath(path, start)` with the current directory `cwd`. -/
def relpath (cwd path start : Str) : Str :=
  let s := parts (abspath cwd start)
  let p := parts (abspath cwd path)
  let i := commonLen s p
  let r := List.replicate (s.length - i) dotdot ++ p.drop i
  if r = [] then dot else join ['/'] r

/-- `os.path.splitext(s)[0]`: the text before the last dot of the last component, if there is a
character other than a dot before it in that component. -/
def splitextRoot (s : Str) : Str :=
  let b := basename s
  let pre := (b.reverse.dropWhile (· ≠ '.')).reverse.dropLast
  if b.contains '.' && pre.any (· ≠ '.') then headPart s ++ pre else s

/-! ### Components of absolute paths -/

/-- A proper file name. -/
def Clean (c : Str) : Prop := c ≠ [] ∧ c ≠ dot ∧ c ≠ dotdot ∧ '/' ∉ c

instance (c : Str) : Decidable (Clean c) := by unfold Clean; infer_instance

/-- The absolute path with the components `cs`. -/
def render (cs : List Str) : Str := '/' :: join ['/'] cs

theorem normStep_clean {a : Bool} {acc : List Str} {c : Str} (h : Clean c) :
    normStep a acc c = acc ++ [c] := by
  unfold normStep
  rw [if_neg (fun hc => hc.elim h.1 h.2.1), if_pos (Or.inl h.2.2.1)]

theorem foldl_normStep_clean {a : Bool} (cs : List Str) (h : ∀ c ∈ cs, Clean c) : ∀ acc,
    cs.foldl (normStep a) acc = acc ++ cs := by
  induction cs with
  | nil => intro acc; simp
  | cons c cs ih =>
    intro acc
    rw [List.foldl_cons, normStep_clean (h c List.mem_cons_self),
      ih (fun d hd => h d (List.mem_cons_of_mem _ hd))]
    simp

theorem normStep_skip {a : Bool} {acc : List Str} : normStep a acc [] = acc := by
  unfold normStep; rw [if_pos (Or.inl rfl)]

theorem normStep_dot {a : Bool} {acc : List Str} : normStep a acc dot = acc := by
  unfold normStep; rw [if_pos (Or.inr rfl)]

theorem normStep_dotdot {acc : List Str} (h : ∀ c ∈ acc, Clean c) :
    normStep true acc dotdot = acc.dropLast := by
  unfold normStep
  rw [if_neg (by decide), if_neg]
  rintro (hc | ⟨hc, _⟩ | hc)
  · exact hc rfl
  · cases hc
  · exact (h _ (List.mem_of_getLast? hc)).2.2.1 rfl

theorem normStep_all_clean {acc : List Str} {c : Str} (h : ∀ x ∈ acc, Clean x) (hc : '/' ∉ c) :
    ∀ x ∈ normStep true acc c, Clean x := by
  by_cases h0 : c = []
  · subst h0; rw [normStep_skip]; exact h
  by_cases h1 : c = dot
  · subst h1; rw [normStep_dot]; exact h
  by_cases h2 : c = dotdot
  · subst h2
    rw [normStep_dotdot h]
    exact fun x hx => h x (List.dropLast_subset _ hx)
  · rw [normStep_clean ⟨h0, h1, h2, hc⟩]
    intro x hx
    rcases List.mem_append.mp hx with hx' | hx'
    · exact h x hx'
    · rw [List.mem_singleton.mp hx']
      exact ⟨h0, h1, h2, hc⟩

theorem foldl_all_clean (cs : List Str) (hcs : ∀ c ∈ cs, '/' ∉ c) : ∀ acc, (∀ x ∈ acc, Clean x) →
    ∀ x ∈ cs.foldl (normStep true) acc, Clean x := by
  induction cs with
  | nil => exact fun acc h => h
  | cons c cs ih =>
    intro acc h
    rw [List.foldl_cons]
    exact ih (fun d hd => hcs d (List.mem_cons_of_mem _ hd)) _
      (normStep_all_clean h (hcs c List.mem_cons_self))

/-- The components of an absolute path are proper names. -/
theorem normComps_clean {s : Str} (h : isabs s = true) : ∀ x ∈ normComps s, Clean x := by
  unfold normComps
  rw [h]
  exact foldl_all_clean _ (fun c hc => splitOn_pieces hc) _ (fun x hx => by cases hx)

theorem foldl_dotdots (k : Nat) : ∀ acc : List Str, (∀ x ∈ acc, Clean x) →
    (List.replicate k dotdot).foldl (normStep true) acc = acc.take (acc.length - k) := by
  induction k with
  | zero => intro acc h; simp
  | succ k ih =>
    intro acc h
    rw [List.replicate_succ, List.foldl_cons, normStep_dotdot h,
      ih _ (fun x hx => h x (List.dropLast_subset _ hx))]
    rw [List.length_dropLast, List.dropLast_eq_take, List.take_take]
    congr 1
    omega

theorem splitOn_cons_sep (c : Char) (s : Str) : splitOn c (c :: s) = [] :: splitOn c s := by
  exact splitOn_append c [] s

theorem isabs_iff {s : Str} : isabs s = true ↔ ∃ t, s = '/' :: t := by
  constructor
  · intro h
    unfold isabs at h
    split at h
    · exact ⟨_, rfl⟩
    · cases h
  · rintro ⟨t, rfl⟩; rfl

theorem isabs_append {a b : Str} (h : isabs a = true) : isabs (a ++ b) = true := by
  obtain ⟨t, rfl⟩ := isabs_iff.mp h
  rfl

/-- Going on with further components. -/
theorem normComps_append {a b : Str} (h : isabs a = true) :
    normComps (a ++ '/' :: b) = (splitOn '/' b).foldl (normStep true) (normComps a) := by
  unfold normComps
  rw [isabs_append h, h, splitOn_append, List.foldl_append]

theorem splitOn_render {cs : List Str} (h : ∀ c ∈ cs, Clean c) (hne : cs ≠ []) :
    splitOn '/' (render cs) = [] :: cs := by
  unfold render
  rw [splitOn_cons_sep, splitOn_join '/' cs hne (fun c hc => (h c hc).2.2.2)]

theorem normComps_render {cs : List Str} (h : ∀ c ∈ cs, Clean c) : normComps (render cs) = cs := by
  by_cases hne : cs = []
  · subst hne; rfl
  · unfold normComps
    rw [splitOn_render h hne, show isabs (render cs) = true from rfl, List.foldl_cons,
      normStep_skip, foldl_normStep_clean cs h]
    simp

theorem render_injective {as bs : List Str} (ha : ∀ c ∈ as, Clean c) (hb : ∀ c ∈ bs, Clean c)
    (h : render as = render bs) : as = bs := by
  rw [← normComps_render ha, ← normComps_render hb, h]

theorem render_append {as bs : List Str} (ha : as ≠ []) (hb : bs ≠ []) :
    render (as ++ bs) = render as ++ '/' :: join ['/'] bs := by
  have hj : ∀ (as : List Str), as ≠ [] →
      join ['/'] (as ++ bs) = join ['/'] as ++ '/' :: join ['/'] bs := by
    intro as
    induction as with
    | nil => intro h; exact absurd rfl h
    | cons a as ih =>
      intro _
      cases as with
      | nil =>
        cases bs with
        | nil => exact absurd rfl hb
        | cons b bs => simp [join]
      | cons a' as =>
        rw [List.cons_append]
        have := ih (by simp)
        simp only [join, List.cons_append] at this ⊢
        rw [this]
        simp
  unfold render
  rw [hj as ha]
  rfl

/-- The path continues with a slash after the directory exactly if it lies below it. -/
theorem render_below {ds fs : List Str} (hd : ∀ c ∈ ds, Clean c) (hf : ∀ c ∈ fs, Clean c)
    (hne : ds ≠ []) :
    (∃ t, render fs = render ds ++ '/' :: t) ↔ ∃ x, x ≠ [] ∧ fs = ds ++ x := by
  constructor
  · rintro ⟨t, h⟩
    have hfs : fs ≠ [] := by
      rintro rfl
      have hl := congrArg List.length h
      cases ds with
      | nil => exact hne rfl
      | cons d ds =>
        simp only [render, join, List.length_cons, List.length_append, List.length_nil] at hl
        omega
    have h2 := congrArg (splitOn '/') h
    rw [splitOn_append, splitOn_render hf hfs, splitOn_render hd hne] at h2
    simp only [List.cons_append, List.cons.injEq, true_and] at h2
    refine ⟨splitOn '/' t, splitOnGo_ne_nil _ _ _, h2⟩
  · rintro ⟨x, hx, rfl⟩
    exact ⟨_, render_append hne hx⟩

/-- An absolute path without further slashes at its beginning is normalised to the text of its
components. -/
theorem normpath_abs {s : Str} (h : initSlashes s = 1) : normpath s = render (normComps s) := by
  unfold normpath
  rw [h]
  rfl

theorem initSlashes_abs {s : Str} (h : initSlashes s = 1) : isabs s = true := by
  unfold initSlashes at h
  split at h
  · rfl
  · omega
  · rfl
  · omega

theorem initSlashes_render {cs : List Str} (h : ∀ c ∈ cs, Clean c) : initSlashes (render cs) = 1 := by
  unfold render
  cases cs with
  | nil => rfl
  | cons c cs =>
    have hc := h c List.mem_cons_self
    obtain ⟨x, y, rfl⟩ := List.exists_cons_of_ne_nil hc.1
    have hx : x ≠ '/' := fun e => hc.2.2.2 (by rw [e]; exact List.mem_cons_self)
    have : ∃ z, join ['/'] ((x :: y) :: cs) = x :: z := by
      cases cs with
      | nil => exact ⟨y, rfl⟩
      | cons c' cs => exact ⟨_, rfl⟩
    obtain ⟨z, hz⟩ := this
    rw [hz]
    unfold initSlashes
    split
    · rfl
    · rename_i heq
      simp only [List.cons.injEq, true_and] at heq
      exact absurd heq.1 hx
    · rfl
    · rename_i h1 h2 h3
      exact absurd rfl (h3 _)

/-- Normalising twice changes nothing. -/
theorem normpath_render {cs : List Str} (h : ∀ c ∈ cs, Clean c) : normpath (render cs) = render cs := by
  rw [normpath_abs (initSlashes_render h), normComps_render h]

/-! ### Relative paths -/

theorem commonLen_spec : ∀ s p : List Str, ∃ c s' p', s = c ++ s' ∧ p = c ++ p' ∧
    commonLen s p = c.length
  | [], p => ⟨[], [], p, rfl, rfl, by unfold commonLen; rfl⟩
  | a :: s, [] => ⟨[], a :: s, [], rfl, rfl, by unfold commonLen; rfl⟩
  | a :: s, b :: p => by
    unfold commonLen
    by_cases h : a = b
    · rw [if_pos h]
      obtain ⟨c, s', p', hs, hp, hc⟩ := commonLen_spec s p
      exact ⟨a :: c, s', p', by rw [hs]; rfl, by rw [hp, h]; rfl, by rw [hc]; rfl⟩
    · rw [if_neg h]
      exact ⟨[], a :: s, b :: p, rfl, rfl, rfl⟩

theorem parts_render {cs : List Str} (h : ∀ c ∈ cs, Clean c) : parts (render cs) = cs := by
  unfold parts
  by_cases hne : cs = []
  · subst hne; rfl
  · rw [splitOn_render h hne, List.filter_cons_of_neg (by simp)]
    exact List.filter_eq_self.mpr (fun c hc => by simpa using (h c hc).1)

/-- The text of `relpath`. -/
def relText (s p : List Str) : Str :=
  let i := commonLen s p
  let r := List.replicate (s.length - i) dotdot ++ p.drop i
  if r = [] then dot else join ['/'] r

/-- Following the relative path from the start leads to the target. -/
theorem relText_resolves {s p : List Str} (hs : ∀ c ∈ s, Clean c) (hp : ∀ c ∈ p, Clean c) :
    (splitOn '/' (relText s p)).foldl (normStep true) s = p := by
  obtain ⟨c, s', p', rfl, rfl, hc⟩ := commonLen_spec s p
  unfold relText
  rw [hc]
  dsimp only
  have hlen : (c ++ s').length - c.length = s'.length := by simp
  rw [hlen, List.drop_left]
  split
  · rename_i h
    rw [List.append_eq_nil_iff] at h
    obtain ⟨h1, rfl⟩ := h
    have : s' = [] := by
      cases s' with
      | nil => rfl
      | cons a l => rw [List.length_cons, List.replicate_succ] at h1; cases h1
    subst this
    show [dot].foldl (normStep true) _ = _
    rw [List.foldl_cons, normStep_dot]; rfl
  · rename_i h
    rw [splitOn_join '/' _ h, List.foldl_append, foldl_dotdots _ _ hs]
    · rw [foldl_normStep_clean p' (fun x hx => hp x (List.mem_append_right _ hx))]
      congr 1
      simp
    · intro w hw
      rcases List.mem_append.mp hw with hw' | hw'
      · rw [(List.mem_replicate.mp hw').2]; decide
      · exact (hp w (List.mem_append_right _ hw')).2.2.2

/-! ### Directory and file name -/

theorem takeWhile_append_stop {p : Char → Bool} {a b : Str} {c : Char} (ha : ∀ x ∈ a, p x = true)
    (hc : p c = false) : (a ++ c :: b).takeWhile p = a := by
  induction a with
  | nil => rw [List.nil_append, List.takeWhile_cons_of_neg (by simp [hc])]
  | cons x a ih =>
    rw [List.cons_append, List.takeWhile_cons_of_pos (ha x List.mem_cons_self),
      ih (fun y hy => ha y (List.mem_cons_of_mem _ hy))]

theorem dropWhile_append_stop {p : Char → Bool} {a b : Str} {c : Char} (ha : ∀ x ∈ a, p x = true)
    (hc : p c = false) : (a ++ c :: b).dropWhile p = c :: b := by
  induction a with
  | nil => rw [List.nil_append, List.dropWhile_cons_of_neg (by simp [hc])]
  | cons x a ih =>
    rw [List.cons_append, List.dropWhile_cons_of_pos (ha x List.mem_cons_self),
      ih (fun y hy => ha y (List.mem_cons_of_mem _ hy))]

theorem not_slash_rev {b : Str} (hb : '/' ∉ b) : ∀ x ∈ b.reverse, decide (x ≠ '/') = true := by
  intro x hx
  have : x ≠ '/' := fun e => hb (by rw [← e]; exact List.mem_reverse.mp hx)
  simpa using this

theorem basename_split {h b : Str} (hb : '/' ∉ b) : basename (h ++ '/' :: b) = b := by
  unfold basename
  rw [List.reverse_append, List.reverse_cons, List.append_assoc, List.singleton_append,
    takeWhile_append_stop (not_slash_rev hb) (by simp), List.reverse_reverse]

theorem headPart_split {h b : Str} (hb : '/' ∉ b) : headPart (h ++ '/' :: b) = h ++ ['/'] := by
  unfold headPart
  rw [List.reverse_append, List.reverse_cons, List.append_assoc, List.singleton_append,
    dropWhile_append_stop (not_slash_rev hb) (by simp), List.reverse_cons, List.reverse_reverse]

theorem join_snoc (as : List Str) (b : Str) (h : as ≠ []) :
    join ['/'] (as ++ [b]) = join ['/'] as ++ '/' :: b := by
  have := render_append h (List.cons_ne_nil b [])
  exact (List.cons.inj this).2

/-- The text before the last slash of the path with the components `ds ++ [b]`. -/
def dirText (ds : List Str) : Str := if ds = [] then [] else render ds

theorem render_snoc (ds : List Str) (b : Str) : render (ds ++ [b]) = dirText ds ++ '/' :: b := by
  unfold dirText
  by_cases h : ds = []
  · subst h; rfl
  · rw [if_neg h]
    unfold render
    rw [join_snoc ds b h]; rfl

theorem basename_render {ds : List Str} {b : Str} (hb : '/' ∉ b) :
    basename (render (ds ++ [b])) = b := by rw [render_snoc, basename_split hb]

theorem headPart_render {ds : List Str} {b : Str} (hb : '/' ∉ b) :
    headPart (render (ds ++ [b])) = dirText ds ++ ['/'] := by rw [render_snoc, headPart_split hb]

/-- A component: not empty, no slash. -/
def Name (c : Str) : Prop := c ≠ [] ∧ '/' ∉ c

theorem Clean.name {c : Str} (h : Clean c) : Name c := ⟨h.1, h.2.2.2⟩

theorem normStep_names {a : Bool} {acc : List Str} {c : Str} (h : ∀ x ∈ acc, Name x)
    (hc : '/' ∉ c) : ∀ x ∈ normStep a acc c, Name x := by
  unfold normStep
  split
  · exact h
  · rename_i h0
    split
    · intro x hx
      rcases List.mem_append.mp hx with hx' | hx'
      · exact h x hx'
      · rw [List.mem_singleton.mp hx']
        exact ⟨fun e => h0 (Or.inl e), hc⟩
    · exact fun x hx => h x (List.dropLast_subset _ hx)

theorem normComps_names (s : Str) : ∀ x ∈ normComps s, Name x := by
  have key : ∀ (cs : List Str), (∀ c ∈ cs, '/' ∉ c) → ∀ acc, (∀ x ∈ acc, Name x) →
      ∀ x ∈ cs.foldl (normStep (isabs s)) acc, Name x := by
    intro cs
    induction cs with
    | nil => exact fun _ acc h => h
    | cons c cs ih =>
      intro hcs acc h
      rw [List.foldl_cons]
      exact ih (fun d hd => hcs d (List.mem_cons_of_mem _ hd)) _
        (normStep_names h (hcs c List.mem_cons_self))
  exact key _ (fun c hc => splitOn_pieces hc) _ (fun x hx => by cases hx)

theorem join_names_head {cs : List Str} (h : ∀ c ∈ cs, Name c) :
    (join ['/'] cs).head? ≠ some '/' := by
  cases cs with
  | nil => simp [join]
  | cons c cs =>
    have hc := h c List.mem_cons_self
    obtain ⟨x, y, rfl⟩ := List.exists_cons_of_ne_nil hc.1
    have hx : x ≠ '/' := fun e => hc.2 (by rw [e]; exact List.mem_cons_self)
    have : ∃ z, join ['/'] ((x :: y) :: cs) = x :: z := by
      cases cs with
      | nil => exact ⟨y, rfl⟩
      | cons c' cs => exact ⟨_, rfl⟩
    obtain ⟨z, hz⟩ := this
    rw [hz]
    simpa using hx

/-- A normalised absolute path with one slash at the beginning is the text of its components. -/
theorem normpath_render_of {s r : Str} {c : Char} (h : normpath s = '/' :: c :: r) (hc : c ≠ '/') :
    initSlashes s = 1 := by
  unfold normpath at h
  dsimp only at h
  have h3 : initSlashes s = 0 ∨ initSlashes s = 1 ∨ initSlashes s = 2 := by
    unfold initSlashes; split <;> simp
  rcases h3 with h0 | h1 | h2
  · rw [h0, List.replicate_zero, List.nil_append] at h
    have hn := join_names_head (normComps_names s)
    split at h
    · cases h
    · rw [h] at hn; exact absurd rfl hn
  · exact h1
  · rw [h2] at h
    split at h
    · cases h
    · exact absurd (List.cons.inj (List.cons.inj h).2).1.symm hc

theorem render_getLast {ds : List Str} {b : Str} (hb : Name b) :
    (render (ds ++ [b])).getLast? ≠ some '/' := by
  rw [render_snoc, List.getLast?_append, List.getLast?_cons]
  obtain ⟨x, hx⟩ : ∃ x, b.getLast? = some x := by
    cases hl : b.getLast? with
    | none => exact absurd (List.getLast?_eq_none_iff.mp hl) hb.1
    | some x => exact ⟨x, rfl⟩
  rw [hx]
  intro e
  simp only [Option.getD_some, Option.some_or, Option.some.injEq] at e
  exact hb.2 (e ▸ List.mem_of_getLast? hx)

/-- `dirname` of a path is the path without its last component. -/
theorem dirname_render {ds : List Str} {b : Str} (hds : ∀ c ∈ ds, Name c) (hb : '/' ∉ b) :
    dirname (render (ds ++ [b])) = render ds := by
  unfold dirname
  rw [headPart_render hb]
  by_cases hne : ds = []
  · subst hne; rfl
  · unfold dirText
    rw [if_neg hne]
    obtain ⟨xs, y, rfl⟩ := (List.eq_nil_or_concat ds).resolve_left hne
    rw [List.concat_eq_append] at *
    have hy : Name y := hds y (by simp)
    have hl := render_getLast (ds := xs) hy
    have hnot : (render (xs ++ [y]) ++ ['/']).all (· = '/') = false := by
      rw [List.all_eq_false]
      obtain ⟨c, hc⟩ : ∃ c, c ∈ y := List.exists_mem_of_ne_nil _ hy.1
      refine ⟨c, List.mem_append_left _ ?_, ?_⟩
      · rw [render_snoc]
        exact List.mem_append_right _ (List.mem_cons_of_mem _ hc)
      · have : c ≠ '/' := fun e => hy.2 (e ▸ hc)
        simpa using this
    dsimp only
    rw [hnot]
    rw [if_neg (by decide), List.reverse_append]
    have : (['/'].reverse ++ (render (xs ++ [y])).reverse).dropWhile (fun x => decide (x = '/')) =
        (render (xs ++ [y])).reverse := by
      show List.dropWhile _ ('/' :: (render (xs ++ [y])).reverse) = _
      rw [List.dropWhile_cons_of_pos (by simp)]
      cases hr : (render (xs ++ [y])).reverse with
      | nil => rfl
      | cons z zs =>
        have hz : (render (xs ++ [y])).getLast? = some z := by
          rw [← List.head?_reverse, hr]; rfl
        rw [List.dropWhile_cons_of_neg]
        simp only [decide_eq_true_eq]
        exact fun e => hl (by rw [hz, e])
    rw [this, List.reverse_reverse]

end Py
