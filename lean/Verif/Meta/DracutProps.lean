import Verif.Meta.DracutModel
/-!
# Properties of the command that makes the initial ramdisk, and of which one is deployed
-/

namespace Meta.Dracut

open Py

namespace Spec

/-- The module that a package is said to contain by its name: `dracut-NAME`, `NAME-dracut` or `...-dracut-NAME`, in this order, at the
first such place; packages `dracut-config-...` contain none. -/
def Module (pkg m : Str) : Prop :=
  ¬ "dracut-config-".toList <+: pkg ∧
    (pkg = "dracut-".toList ++ m ∨
      (¬ "dracut-".toList <+: pkg ∧
        (pkg = m ++ "-dracut".toList ∨
          (¬ "-dracut".toList <:+ pkg ∧
            ∃ a, pkg = a ++ ("-dracut-".toList ++ m) ∧ ∀ b t, pkg = b ++ ("-dracut-".toList ++ t) → a.length ≤ b.length))))

/-- The modules that are asked for. -/
def wanted (c : Conf) : List Str :=
  words c.modules ++ if c.extract then ((words c.packages).filterMap moduleOf).filter (· ≠ []) else []

/-- The program does what the variables say: the version is that of the kernel, there is the file of the configuration if one is set, and
all the drivers and modules and no others.  There is nothing that would be taken as the name of the file to be written. -/
def Right (version : Str) (c : Conf) (a : Args) : Prop :=
  a.force = true ∧ a.kver = some version ∧ a.conf.toList = words c.config ∧ a.drivers.flatMap words = words c.drivers ∧
    a.add.flatMap words = wanted c ∧ a.rest = []

/-- No word looks like an option. -/
def Plain (s : Str) : Prop := ∀ w ∈ words s, startsWith w ['-'] = false

/-- A value of one word, or nothing at all. -/
def Single (s : Str) : Prop := s = [] ∨ ∃ w, words s = [w]

end Spec

theorem isWs_sp : isWs ' ' = true := by decide

theorem parse_mono (ws : List Str) (a r : Args) (h : parse ws a = some r) :
    a.rest <+: r.rest ∧ a.drivers <+: r.drivers ∧ a.add <+: r.add ∧ (a.conf ≠ none → r.conf ≠ none) := by
  fun_induction parse ws a with
  | case1 a => cases h; simp
  | case2 => cases h; simp
  | case3 => cases h
  | case4 => cases h; simp
  | case5 => rename_i ih; exact ih h
  | case6 => rename_i ih; exact ih h
  | case7 => rename_i ih; have := ih h; exact ⟨this.1, this.2.1, this.2.2.1, fun _ => this.2.2.2 (by simp)⟩
  | case8 =>
    rename_i ih
    have := ih h
    exact ⟨this.1, (List.prefix_append _ _).trans this.2.1, this.2.2⟩
  | case9 =>
    rename_i ih
    have := ih h
    exact ⟨this.1, this.2.1, (List.prefix_append _ _).trans this.2.2.1, this.2.2.2⟩
  | case10 => cases h
  | case11 =>
    rename_i ih
    have := ih h
    exact ⟨(List.prefix_append _ _).trans this.1, this.2⟩

theorem parse_force (v : Str) (ws : List Str) (a : Args) : parse ("--force".toList :: v :: ws) a = parse (v :: ws) { a with force := true } := by
  rw [parse, if_pos rfl]

theorem parse_kver (v : Str) (ws : List Str) (a : Args) : parse ("--kver".toList :: v :: ws) a = parse ws { a with kver := some v } := by
  rw [parse, if_neg (by decide), if_pos rfl]

theorem parse_conf (v : Str) (ws : List Str) (a : Args) : parse ("--conf".toList :: v :: ws) a = parse ws { a with conf := some v } := by
  rw [parse, if_neg (by decide), if_neg (by decide), if_pos rfl]

theorem parse_drivers (v : Str) (ws : List Str) (a : Args) :
    parse ("--add-drivers".toList :: v :: ws) a = parse ws { a with drivers := a.drivers ++ [v] } := by
  rw [parse, if_neg (by decide), if_neg (by decide), if_neg (by decide), if_pos rfl]

theorem parse_add (v : Str) (ws : List Str) (a : Args) :
    parse ("--add".toList :: v :: ws) a = parse ws { a with add := a.add ++ [v] } := by
  rw [parse, if_neg (by decide), if_neg (by decide), if_neg (by decide), if_neg (by decide), if_pos rfl]

theorem parse_last (w : Str) (a : Args) (h : w ≠ "--force".toList) (hd : startsWith w ['-'] = true) : parse [w] a = none := by
  rw [parse, if_neg h, if_pos hd]

theorem parse_plain (w : Str) (ws : List Str) (a : Args) (hw : startsWith w ['-'] = false) :
    parse (w :: ws) a = parse ws { a with rest := a.rest ++ [w] } := by
  have key : ∀ o : Str, startsWith o ['-'] = true → w ≠ o := by
    intro o ho e
    subst e
    rw [hw] at ho
    cases ho
  cases ws with
  | nil =>
    conv => lhs; rw [parse]
    rw [if_neg (key _ (by decide)), if_neg (by rw [hw]; simp)]
    rfl
  | cons v ws =>
    rw [parse, if_neg (key _ (by decide)), if_neg (key _ (by decide)), if_neg (key _ (by decide)), if_neg (key _ (by decide)),
      if_neg (key _ (by decide)), if_neg (by rw [hw]; simp)]

/-- A word that is no option makes an output file. -/
theorem parse_rest {w : Str} {ws : List Str} {a r : Args} (hw : startsWith w ['-'] = false) (h : parse (w :: ws) a = some r) :
    r.rest ≠ [] := by
  rw [parse_plain w ws a hw] at h
  have := (parse_mono _ _ _ h).1
  intro e
  rw [e] at this
  simp at this

/-- The words of an option with its value. -/
def opt (name value : Str) : List Str := if value = [] then [] else name :: words value

theorem opt_nil (n : Str) : opt n [] = [] := rfl

theorem opt_cons (n : Str) {v : Str} (h : v ≠ []) : opt n v = n :: words v := if_neg h

theorem words_join (l : List Str) : words (join [' '] l) = l.flatMap words := by
  fun_induction join [' '] l with
  | case1 => rfl
  | case2 s => simp
  | case3 s l hl ih =>
    rw [List.append_assoc, List.singleton_append, words_append_ws _ _ _ isWs_sp, ih, List.flatMap_cons, List.flatMap_cons,
      List.flatMap_cons]

theorem words_option (n v : Str) (hn : IsWord n) : (option n v).flatMap words = opt n v := by
  unfold option opt
  split
  · rfl
  · rw [List.flatMap_cons, List.flatMap_nil, List.append_nil, words_append_ws _ _ _ isWs_sp, words_word hn]
    rfl

theorem words_cmdline (c : Conf) : words (cmdline c) =
    opt "--conf".toList c.config ++ (opt "--add-drivers".toList c.drivers ++ opt "--add".toList (allModules c)) := by
  unfold cmdline
  rw [words_join, List.flatMap_append, List.flatMap_append, words_option _ _ (by decide), words_option _ _ (by decide),
    words_option _ _ (by decide), List.append_assoc]

theorem after_iff (sub : Str) (hs : sub ≠ []) (s m : Str) :
    after sub s = some m ↔ ∃ a, s = a ++ (sub ++ m) ∧ ∀ b t, s = b ++ (sub ++ t) → a.length ≤ b.length := by
  induction s with
  | nil =>
    rw [after, if_neg hs]
    constructor
    · intro h; cases h
    · rintro ⟨a, h, -⟩
      have := (List.append_eq_nil_iff.mp h.symm).2
      exact absurd (List.append_eq_nil_iff.mp this).1 hs
  | cons c s ih =>
    rw [after]
    split
    · rename_i h
      obtain ⟨t, ht⟩ := startsWith_iff.mp h
      rw [ht, List.drop_left, Option.some.injEq]
      constructor
      · rintro rfl
        exact ⟨[], rfl, fun b t _ => Nat.zero_le _⟩
      · rintro ⟨a, h1, h2⟩
        have := h2 [] t rfl
        have : a = [] := List.length_eq_zero_iff.mp (Nat.le_zero.mp this)
        subst this
        exact List.append_cancel_left h1
    · rename_i h
      have hno : ∀ t, c :: s ≠ sub ++ t := fun t e => h (startsWith_iff.mpr ⟨t, e⟩)
      rw [ih]
      constructor
      · rintro ⟨a, h1, h2⟩
        refine ⟨c :: a, by rw [h1]; rfl, ?_⟩
        intro b t hb
        cases b with
        | nil => exact absurd hb (hno t)
        | cons x b =>
          rw [List.cons_append, List.cons.injEq] at hb
          exact Nat.succ_le_succ (h2 b t hb.2)
      · rintro ⟨a, h1, h2⟩
        cases a with
        | nil => exact absurd h1 (hno m)
        | cons x a =>
          rw [List.cons_append, List.cons.injEq] at h1
          refine ⟨a, h1.2, ?_⟩
          intro b t hb
          have := h2 (c :: b) t (by rw [hb]; rfl)
          exact Nat.le_of_succ_le_succ this

theorem startsWith_prefix {s p : Str} : startsWith s p = true ↔ p <+: s := by
  rw [startsWith_iff]
  exact ⟨fun ⟨t, h⟩ => ⟨t, h.symm⟩, fun ⟨t, h⟩ => ⟨t, h.symm⟩⟩

theorem drop_of_prefix {p s : Str} (h : p <+: s) (m : Str) : s.drop p.length = m ↔ s = p ++ m := by
  obtain ⟨t, rfl⟩ := h
  rw [List.drop_left]
  exact ⟨fun h => by rw [h], fun h => List.append_cancel_left h⟩

theorem take_of_suffix {p s : Str} (h : p <:+ s) (m : Str) : s.take (s.length - p.length) = m ↔ s = m ++ p := by
  obtain ⟨t, rfl⟩ := h
  rw [List.length_append, Nat.add_sub_cancel, List.take_left]
  exact ⟨fun h => by rw [h], fun h => List.append_cancel_right h⟩

/-- C235. The modules that are found in the names of packages. -/
theorem module_iff (pkg m : Str) : moduleOf pkg = some m ↔ Spec.Module pkg m := by
  unfold moduleOf Spec.Module
  by_cases h1 : "dracut-config-".toList <+: pkg
  · rw [if_pos (startsWith_prefix.mpr h1)]
    constructor
    · intro h; cases h
    · intro h; exact absurd h1 h.1
  rw [if_neg (fun h => h1 (startsWith_prefix.mp h)), and_iff_right h1]
  by_cases h2 : "dracut-".toList <+: pkg
  · rw [if_pos (startsWith_prefix.mpr h2), Option.some.injEq]
    have := drop_of_prefix h2 m
    exact ⟨fun h => Or.inl (this.mp h), fun h => h.elim this.mpr fun h => absurd h2 h.1⟩
  rw [if_neg (fun h => h2 (startsWith_prefix.mp h)), and_iff_right h2,
    or_iff_right (fun e => h2 ⟨m, e.symm⟩)]
  by_cases h3 : "-dracut".toList <:+ pkg
  · rw [if_pos (startsWith_prefix.mpr (List.reverse_prefix.mpr h3)), Option.some.injEq]
    have := take_of_suffix h3 m
    exact ⟨fun h => Or.inl (this.mp h), fun h => h.elim this.mpr fun h => absurd h3 h.1⟩
  rw [if_neg (fun h => h3 (List.reverse_prefix.mp (startsWith_prefix.mp h))), and_iff_right h3,
    or_iff_right (fun e => h3 ⟨m, e.symm⟩), after_iff _ (by decide)]

theorem words_sub {m : Str} (h : ∀ ch ∈ m, isWs ch = false) : words m = if m = [] then [] else [m] := by
  split
  · rename_i e; rw [e]; rfl
  · rename_i e; exact words_word ⟨e, h⟩

theorem after_mem (sub : Str) (s t : Str) (h : after sub s = some t) : ∀ ch ∈ t, ch ∈ s := by
  induction s with
  | nil => unfold after at h; split at h <;> simp_all
  | cons x s ih =>
    unfold after at h
    split at h
    · cases h; exact fun ch hc => List.mem_of_mem_drop hc
    · exact fun ch hc => List.mem_cons_of_mem _ (ih h ch hc)

theorem moduleOf_mem {pkg m : Str} (h : moduleOf pkg = some m) : ∀ ch ∈ m, ch ∈ pkg := by
  unfold moduleOf at h
  split at h
  · cases h
  · split at h
    · cases h; exact fun ch hc => List.mem_of_mem_drop hc
    · split at h
      · cases h; exact fun ch hc => List.mem_of_mem_take hc
      · exact after_mem _ _ _ h

theorem words_extracted (ps : List Str) (h : ∀ p ∈ ps, IsWord p) :
    (ps.filterMap moduleOf).flatMap words = (ps.filterMap moduleOf).filter (· ≠ []) := by
  have key : ∀ m ∈ ps.filterMap moduleOf, words m = if m = [] then [] else [m] := by
    intro m hm
    obtain ⟨p, hp, he⟩ := List.mem_filterMap.mp hm
    exact words_sub fun ch hc => (h p hp).2 ch (moduleOf_mem he ch hc)
  generalize ps.filterMap moduleOf = l at key
  induction l with
  | nil => rfl
  | cons m l ih =>
    rw [List.flatMap_cons, key m (List.mem_cons_self ..), ih fun x hx => key x (List.mem_cons_of_mem _ hx), List.filter_cons]
    by_cases hm : m = [] <;> simp [hm]

/-- The words after `--add` are the modules that are asked for. -/
theorem words_allModules (c : Conf) : words (allModules c) = Spec.wanted c := by
  unfold allModules Spec.wanted
  cases c.extract with
  | false => simp
  | true =>
    rw [if_pos rfl, if_pos rfl, words_append_ws _ _ _ isWs_sp, words_join]
    unfold extracted
    rw [words_extracted _ fun p hp => words_isWord hp]

theorem flatMap_words_word {w : Str} (h : IsWord w) : [w].flatMap words = [w] := by
  rw [List.flatMap_cons, words_word h]; rfl

theorem words_eq_isWord {s w : Str} {ws : List Str} (h : words s = w :: ws) : IsWord w :=
  words_isWord (s := s) (by rw [h]; exact List.mem_cons_self ..)

theorem not_nil_of_words {s w : Str} {ws : List Str} (h : words s = w :: ws) : s ≠ [] := by
  rintro rfl
  cases h

/-- What the program gets. -/
theorem parse_argv (version : Str) (c : Conf) : parse (argv version c) {} =
    parse (opt "--conf".toList c.config ++ (opt "--add-drivers".toList c.drivers ++ opt "--add".toList (allModules c)))
      { force := true, kver := some version } := by
  unfold argv
  rw [parse_force, parse_kver, words_cmdline]

theorem single_config {V : Str} {T : List Str} {a r : Args} (hp : Spec.Plain V)
    (h : parse (opt "--conf".toList V ++ T) a = some r) (hr : r.rest = []) (hc : r.conf.toList = words V) : Spec.Single V := by
  by_cases he : V = []
  · exact Or.inl he
  right
  rw [opt_cons _ he] at h
  cases hw : words V with
  | nil =>
    exfalso
    rw [hw] at h hc
    cases T with
    | nil => rw [List.append_nil, parse_last _ _ (by decide) (by decide)] at h; cases h
    | cons t T =>
      rw [List.cons_append, List.nil_append, parse_conf] at h
      have := (parse_mono _ _ _ h).2.2.2 (by simp)
      cases hrc : r.conf with
      | none => exact this hrc
      | some x => rw [hrc] at hc; cases hc
  | cons w ws =>
    cases ws with
    | nil => exact ⟨w, rfl⟩
    | cons w2 ws =>
      exfalso
      rw [hw, List.cons_append, List.cons_append, List.cons_append, parse_conf] at h
      exact parse_rest (hp w2 (by rw [hw]; simp)) h hr

theorem single_drivers {V : Str} {T : List Str} {a r : Args} (hp : Spec.Plain V) (hT : ∀ t ∈ T.head?, IsWord t)
    (h : parse (opt "--add-drivers".toList V ++ T) a = some r) (hr : r.rest = []) (hc : r.drivers.flatMap words = words V) :
    Spec.Single V := by
  by_cases he : V = []
  · exact Or.inl he
  right
  rw [opt_cons _ he] at h
  cases hw : words V with
  | nil =>
    exfalso
    rw [hw] at h hc
    cases T with
    | nil => rw [List.append_nil, parse_last _ _ (by decide) (by decide)] at h; cases h
    | cons t T =>
      rw [List.cons_append, List.nil_append, parse_drivers] at h
      have := (parse_mono _ _ _ h).2.1
      have hm : t ∈ r.drivers := this.subset (by simp)
      have ht : IsWord t := hT t (by simp)
      have : t ∈ r.drivers.flatMap words := List.mem_flatMap.mpr ⟨t, hm, by rw [words_word ht]; simp⟩
      rw [hc] at this
      cases this
  | cons w ws =>
    cases ws with
    | nil => exact ⟨w, rfl⟩
    | cons w2 ws =>
      exfalso
      rw [hw, List.cons_append, List.cons_append, List.cons_append, parse_drivers] at h
      exact parse_rest (hp w2 (by rw [hw]; simp)) h hr

theorem single_add {V : Str} {a r : Args} (hp : Spec.Plain V)
    (h : parse (opt "--add".toList V) a = some r) (hr : r.rest = []) : Spec.Single V := by
  by_cases he : V = []
  · exact Or.inl he
  right
  rw [opt_cons _ he] at h
  cases hw : words V with
  | nil => rw [hw, parse_last _ _ (by decide) (by decide)] at h; cases h
  | cons w ws =>
    cases ws with
    | nil => exact ⟨w, rfl⟩
    | cons w2 ws =>
      exfalso
      rw [hw, parse_add] at h
      exact parse_rest (hp w2 (by rw [hw]; simp)) h hr

theorem step_config {V : Str} (T : List Str) {a : Args} (hs : Spec.Single V) (ha : a.conf = none) :
    ∃ x, x.toList = words V ∧ parse (opt "--conf".toList V ++ T) a = parse T { a with conf := x } := by
  rcases hs with rfl | ⟨w, hw⟩
  · exact ⟨none, rfl, by rw [opt_nil, ← ha]; rfl⟩
  · refine ⟨some w, hw.symm, ?_⟩
    rw [opt_cons _ (not_nil_of_words hw), hw, List.cons_append, List.cons_append, parse_conf]
    rfl

theorem step_drivers {V : Str} (T : List Str) {a : Args} (hs : Spec.Single V) (ha : a.drivers = []) :
    ∃ x : List Str, x.flatMap words = words V ∧ parse (opt "--add-drivers".toList V ++ T) a = parse T { a with drivers := x } := by
  rcases hs with rfl | ⟨w, hw⟩
  · exact ⟨[], rfl, by cases a; cases ha; rfl⟩
  · refine ⟨[w], by rw [flatMap_words_word (words_eq_isWord hw), hw], ?_⟩
    rw [opt_cons _ (not_nil_of_words hw), hw, List.cons_append, List.cons_append, parse_drivers, ha]
    rfl

theorem step_add {V : Str} {a : Args} (hs : Spec.Single V) (ha : a.add = []) :
    ∃ x : List Str, x.flatMap words = words V ∧ parse (opt "--add".toList V) a = some { a with add := x } := by
  rcases hs with rfl | ⟨w, hw⟩
  · exact ⟨[], rfl, by cases a; cases ha; rfl⟩
  · refine ⟨[w], by rw [flatMap_words_word (words_eq_isWord hw), hw], ?_⟩
    rw [opt_cons _ (not_nil_of_words hw), hw, parse_add, ha]
    rfl

theorem opt_head (n V : Str) (hn : IsWord n) : ∀ t ∈ (opt n V).head?, IsWord t := by
  unfold opt
  split
  · simp
  · intro t ht
    cases ht
    exact hn

theorem single_allModules (c : Conf) : Spec.Single (allModules c) ↔
    (c.extract = false ∧ Spec.Single c.modules) ∨ (c.extract = true ∧ ∃ m, Spec.wanted c = [m]) := by
  cases he : c.extract with
  | false => simp [allModules, he]
  | true =>
    rw [← words_allModules]
    have : allModules c ≠ [] := by
      unfold allModules
      rw [he, if_pos rfl]
      simp
    unfold Spec.Single
    simp [this]

/-- C235. The program does what the variables say exactly if the values of those that are set are single words, and, where modules are
found in the names of packages, there is exactly one module. -/
theorem right_iff (version : Str) (c : Conf) (h1 : Spec.Plain c.config) (h2 : Spec.Plain c.drivers)
    (h3 : ∀ m ∈ Spec.wanted c, startsWith m ['-'] = false) :
    (∃ a, parse (argv version c) {} = some a ∧ Spec.Right version c a) ↔
      Spec.Single c.config ∧ Spec.Single c.drivers ∧
        ((c.extract = false ∧ Spec.Single c.modules) ∨ (c.extract = true ∧ ∃ m, Spec.wanted c = [m])) := by
  rw [← single_allModules, parse_argv]
  have h3' : Spec.Plain (allModules c) := by
    unfold Spec.Plain
    rw [words_allModules]
    exact h3
  constructor
  · rintro ⟨r, h, -, -, hc, hd, -, hr⟩
    have s1 := single_config h1 h hr hc
    obtain ⟨x, -, hx⟩ := step_config (opt "--add-drivers".toList c.drivers ++ opt "--add".toList (allModules c))
      (a := { force := true, kver := some version }) s1 rfl
    rw [hx] at h
    have s2 := single_drivers h2 (opt_head _ _ (by decide)) h hr hd
    obtain ⟨y, -, hy⟩ := step_drivers (opt "--add".toList (allModules c))
      (a := { force := true, kver := some version, conf := x }) s2 rfl
    rw [hy] at h
    exact ⟨s1, s2, single_add h3' h hr⟩
  · rintro ⟨s1, s2, s3⟩
    obtain ⟨x, x1, x2⟩ := step_config (opt "--add-drivers".toList c.drivers ++ opt "--add".toList (allModules c))
      (a := { force := true, kver := some version }) s1 rfl
    obtain ⟨y, y1, y2⟩ := step_drivers (opt "--add".toList (allModules c))
      (a := { force := true, kver := some version, conf := x }) s2 rfl
    obtain ⟨z, z1, z2⟩ := step_add (a := { force := true, kver := some version, conf := x, drivers := y }) s3 rfl
    refine ⟨_, by rw [x2, y2, z2], rfl, rfl, x1, y1, ?_, rfl⟩
    rw [← words_allModules]
    exact z1

/-- C235. With a file of configuration, a driver and a module all is right. -/
example : parse (argv "6.1".toList ⟨"/etc/d.conf".toList, "loop".toList, [], true, "dracut-config-x my-dracut bash".toList⟩) {} =
    some ⟨true, some "6.1".toList, some "/etc/d.conf".toList, ["loop".toList], ["my".toList], []⟩ := by decide

/-- C235 is false: the second of two drivers becomes the name of the file that is written, and is not among the drivers. -/
theorem second_driver_lost : ∃ (version : Str) (c : Conf) (a : Args), parse (argv version c) {} = some a ∧
    words c.drivers = ["loop".toList, "overlay".toList] ∧ a.drivers = ["loop".toList] ∧ a.rest = ["overlay".toList] := by
  refine ⟨"6.1".toList, ⟨[], "loop overlay".toList, [], false, []⟩,
    ⟨true, some "6.1".toList, none, ["loop".toList], [], ["overlay".toList]⟩, by decide, by decide, rfl, rfl⟩

/-- C235 is false: with modules to be found in the names of packages, and none there, the program stops with an error. -/
theorem no_module_fails : ∃ (version : Str) (c : Conf), c.config = [] ∧ c.drivers = [] ∧ Spec.wanted c = [] ∧
    parse (argv version c) {} = none := by
  refine ⟨"6.1".toList, ⟨[], [], [], true, "dracut-config-x bash".toList⟩, rfl, rfl, by decide, by decide⟩

/-! ## Which one is deployed -/

namespace Spec

/-- The name of the initial ramdisk of a kernel. -/
def image (version : Str) : Str := "initrd.img-".toList ++ version

end Spec

theorem found_iff (v n : Str) : found v n = true ↔ Spec.image v <+: n := startsWith_prefix

theorem found_image (v w : Str) : found v (Spec.image w) = true ↔ v <+: w := by
  rw [found_iff]
  unfold Spec.image
  exact List.prefix_append_right_inj _

theorem generate_mem (v : Str) (x : Nat) (b : Boot) : (Spec.image v, x) ∈ generate v x b := by
  induction b with
  | nil => exact List.mem_cons_self ..
  | cons e b ih =>
    unfold generate
    split
    · rename_i h; rw [h]; exact List.mem_cons_self ..
    · exact List.mem_cons_of_mem _ ih

theorem generate_sub (v : Str) (x : Nat) (b : Boot) : ∀ e ∈ generate v x b, e = (Spec.image v, x) ∨ e ∈ b := by
  induction b with
  | nil => intro e he; exact Or.inl (List.mem_singleton.mp he)
  | cons y b ih =>
    intro e he
    unfold generate at he
    split at he
    · rename_i h
      rcases List.mem_cons.mp he with he | he
      · left; rw [he, h]; rfl
      · exact Or.inr (List.mem_cons_of_mem _ he)
    · rcases List.mem_cons.mp he with he | he
      · exact Or.inr (by rw [he]; exact List.mem_cons_self ..)
      · exact (ih e he).imp id (List.mem_cons_of_mem _)

/-- If a file is found, one of those that are found is in place. -/
theorem copyFound_some (v : Str) (b : Boot) : ∀ w, (∃ e ∈ b, found v e.1 = true) →
    ∃ e ∈ b, found v e.1 = true ∧ copyFound v b w = some e.2 := by
  unfold copyFound
  induction b with
  | nil => rintro w ⟨e, he, -⟩; cases he
  | cons x b ih =>
    rintro w ⟨e, he, hf⟩
    rw [List.foldl_cons]
    by_cases hb : ∃ e ∈ b, found v e.1 = true
    · obtain ⟨e', h1, h2⟩ := ih (if found v x.1 = true then some x.2 else w) hb
      exact ⟨e', List.mem_cons_of_mem _ h1, h2⟩
    · rcases List.mem_cons.mp he with rfl | he
      · refine ⟨e, List.mem_cons_self .., hf, ?_⟩
        rw [if_pos hf]
        have hb' : ∀ y ∈ b, found v y.1 = false := fun y hy => by
          cases h : found v y.1 with
          | false => rfl
          | true => exact absurd ⟨y, hy, h⟩ hb
        clear ih hb he hf
        induction b with
        | nil => rfl
        | cons y b ih =>
          rw [List.foldl_cons, hb' y (List.mem_cons_self ..)]
          exact ih fun z hz => hb' z (List.mem_cons_of_mem _ hz)
      · exact absurd ⟨e, he, hf⟩ hb

theorem loop_snoc (make : Str → Nat) (vs : List Str) (l : Str) : ∀ b w, loop make (vs ++ [l]) b w =
    (generate l (make l) (loop make vs b w).1, copyFound l (generate l (make l) (loop make vs b w).1) (loop make vs b w).2) := by
  induction vs with
  | nil => intro b w; rfl
  | cons v vs ih => intro b w; exact ih _ _

theorem loop_sub (make : Str → Nat) (vs : List Str) : ∀ b w, ∀ e ∈ (loop make vs b w).1,
    (∃ v ∈ vs, e = (Spec.image v, make v)) ∨ e ∈ b := by
  induction vs with
  | nil => intro b w e he; exact Or.inr he
  | cons v vs ih =>
    intro b w e he
    rcases ih _ _ e he with ⟨u, hu, h⟩ | h
    · exact Or.inl ⟨u, List.mem_cons_of_mem _ hu, h⟩
    · rcases generate_sub _ _ _ e h with h | h
      · exact Or.inl ⟨v, List.mem_cons_self .., h⟩
      · exact Or.inr h

theorem generate_names (v : Str) (x : Nat) (b : Boot) (h : (b.map (·.1)).Nodup) : ((generate v x b).map (·.1)).Nodup ∧
    ∀ e ∈ generate v x b, e.1 = Spec.image v → e.2 = x := by
  induction b with
  | nil => simp [generate]
  | cons y b ih =>
    rw [List.map_cons, List.nodup_cons] at h
    unfold generate
    split
    · rename_i hy
      refine ⟨by rw [List.map_cons, List.nodup_cons]; exact h, ?_⟩
      intro e he hn
      rcases List.mem_cons.mp he with rfl | he
      · rfl
      · refine absurd (List.mem_map.mpr ⟨e, he, ?_⟩) h.1
        rw [hn, hy]
        rfl
    · rename_i hy
      obtain ⟨i1, i2⟩ := ih h.2
      refine ⟨?_, ?_⟩
      · rw [List.map_cons, List.nodup_cons]
        refine ⟨fun hm => ?_, i1⟩
        obtain ⟨e, he, hn⟩ := List.mem_map.mp hm
        rcases generate_sub v x b e he with h' | h'
        · rw [h'] at hn
          exact hy hn.symm
        · exact h.1 (List.mem_map.mpr ⟨e, h', hn⟩)
      · intro e he hn
        rcases List.mem_cons.mp he with rfl | he
        · exact absurd hn hy
        · exact i2 e he hn

theorem loop_names (make : Str → Nat) (vs : List Str) : ∀ b w, (b.map (·.1)).Nodup → ((loop make vs b w).1.map (·.1)).Nodup := by
  induction vs with
  | nil => intro b w h; exact h
  | cons v vs ih => intro b w h; exact ih _ _ (generate_names v (make v) b h).1

/-- C236. What is deployed is one of what was made for kernels whose version begins with that of the last kernel, or was there before under
another such name.  What an earlier run left in the work directory, or under the name of the last kernel, is never deployed. -/
theorem deployed_from (make : Str → Nat) (vs : List Str) (l : Str) (b : Boot) (w : Option Nat) (hb : (b.map (·.1)).Nodup) :
    ∃ x, deployed make (vs ++ [l]) b w = some x ∧
      ((∃ v ∈ vs ++ [l], l <+: v ∧ x = make v) ∨ (∃ e ∈ b, Spec.image l <+: e.1 ∧ e.1 ≠ Spec.image l ∧ x = e.2)) := by
  unfold deployed
  rw [if_neg (by simp), loop_snoc]
  obtain ⟨e, he, hf, hx⟩ := copyFound_some l (generate l (make l) (loop make vs b w).1) (loop make vs b w).2
    ⟨_, generate_mem _ _ _, (found_image l l).mpr (List.prefix_refl _)⟩
  refine ⟨e.2, hx, ?_⟩
  have hn := (generate_names l (make l) _ (loop_names make vs b w hb)).2 e he
  by_cases hl : e.1 = Spec.image l
  · exact Or.inl ⟨l, by simp, List.prefix_refl _, hn hl⟩
  rcases generate_sub _ _ _ e he with h | h
  · exact absurd (by rw [h]) hl
  · rcases loop_sub make vs b w e h with ⟨v, hv, h⟩ | h
    · left
      refine ⟨v, List.mem_append_left _ hv, ?_, by rw [h]⟩
      rw [h] at hf
      exact (found_image l v).mp hf
    · exact Or.inr ⟨e, h, (found_iff _ _).mp hf, hl, rfl⟩

theorem lt_of_prefix {p q : Str} (h : p <+: q) (hne : p ≠ q) : p < q := by
  induction p generalizing q with
  | nil =>
    cases q with
    | nil => exact absurd rfl hne
    | cons c q => exact List.nil_lt_cons c q
  | cons c p ih =>
    obtain ⟨t, rfl⟩ := h
    rw [List.cons_append, List.cons_lt_cons_self]
    exact ih (List.prefix_append _ _) fun e => hne (by rw [List.cons_append, ← e])

/-- C236, partial: if the kernels are given in the order of their versions, and no other name in the directory begins with that of the
initial ramdisk of the last kernel, what is deployed was made for the last kernel. -/
theorem deployed_right_partial (make : Str → Nat) (vs : List Str) (l : Str) (b : Boot) (w : Option Nat) (hn : (b.map (·.1)).Nodup)
    (hs : ∀ v ∈ vs, ¬ l < v) (hb : ∀ e ∈ b, Spec.image l <+: e.1 → e.1 = Spec.image l) :
    deployed make (vs ++ [l]) b w = some (make l) := by
  obtain ⟨x, h1, h2⟩ := deployed_from make vs l b w hn
  rw [h1]
  rcases h2 with ⟨v, hv, hp, rfl⟩ | ⟨e, he, hp, hne, rfl⟩
  · by_cases hlv : l = v
    · rw [hlv]
    · rcases List.mem_append.mp hv with hv | hv
      · exact absurd (lt_of_prefix hp hlv) (hs v hv)
      · exact absurd (List.mem_singleton.mp hv).symm hlv
  · exact absurd (hb e he hp) hne

/-- An example: two kernels, and what was left by an earlier run. -/
example : deployed List.length ["6.1-1".toList, "6.1-10".toList] [("initrd.img-6.1-1".toList, 100)] (some 7) = some 6 := by decide

/-- C236 is false: a file that was kept beside the initial ramdisk is deployed. -/
theorem kept_deployed : ∃ (make : Str → Nat) (kernels : List Str) (b : Boot), kernels = ["6.1-1".toList] ∧
    b = [("initrd.img-6.1-1".toList, 0), ("initrd.img-6.1-1.old".toList, 1)] ∧ (∀ v ∈ kernels, make v ≠ 1) ∧
    deployed make kernels b none = some 1 :=
  ⟨fun _ => 2, _, _, rfl, rfl, by simp, by decide⟩

/-- C236 is false for kernels in another order: that of `vmlinux-6.1-10` and `vmlinuz-6.1-1`, where the one deployed is not that of the
last. -/
theorem other_deployed : ∃ (make : Str → Nat) (b : Boot), (∀ e ∈ b, e.1 ∈ ["initrd.img-6.1-1".toList, "initrd.img-6.1-10".toList]) ∧
    make "6.1-10".toList ≠ make "6.1-1".toList ∧
    deployed make ["6.1-10".toList, "6.1-1".toList] b none = some (make "6.1-10".toList) :=
  ⟨List.length, [("initrd.img-6.1-1".toList, 0)], by simp, by decide, by decide⟩

end Meta.Dracut
