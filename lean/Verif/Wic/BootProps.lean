import Verif.Wic.BootModel
/-!
# Properties of the files of a boot partition
-/

namespace Isar.Wic.Boot

open Py

/-! ## C199: what the variable says -/

/-- What a user writes: a source, and where it goes to if this is given. -/
structure Item where
  src : Str
  dst : Option Str

/-- Characters that a path may have here. -/
def PathChar (c : Char) : Prop := c.isAlphanum ∨ c ∈ ['_', '-', '.', '/', '*']

/-- A path of such characters. -/
def Path (s : Str) : Prop := s ≠ [] ∧ ∀ c ∈ s, PathChar c

/-- An item of such paths; a destination is no pattern. -/
def Item.Ok (i : Item) : Prop := Path i.src ∧ ∀ d, i.dst = some d → Path d ∧ '*' ∉ d

/-- As it is written. -/
def Item.written (i : Item) : Str :=
  match i.dst with
  | some d => i.src ++ ";".toList ++ d
  | none => i.src

/-- What it means: a file with its path; all that a pattern matches, without their directories, or in the directory
that is given. -/
def Item.meant (glob : Str → List Str) (i : Item) : List (Str × Str) :=
  if '*' ∈ i.src then
    (glob i.src).map fun f => (f, match i.dst with
      | some d => pathJoin d (basename f)
      | none => basename f)
  else [(i.src, i.dst.getD i.src)]

theorem entryChar_iff (c : Char) : entryChar c = true ↔ PathChar c ∨ c = ';' := by
  unfold entryChar PathChar
  rw [Bool.or_eq_true, List.contains_iff_mem]
  have e : ("_;-./*".toList) = ['_', ';', '-', '.', '/', '*'] := rfl
  rw [e]
  simp only [List.mem_cons, List.not_mem_nil, or_false]
  constructor
  · rintro (h | h | h | h | h | h | h) <;> simp [h]
  · rintro ((h | h | h | h | h | h) | h) <;> simp [h]

theorem runs_run {w r : Str} {c : Char} (hc : entryChar c = false) : ∀ {cur : Str}, (∀ x ∈ w, entryChar x = true) →
    cur ++ w ≠ [] → runs (w ++ c :: r) cur = (cur ++ w) :: runs r [] := by
  induction w with
  | nil =>
    intro cur _ hne
    rw [List.append_nil] at hne ⊢
    show (if entryChar c then _ else if cur = [] then _ else _) = _
    rw [hc, if_neg Bool.false_ne_true, if_neg hne]
  | cons x w ih =>
    intro cur hw hne
    show (if entryChar x then runs (w ++ c :: r) (cur ++ [x]) else _) = _
    have e : cur ++ [x] ++ w = cur ++ x :: w := by rw [List.append_assoc]; rfl
    rw [if_pos (hw x List.mem_cons_self), ih (fun y hy => hw y (List.mem_cons_of_mem _ hy)) (by rw [e]; exact hne), e]

theorem runs_end {w : Str} : ∀ {cur : Str}, (∀ x ∈ w, entryChar x = true) → cur ++ w ≠ [] → runs w cur = [cur ++ w] := by
  induction w with
  | nil =>
    intro cur _ hne
    rw [List.append_nil] at hne ⊢
    show (if cur = [] then _ else _) = _
    rw [if_neg hne]
  | cons x w ih =>
    intro cur hw hne
    show (if entryChar x then runs w (cur ++ [x]) else _) = _
    have e : cur ++ [x] ++ w = cur ++ x :: w := by rw [List.append_assoc]; rfl
    rw [if_pos (hw x List.mem_cons_self), ih (fun y hy => hw y (List.mem_cons_of_mem _ hy)) (by rw [e]; exact hne), e]

theorem runs_join : ∀ {l : List Str}, (∀ w ∈ l, w ≠ [] ∧ ∀ x ∈ w, entryChar x = true) → runs (join [' '] l) [] = l
  | [], _ => rfl
  | [w], h => by
    obtain ⟨h1, h2⟩ := h w List.mem_cons_self
    have := runs_end (cur := []) h2 (by simpa using h1)
    simpa [join] using this
  | w :: v :: l, h => by
    obtain ⟨h1, h2⟩ := h w List.mem_cons_self
    have e : join [' '] (w :: v :: l) = w ++ ' ' :: join [' '] (v :: l) := by simp [join]
    rw [e, runs_run (by decide) h2 (by simpa using h1), runs_join fun x hx => h x (List.mem_cons_of_mem _ hx)]
    rfl

theorem Path.semi {s : Str} (h : Path s) : ';' ∉ s := fun hm => by
  rcases h.2 _ hm with h | h
  · exact absurd h (by decide)
  · exact absurd h (by decide)

theorem written_chars {i : Item} (h : i.Ok) : i.written ≠ [] ∧ ∀ x ∈ i.written, entryChar x = true := by
  obtain ⟨src, dst⟩ := i
  obtain ⟨h1, h2⟩ := h
  cases dst with
  | none => exact ⟨h1.1, fun x hx => (entryChar_iff x).2 (.inl (h1.2 x hx))⟩
  | some d =>
    have h2 := (h2 d rfl).1
    refine ⟨fun e => h1.1 (List.append_eq_nil_iff.1 (List.append_eq_nil_iff.1 e).1).1, fun x hx => (entryChar_iff x).2 ?_⟩
    rcases List.mem_append.1 hx with hx | hx
    · rcases List.mem_append.1 hx with hx | hx
      · exact .inl (h1.2 x hx)
      · exact .inr (by simpa using hx)
    · exact .inl (h2.2 x hx)

/-- The pair of an item. -/
def Item.pair (i : Item) : Str × Str := (i.src, i.dst.getD i.src)

theorem entry_written {i : Item} (h : i.Ok) : entry i.written = some i.pair := by
  obtain ⟨src, dst⟩ := i
  obtain ⟨h1, h2⟩ := h
  have h1 : Path src := h1
  cases dst with
  | none =>
    show (if src.contains ';' then _ else some (src, src)) = some (src, src)
    rw [if_neg]
    intro e
    exact h1.semi (List.contains_iff_mem.1 e)
  | some d =>
    have h2 := (h2 d rfl).1
    have e : (Item.mk src (some d)).written = src ++ ';' :: d := by
      show src ++ ";".toList ++ d = _
      rw [List.append_assoc]; rfl
    unfold entry
    rw [e, if_pos (List.contains_iff_mem.2 (List.mem_append_right _ List.mem_cons_self)), splitOn_append,
      splitOn_clean _ _ h1.semi, splitOn_clean _ _ h2.semi]
    show (if src = [] ∨ d = [] then none else some (src, d)) = _
    rw [if_neg]
    · rfl
    · rintro (h | h)
      · exact h1.1 h
      · exact h2.1 h

theorem entries_written : ∀ {l : List Item}, (∀ i ∈ l, i.Ok) → entries (l.map Item.written) = some (l.map Item.pair)
  | [], _ => rfl
  | i :: l, h => by
    rw [List.map_cons, entries, entry_written (h i List.mem_cons_self),
      entries_written fun j hj => h j (List.mem_cons_of_mem _ hj)]
    rfl

theorem tasks_pair {glob : Str → List Str} {i : Item} (h : i.Ok) : tasks glob i.pair = i.meant glob := by
  obtain ⟨src, dst⟩ := i
  obtain ⟨h1, h2⟩ := h
  unfold tasks Item.meant Item.pair
  dsimp only
  by_cases hs : '*' ∈ src
  · rw [if_pos (List.contains_iff_mem.2 hs), if_pos hs]
    refine List.map_congr_left fun f _ => ?_
    cases dst with
    | none =>
      show (f, if src ≠ src then _ else basename f) = _
      rw [if_neg (fun h => h rfl)]
    | some d =>
      have hne : d ≠ src := fun e => (h2 d rfl).2 (e ▸ hs)
      show (f, if d ≠ src then pathJoin d (basename f) else _) = _
      rw [if_pos hne]
  · rw [if_neg (fun e => hs (List.contains_iff_mem.1 e)), if_neg hs]

/-- C199: the files to be installed are those that the variable says. -/
theorem says_partial {glob : Str → List Str} {l : List Item} (h : ∀ i ∈ l, i.Ok) :
    installTasks glob (join [' '] (l.map Item.written)) = some (l.map (Item.meant glob)).flatten := by
  unfold installTasks
  rw [runs_join, entries_written h]
  · show some ((l.map Item.pair).map (tasks glob)).flatten = _
    rw [List.map_map]
    congr 2
    exact List.map_congr_left fun i hi => tasks_pair (h i hi)
  · intro w hw
    obtain ⟨i, hi, rfl⟩ := List.mem_map.1 hw
    exact written_chars (h i hi)

/-- The hypotheses are met. -/
example : (∀ i ∈ [Item.mk "Image".toList none, ⟨"dtb/*.dtb".toList, some "overlays".toList⟩], i.Ok) ∧
    installTasks (fun _ => ["dtb/a.dtb".toList, "dtb/b.dtb".toList]) "Image dtb/*.dtb;overlays".toList =
      some [("Image".toList, "Image".toList), ("dtb/a.dtb".toList, "overlays/a.dtb".toList),
        ("dtb/b.dtb".toList, "overlays/b.dtb".toList)] := by
  refine ⟨?_, by decide +kernel⟩
  intro i hi
  rcases List.mem_cons.1 hi with rfl | hi
  · exact ⟨⟨by decide, by unfold PathChar; decide⟩, fun _ h => nomatch h⟩
  · rcases List.mem_cons.1 hi with rfl | hi
    · refine ⟨⟨by decide, by unfold PathChar; decide⟩, fun d hd => ?_⟩
      have hd := Option.some.inj hd
      subst hd
      exact ⟨⟨by decide, by unfold PathChar; decide⟩, by decide⟩
    · cases hi

/-- C199: a name with another character is cut there: two files are installed, neither of them the one that is
written. -/
theorem other_character :
    installTasks (fun _ => []) "rpi+4.dtb".toList =
      some [("rpi".toList, "rpi".toList), ("4.dtb".toList, "4.dtb".toList)] := by decide +kernel

/-- C199: two files of a pattern with the same name in different directories get the same place. -/
theorem same_name :
    installTasks (fun _ => ["a/x.dtb".toList, "b/x.dtb".toList]) "*/x.dtb".toList =
      some [("a/x.dtb".toList, "x.dtb".toList), ("b/x.dtb".toList, "x.dtb".toList)] := by decide +kernel

/-- C199: the variable for this partition is taken: by its uuid, by its label, or the one for all. -/
theorem variable_for {get : Str → Option Str} {var uuid label : Str} :
    bootFiles get var uuid label =
      ([var ++ "_uuid-".toList ++ uuid, var ++ "_label-".toList ++ label, var].filterMap get).head? := by
  unfold bootFiles
  cases h1 : get (var ++ "_uuid-".toList ++ uuid) with
  | some v => rw [List.filterMap_cons_some h1]; rfl
  | none =>
    rw [List.filterMap_cons_none h1]
    cases h2 : get (var ++ "_label-".toList ++ label) with
    | some v => rw [List.filterMap_cons_some h2]; rfl
    | none =>
      rw [List.filterMap_cons_none h2]
      cases h3 : get var with
      | some v => rw [List.filterMap_cons_some h3]; rfl
      | none => rw [List.filterMap_cons_none h3]; rfl

/-! ## C200: what is in the partition -/

/-- A destination: names, none of them `.` or `..`, with slashes between them. -/
def Plain (d : Str) : Prop := ∃ cs, cs ≠ [] ∧ (∀ c ∈ cs, Clean c) ∧ d = join ['/'] cs

theorem render_last {cs : List Str} (hc : ∀ c ∈ cs, Clean c) (hne : cs ≠ []) : (render cs).getLast? ≠ some '/' := by
  obtain ⟨ini, l, e⟩ : ∃ ini l, cs = ini ++ [l] :=
    ⟨cs.dropLast, cs.getLast hne, (List.dropLast_concat_getLast hne).symm⟩
  have hl := hc l (e ▸ List.mem_append_right _ List.mem_cons_self)
  intro h
  rw [e, render_snoc, List.getLast?_append, List.getLast?_cons] at h
  cases hx : l.getLast? with
  | none => exact hl.1 (List.getLast?_eq_none_iff.1 hx)
  | some x =>
    rw [hx] at h
    have : x = '/' := by simpa using h
    exact hl.2.2.2 (this ▸ List.mem_of_getLast? hx)

theorem join_head {cs : List Str} (hc : ∀ c ∈ cs, Clean c) (hne : cs ≠ []) : isabs (join ['/'] cs) = false := by
  rw [Bool.eq_false_iff]
  intro h
  obtain ⟨t, ht⟩ := isabs_iff.1 h
  cases cs with
  | nil => exact hne rfl
  | cons c cs =>
    have hcl := hc c List.mem_cons_self
    obtain ⟨x, y, rfl⟩ := List.exists_cons_of_ne_nil hcl.1
    have hx : x = '/' := by
      cases cs with
      | nil => exact (List.cons.inj ht).1
      | cons d cs =>
        have e : join ['/'] ((x :: y) :: d :: cs) = (x :: y) ++ '/' :: join ['/'] (d :: cs) := by simp [join]
        rw [e] at ht
        exact (List.cons.inj ht).1
    exact hcl.2.2.2 (hx ▸ List.mem_cons_self)

theorem join_place {ws : List Str} {d : Str} (hw : ∀ c ∈ ws, Clean c) (hne : ws ≠ []) (hd : Plain d) :
    pathJoin (render ws) d = render ws ++ '/' :: d ∧ normpath (render ws ++ '/' :: d) = render ws ++ '/' :: d ∧
    endsWith (render ws ++ '/' :: d) ['/'] = false := by
  obtain ⟨cs, h1, h2, rfl⟩ := hd
  have hall : ∀ c ∈ ws ++ cs, Clean c := fun c hc => (List.mem_append.1 hc).elim (hw c) (h2 c)
  have e := render_append hne h1
  refine ⟨?_, ?_, ?_⟩
  · unfold pathJoin
    rw [if_neg (by rw [join_head h2 h1]; exact Bool.false_ne_true), if_neg]
    rintro (h | h)
    · exact nomatch h
    · exact render_last hw hne h
  · rw [← e]; exact normpath_render hall
  · rw [← e, Bool.eq_false_iff]
    intro h
    obtain ⟨t, ht⟩ := endsWith_iff.1 h
    exact render_last hall (fun e => hne (List.append_eq_nil_iff.1 e).1) (by rw [ht, List.getLast?_concat])

theorem lookup_filter_ne {fs : Fs} {d q : Str} (h : q ≠ d) : (fs.filter fun e => decide (e.1 ≠ d)).lookup q = fs.lookup q := by
  induction fs with
  | nil => rfl
  | cons e fs ih =>
    obtain ⟨k, v⟩ := e
    rw [List.filter_cons]
    by_cases hk : k = d
    · have hqk : (q == k) = false := by rw [beq_eq_false_iff_ne, hk]; exact h
      have hd : decide ((k, v).1 ≠ d) = false := by simp [hk]
      rw [hd, if_neg Bool.false_ne_true, List.lookup_cons, hqk]
      exact ih
    · have hd : decide ((k, v).1 ≠ d) = true := by simp [hk]
      rw [hd, if_pos rfl, List.lookup_cons, List.lookup_cons, ih]

/-- No file is in the way of these destinations, and none is in a directory where a file comes to. -/
def Free (hdd : Str) (fs : Fs) (ts : List (Str × Str)) : Prop :=
  ∀ e ∈ fs, ∀ t ∈ ts, (∀ x, e.1 ≠ hdd ++ '/' :: t.2 ++ '/' :: x) ∧ ∀ x, hdd ++ '/' :: t.2 ≠ e.1 ++ '/' :: x

theorem install_plain {ws : List Str} {fs : Fs} {c name : Str} {t : Str × Str} (hw : ∀ c ∈ ws, Clean c) (hne : ws ≠ [])
    (hd : Plain t.2) (hf : Free (render ws) fs [t]) :
    install fs c name (pathJoin (render ws) t.2) =
      some ((render ws ++ '/' :: t.2, c) :: fs.filter fun e => e.1 ≠ render ws ++ '/' :: t.2) := by
  obtain ⟨h1, h2, h3⟩ := join_place hw hne hd
  have hdir : isDir fs (render ws ++ '/' :: t.2) = false := by
    rw [Bool.eq_false_iff]
    intro h
    obtain ⟨e, he, hs⟩ := List.any_eq_true.1 h
    obtain ⟨x, hx⟩ := startsWith_iff.1 hs
    exact (hf e he t List.mem_cons_self).1 x (by rw [hx]; simp)
  have hbl : blocked fs (render ws ++ '/' :: t.2) = false := by
    rw [Bool.eq_false_iff]
    intro h
    obtain ⟨e, he, hs⟩ := List.any_eq_true.1 h
    obtain ⟨x, hx⟩ := startsWith_iff.1 hs
    exact (hf e he t List.mem_cons_self).2 x (by rw [hx]; simp)
  unfold install
  rw [h1, h2]
  dsimp only
  rw [hdir, if_neg Bool.false_ne_true, hdir, hbl, h3]
  rfl

/-- No file is to come into a directory with the name of another file. -/
def Apart (ts : List (Str × Str)) : Prop := ∀ t ∈ ts, ∀ u ∈ ts, ∀ x, t.2 ≠ u.2 ++ '/' :: x

theorem free_after {hdd : Str} {fs : Fs} {t : Str × Str} {ts : List (Str × Str)} {c : Str} (hf : Free hdd fs (t :: ts))
    (ha : Apart (t :: ts)) :
    Free hdd ((hdd ++ '/' :: t.2, c) :: fs.filter fun e => e.1 ≠ hdd ++ '/' :: t.2) ts := by
  intro e he u hu
  rcases List.mem_cons.1 he with he | he
  · subst he
    constructor
    · intro x hx
      have hx : hdd ++ '/' :: t.2 = hdd ++ '/' :: u.2 ++ '/' :: x := hx
      rw [List.append_assoc] at hx
      have := List.append_cancel_left hx
      exact ha t List.mem_cons_self u (List.mem_cons_of_mem _ hu) x (List.cons.inj this).2
    · intro x hx
      have hx : hdd ++ '/' :: u.2 = hdd ++ '/' :: t.2 ++ '/' :: x := hx
      rw [List.append_assoc] at hx
      have := List.append_cancel_left hx
      exact ha u (List.mem_cons_of_mem _ hu) t List.mem_cons_self x (List.cons.inj this).2
  · exact hf e (List.mem_filter.1 he).1 u (List.mem_cons_of_mem _ hu)

/-- All files are installed, and nothing else is changed. -/
theorem install_all {deploy : Str → Option Str} {ws : List Str} (hw : ∀ c ∈ ws, Clean c) (hne : ws ≠ []) :
    ∀ {ts : List (Str × Str)} {fs : Fs}, (∀ t ∈ ts, Plain t.2) → Apart ts → Free (render ws) fs ts →
    ((installAll deploy (render ws) fs ts).isSome = true ↔ ∀ t ∈ ts, (deploy t.1).isSome = true) ∧
    ∀ fs', installAll deploy (render ws) fs ts = some fs' →
      (∀ pre t post, ts = pre ++ t :: post → (∀ u ∈ post, u.2 ≠ t.2) → fs'.lookup (render ws ++ '/' :: t.2) = deploy t.1) ∧
      ∀ q, (∀ t ∈ ts, q ≠ render ws ++ '/' :: t.2) → fs'.lookup q = fs.lookup q
  | [], fs, _, _, _ => by
    refine ⟨Iff.intro (fun _ _ h => nomatch h) (fun _ => rfl), fun fs' h => ?_⟩
    cases h
    refine ⟨fun pre t post e => ?_, fun _ _ => rfl⟩
    have := congrArg List.length e
    simp at this
  | t :: ts, fs, hp, ha, hf => by
    have hp1 := hp t List.mem_cons_self
    have hins : ∀ c, install fs c (basename t.1) (pathJoin (render ws) t.2) = _ := fun c =>
      install_plain (c := c) (name := basename t.1) hw hne hp1 fun e he u hu => by
        rw [List.mem_singleton.1 hu]; exact hf e he t List.mem_cons_self
    cases hd : deploy t.1 with
    | none =>
      have e : installAll deploy (render ws) fs (t :: ts) = none := by
        unfold installAll installOne
        rw [hd]
      rw [e]
      refine ⟨Iff.intro (fun h => nomatch h) (fun h => ?_), fun _ h => nomatch h⟩
      have := h t List.mem_cons_self
      rw [hd] at this; cases this
    | some c =>
      have e : installAll deploy (render ws) fs (t :: ts) = installAll deploy (render ws)
          ((render ws ++ '/' :: t.2, c) :: fs.filter fun e => e.1 ≠ render ws ++ '/' :: t.2) ts := by
        conv => lhs; unfold installAll installOne
        rw [hd]
        dsimp only
        rw [hins c]
      have hsub : Apart ts := fun a h1 b h2 => ha a (List.mem_cons_of_mem _ h1) b (List.mem_cons_of_mem _ h2)
      obtain ⟨i1, i2⟩ := install_all (deploy := deploy) hw hne (fun u hu => hp u (List.mem_cons_of_mem _ hu)) hsub
        (free_after (c := c) hf ha)
      rw [e]
      refine ⟨i1.trans ⟨fun h u hu => ?_, fun h u hu => h u (List.mem_cons_of_mem _ hu)⟩, fun fs' hfs => ?_⟩
      · rcases List.mem_cons.1 hu with rfl | hu
        · rw [hd]; rfl
        · exact h u hu
      · obtain ⟨j1, j2⟩ := i2 fs' hfs
        refine ⟨fun pre u post eq hlast => ?_, fun q hq => ?_⟩
        · cases pre with
          | nil =>
            obtain ⟨e1, e2⟩ := List.cons.inj eq
            subst e1; subst e2
            rw [j2 _ fun v hv ev => ?_, List.lookup_cons, beq_self_eq_true, hd]
            exact hlast v hv (List.cons.inj (List.append_cancel_left ev)).2.symm
          | cons v pre => exact j1 pre u post (List.cons.inj eq).2 hlast
        · rw [j2 q fun v hv => hq v (List.mem_cons_of_mem _ hv), List.lookup_cons,
            beq_eq_false_iff_ne.2 (hq t List.mem_cons_self)]
          exact lookup_filter_ne (hq t List.mem_cons_self)

/-- A directory that is new: nothing is in it, and no file is it or is above it. -/
def New (hdd : Str) (fs : Fs) : Prop :=
  ∀ e ∈ fs, e.1 ≠ hdd ∧ (∀ x, e.1 ≠ hdd ++ '/' :: x) ∧ ∀ x, hdd ≠ e.1 ++ '/' :: x

theorem New.free {hdd : Str} {fs : Fs} {ts : List (Str × Str)} (h : New hdd fs) : Free hdd fs ts := by
  intro e he t _
  obtain ⟨h1, h2, h3⟩ := h e he
  refine ⟨fun x hx => h2 _ (by rw [hx, List.append_assoc]; rfl), fun x hx => ?_⟩
  rcases List.append_eq_append_iff.1 hx with ⟨a, e1, e2⟩ | ⟨a, e1, e2⟩
  · cases a with
    | nil => exact h1 (by rw [e1, List.append_nil])
    | cons y a =>
      have := (List.cons.inj e2).1
      subst this
      exact h2 a e1
  · cases a with
    | nil => exact h1 (by rw [e1, List.append_nil])
    | cons y a =>
      have := (List.cons.inj e2).1
      subst this
      exact h3 a e1

/-- C200: the partition has each file with its content, of two for the same place the last one, and nothing else.
Outside of it nothing changes.  A file that is missing is an error, and that is the only one. -/
theorem installed_partial {deploy : Str → Option Str} {ws : List Str} {ts : List (Str × Str)} {fs : Fs}
    (hw : ∀ c ∈ ws, Clean c) (hne : ws ≠ []) (hp : ∀ t ∈ ts, Plain t.2) (ha : Apart ts) (hn : New (render ws) fs) :
    ((installAll deploy (render ws) fs ts).isSome = true ↔ ∀ t ∈ ts, (deploy t.1).isSome = true) ∧
    ∀ fs', installAll deploy (render ws) fs ts = some fs' →
      (∀ pre t post, ts = pre ++ t :: post → (∀ u ∈ post, u.2 ≠ t.2) → fs'.lookup (render ws ++ '/' :: t.2) = deploy t.1) ∧
      (∀ x, (∀ t ∈ ts, x ≠ t.2) → fs'.lookup (render ws ++ '/' :: x) = none) ∧
      ∀ q, (∀ x, q ≠ render ws ++ '/' :: x) → fs'.lookup q = fs.lookup q := by
  obtain ⟨h1, h2⟩ := install_all (deploy := deploy) hw hne hp ha hn.free
  refine ⟨h1, fun fs' hfs => ?_⟩
  obtain ⟨j1, j2⟩ := h2 fs' hfs
  refine ⟨j1, fun x hx => ?_, fun q hq => j2 q fun t _ => hq t.2⟩
  rw [j2 _ fun t ht e => hx t ht (List.cons.inj (List.append_cancel_left e)).2]
  cases hl : fs.lookup (render ws ++ '/' :: x) with
  | none => rfl
  | some v =>
    have key : ∀ (l : Fs), l.lookup (render ws ++ '/' :: x) = some v → (render ws ++ '/' :: x, v) ∈ l := by
      intro l
      induction l with
      | nil => intro h; cases h
      | cons e l ih =>
        obtain ⟨k, y⟩ := e
        intro h
        rw [List.lookup_cons] at h
        split at h
        · rename_i hk
          have hk := eq_of_beq hk
          cases h
          rw [hk]; exact List.mem_cons_self
        · exact List.mem_cons_of_mem _ (ih h)
    exact absurd rfl ((hn _ (key fs hl)).2.1 x)

/-- The hypotheses are met. -/
example : let ts := [("Image".toList, "Image".toList), ("a.dtb".toList, "dtb/a.dtb".toList)]
    (∀ c ∈ ["w".toList, "boot.3".toList], Clean c) ∧ (∀ t ∈ ts, Plain t.2) ∧
    New (render ["w".toList, "boot.3".toList]) [("/etc/passwd".toList, "p".toList)] ∧
    installAll (fun s => some ("content of ".toList ++ s)) (render ["w".toList, "boot.3".toList])
      [("/etc/passwd".toList, "p".toList)] ts =
      some [("/w/boot.3/dtb/a.dtb".toList, "content of a.dtb".toList), ("/w/boot.3/Image".toList, "content of Image".toList),
        ("/etc/passwd".toList, "p".toList)] := by
  refine ⟨by decide, ?_, ?_, by decide +kernel⟩
  · intro t ht
    rcases List.mem_cons.1 ht with rfl | ht
    · exact ⟨["Image".toList], by decide, by decide, rfl⟩
    · rcases List.mem_cons.1 ht with rfl | ht
      · exact ⟨["dtb".toList, "a.dtb".toList], by decide, by decide, by decide⟩
      · cases ht
  · intro e he
    rw [List.mem_singleton.1 he]
    refine ⟨by decide, fun x hx => ?_, fun x hx => ?_⟩
    · have := congrArg (List.take 2) hx
      rw [List.take_append_of_le_length (by decide)] at this
      exact absurd this (by decide)
    · have := congrArg (List.take 2) hx
      rw [List.take_append_of_le_length (by decide)] at this
      exact absurd this (by decide)

/-- C200: a destination that begins with a slash is one of the machine that builds: its file is overwritten. -/
theorem absolute_destination :
    prepare (fun v => if v = "B".toList then some "key;/etc/passwd".toList else none) (fun _ => [])
      (fun _ => some "new".toList) "/w/boot.3".toList [("/etc/passwd".toList, "old".toList)] "B".toList [] [] =
    some [("/etc/passwd".toList, "new".toList)] := by decide +kernel

/-- C200: a destination with `..` leaves the partition. -/
theorem above_destination :
    prepare (fun v => if v = "B".toList then some "key;../boot.4/key".toList else none) (fun _ => [])
      (fun _ => some "new".toList) "/w/boot.3".toList [] "B".toList [] [] =
    some [("/w/boot.4/key".toList, "new".toList)] := by decide +kernel

/-- C199, C200: from the variable to the partition. -/
theorem from_variable_partial {get : Str → Option Str} {glob : Str → List Str} {deploy : Str → Option Str}
    {ws : List Str} {fs fs' : Fs} {var uuid label : Str} {l : List Item}
    (hv : bootFiles get var uuid label = some (join [' '] (l.map Item.written))) (hok : ∀ i ∈ l, i.Ok)
    (hw : ∀ c ∈ ws, Clean c) (hne : ws ≠ []) (hp : ∀ i ∈ l, ∀ t ∈ i.meant glob, Plain t.2)
    (ha : Apart (l.map (Item.meant glob)).flatten) (hdist : ((l.map (Item.meant glob)).flatten.map (·.2)).Nodup)
    (hn : New (render ws) fs) (h : prepare get glob deploy (render ws) fs var uuid label = some fs') :
    (∀ i ∈ l, ∀ t ∈ i.meant glob, ∃ c, deploy t.1 = some c ∧ fs'.lookup (render ws ++ '/' :: t.2) = some c) ∧
    (∀ x, (∀ i ∈ l, ∀ t ∈ i.meant glob, x ≠ t.2) → fs'.lookup (render ws ++ '/' :: x) = none) ∧
    ∀ q, (∀ x, q ≠ render ws ++ '/' :: x) → fs'.lookup q = fs.lookup q := by
  unfold prepare at h
  rw [hv] at h
  dsimp only at h
  rw [says_partial hok] at h
  dsimp only at h
  have hmem : ∀ t, t ∈ (l.map (Item.meant glob)).flatten ↔ ∃ i ∈ l, t ∈ i.meant glob := by
    intro t
    rw [List.mem_flatten]
    constructor
    · rintro ⟨x, hx, ht⟩
      obtain ⟨i, hi, rfl⟩ := List.mem_map.1 hx
      exact ⟨i, hi, ht⟩
    · rintro ⟨i, hi, ht⟩
      exact ⟨_, List.mem_map.2 ⟨i, hi, rfl⟩, ht⟩
  obtain ⟨h1, h2⟩ := installed_partial (deploy := deploy) (ts := (l.map (Item.meant glob)).flatten) hw hne
    (fun t ht => by obtain ⟨i, hi, ht⟩ := (hmem t).1 ht; exact hp i hi t ht) ha hn
  obtain ⟨j1, j2, j3⟩ := h2 fs' h
  refine ⟨fun i hi t ht => ?_, fun x hx => j2 x fun t ht => ?_, j3⟩
  · have htm := (hmem t).2 ⟨i, hi, ht⟩
    have hs := h1.1 (by rw [h]; rfl) t htm
    obtain ⟨c, hc⟩ := Option.isSome_iff_exists.1 hs
    refine ⟨c, hc, ?_⟩
    obtain ⟨pre, post, e⟩ := List.append_of_mem htm
    rw [← hc]
    refine j1 pre t post e fun u hu eu => ?_
    rw [e, List.map_append, List.map_cons, List.nodup_append] at hdist
    have := (List.nodup_cons.1 hdist.2.1).1
    exact this (List.mem_map.2 ⟨u, hu, eu⟩)
  · obtain ⟨i, hi, ht⟩ := (hmem t).1 ht
    exact hx i hi t ht

/-- The hypotheses are met. -/
example : let get := fun v => if v = "B".toList then some "Image;boot/linux".toList else none
    bootFiles get "B".toList "u".toList "l".toList =
      some (join [' '] ([Item.mk "Image".toList (some "boot/linux".toList)].map Item.written)) ∧
    [Item.mk "Image".toList (some "boot/linux".toList)].map (Item.meant fun _ => []) =
      [[("Image".toList, "boot/linux".toList)]] ∧
    Plain "boot/linux".toList ∧ Apart [("Image".toList, "boot/linux".toList)] ∧
    prepare get (fun _ => []) (fun _ => some "k".toList) (render ["w".toList]) [] "B".toList "u".toList "l".toList =
      some [("/w/boot/linux".toList, "k".toList)] := by
  refine ⟨by decide +kernel, by decide +kernel, ⟨["boot".toList, "linux".toList], by decide, by decide, by decide⟩, ?_,
    by decide +kernel⟩
  intro t ht u hu x hx
  rw [List.mem_singleton.1 ht, List.mem_singleton.1 hu] at hx
  have := congrArg List.length hx
  rw [List.length_append, List.length_cons] at this
  omega

/-! ## C201: the kernel that is started -/

/-- The file is a kernel of this kind. -/
def Kind (k : Str) (t : Str × Str) : Prop := ∃ r, t.1 = k ++ r

theorem kernelOf_some {k n : Str} : ∀ {ts : List (Str × Str)}, kernelOf k ts = some n ↔
    ∃ pre t post, ts = pre ++ t :: post ∧ Kind k t ∧ (∀ u ∈ pre, ¬ Kind k u) ∧ n = pathJoin ['/'] t.2
  | [] => by
    constructor
    · intro h; cases h
    · rintro ⟨pre, t, post, e, -⟩
      have := congrArg List.length e
      simp at this
  | t :: ts => by
    unfold kernelOf
    by_cases h : startsWith t.1 k = true
    · rw [if_pos h]
      constructor
      · intro e; cases e; exact ⟨[], t, ts, rfl, startsWith_iff.1 h, (fun _ h => nomatch h), rfl⟩
      · rintro ⟨pre, u, post, e, hk, hn, rfl⟩
        cases pre with
        | nil => rw [(List.cons.inj e).1]
        | cons v pre =>
          exact absurd (startsWith_iff.1 h) (hn t ((List.cons.inj e).1 ▸ List.mem_cons_self))
    · rw [if_neg h, kernelOf_some]
      constructor
      · rintro ⟨pre, u, post, e, hk, hn, rfl⟩
        refine ⟨t :: pre, u, post, by rw [e]; rfl, hk, fun v hv => ?_, rfl⟩
        rcases List.mem_cons.1 hv with rfl | hv
        · exact fun hx => h (startsWith_iff.2 hx)
        · exact hn v hv
      · rintro ⟨pre, u, post, e, hk, hn, rfl⟩
        cases pre with
        | nil => exact absurd (startsWith_iff.2 ((List.cons.inj e).1 ▸ hk)) h
        | cons v pre =>
          exact ⟨pre, u, post, (List.cons.inj e).2, hk, fun x hx => hn x (List.mem_cons_of_mem _ hx), rfl⟩

theorem kernelOf_none {k : Str} : ∀ {ts : List (Str × Str)}, kernelOf k ts = none ↔ ∀ t ∈ ts, ¬ Kind k t
  | [] => Iff.intro (fun _ _ h => nomatch h) (fun _ => rfl)
  | t :: ts => by
    unfold kernelOf
    by_cases h : startsWith t.1 k = true
    · rw [if_pos h]
      exact Iff.intro (fun e => nomatch e) (fun hx => absurd (startsWith_iff.1 h) (hx t List.mem_cons_self))
    · rw [if_neg h, kernelOf_none, List.forall_mem_cons]
      exact Iff.intro (fun hx => ⟨fun hk => h (startsWith_iff.2 hk), hx⟩) (fun hx => hx.2)

theorem kernelName_iff {n : Str} {ts : List (Str × Str)} : ∀ {ks : List Str}, kernelName ts ks = some n ↔
    ∃ before k after pre t post, ks = before ++ k :: after ∧ (∀ j ∈ before, ∀ u ∈ ts, ¬ Kind j u) ∧
      ts = pre ++ t :: post ∧ Kind k t ∧ (∀ u ∈ pre, ¬ Kind k u) ∧ n = pathJoin ['/'] t.2
  | [] => by
    constructor
    · intro h; cases h
    · rintro ⟨before, k, after, pre, t, post, e, -⟩
      have := congrArg List.length e
      simp at this
  | k :: ks => by
    unfold kernelName
    cases h : kernelOf k ts with
    | some m =>
      dsimp only
      obtain ⟨pre, t, post, e, hk, hn, rfl⟩ := kernelOf_some.1 h
      constructor
      · intro hm
        cases hm
        exact ⟨[], k, ks, pre, t, post, rfl, (fun _ h => nomatch h), e, hk, hn, rfl⟩
      · rintro ⟨before, k', after, pre', t', post', e1, hb, e2, hk', hn', rfl⟩
        cases before with
        | nil =>
          have := (List.cons.inj e1).1
          subst this
          have := kernelOf_some.2 ⟨pre', t', post', e2, hk', hn', rfl⟩
          rw [h] at this
          exact this
        | cons j before =>
          have := (List.cons.inj e1).1
          subst this
          exact absurd hk (hb _ List.mem_cons_self t (e ▸ List.mem_append_right _ List.mem_cons_self))
    | none =>
      dsimp only
      have hno := kernelOf_none.1 h
      rw [kernelName_iff]
      constructor
      · rintro ⟨before, k', after, pre, t, post, e1, hb, rest⟩
        refine ⟨k :: before, k', after, pre, t, post, by rw [e1]; rfl, fun j hj => ?_, rest⟩
        rcases List.mem_cons.1 hj with rfl | hj
        · exact hno
        · exact hb j hj
      · rintro ⟨before, k', after, pre, t, post, e1, hb, e2, hk, rest⟩
        cases before with
        | nil =>
          have := (List.cons.inj e1).1
          subst this
          exact absurd hk (hno t (e2 ▸ List.mem_append_right _ List.mem_cons_self))
        | cons j before =>
          exact ⟨before, k', after, pre, t, post, (List.cons.inj e1).2,
            fun x hx => hb x (List.mem_cons_of_mem _ hx), e2, hk, rest⟩

/-- C201: the kernel of the configuration is a file of the partition: the first one of the first kind there is. -/
theorem kernel_first {n : Str} {ts : List (Str × Str)} : kernelName ts kernelTypes = some n ↔
    ∃ before k after pre t post, ["zImage".toList, "Image".toList, "fitImage".toList, "uImage".toList, "vmlinux".toList] =
        before ++ k :: after ∧ (∀ j ∈ before, ∀ u ∈ ts, ¬ Kind j u) ∧
      ts = pre ++ t :: post ∧ Kind k t ∧ (∀ u ∈ pre, ¬ Kind k u) ∧ n = pathJoin ['/'] t.2 := kernelName_iff

/-- The source has `.dtb` in it. -/
def Tree (t : Str × Str) : Prop := ∃ a b, t.1 = a ++ ".dtb".toList ++ b

/-- C201: the directory for device trees is that of the first one. -/
theorem tree_first {d : Str} : ∀ {ts : List (Str × Str)}, fdtDir ts = some d ↔
    ∃ pre t post, ts = pre ++ t :: post ∧ Tree t ∧ (∀ u ∈ pre, ¬ Tree u) ∧ d = pathJoin ['/'] (dirname t.2)
  | [] => by
    constructor
    · intro h; cases h
    · rintro ⟨pre, t, post, e, -⟩
      have := congrArg List.length e
      simp at this
  | t :: ts => by
    have hs : isSub ".dtb".toList t.1 = true ↔ Tree t := isSub_iff
    unfold fdtDir
    by_cases h : isSub ".dtb".toList t.1 = true
    · rw [if_pos h]
      constructor
      · intro e; cases e; exact ⟨[], t, ts, rfl, hs.1 h, (fun _ h => nomatch h), rfl⟩
      · rintro ⟨pre, u, post, e, hk, hn, rfl⟩
        cases pre with
        | nil => rw [(List.cons.inj e).1]
        | cons v pre => exact absurd (hs.1 h) (hn t ((List.cons.inj e).1 ▸ List.mem_cons_self))
    · rw [if_neg h, tree_first]
      constructor
      · rintro ⟨pre, u, post, e, hk, hn, rfl⟩
        refine ⟨t :: pre, u, post, by rw [e]; rfl, hk, fun v hv => ?_, rfl⟩
        rcases List.mem_cons.1 hv with rfl | hv
        · exact fun hx => h (hs.2 hx)
        · exact hn v hv
      · rintro ⟨pre, u, post, e, hk, hn, rfl⟩
        cases pre with
        | nil => exact absurd (hs.2 ((List.cons.inj e).1 ▸ hk)) h
        | cons v pre =>
          exact ⟨pre, u, post, (List.cons.inj e).2, hk, fun x hx => hn x (List.mem_cons_of_mem _ hx), rfl⟩

/-- C201: device trees in another directory than the first one are not found by the boot loader. -/
theorem other_trees : fdtDir [("a.dtb".toList, "a/a.dtb".toList), ("b.dtb".toList, "b/b.dtb".toList)] = some "/a".toList := by
  decide +kernel

/-- C201: with this kernel, the directory of the first device tree if there is one, and the root device. -/
theorem config {ts : List (Str × Str)} {rootdev append k : Str} (h : kernelName ts kernelTypes = some k)
    (hk : '\n' ∉ k) (hr : '\n' ∉ rootdev) (ha : '\n' ∉ append) (hd : ∀ d, fdtDir ts = some d → '\n' ∉ d) :
    ∃ text, extlinux ts rootdev append = some text ∧
      splitOn '\n' text = ["default Yocto".toList, "label Yocto".toList, "   kernel ".toList ++ k] ++
        (match fdtDir ts with | some d => ["   fdtdir ".toList ++ d] | none => []) ++
        ["append root=".toList ++ rootdev ++ " rootwait ".toList ++ append, []] := by
  unfold extlinux
  rw [h]
  refine ⟨_, rfl, ?_⟩
  have no : ∀ {a b : Str}, '\n' ∉ a → '\n' ∉ b → '\n' ∉ a ++ b := fun h1 h2 hm => (List.mem_append.1 hm).elim h1 h2
  have last : splitOn '\n' ("append root=".toList ++ rootdev ++ " rootwait ".toList ++ append ++ "\n".toList) =
      ["append root=".toList ++ rootdev ++ " rootwait ".toList ++ append, []] := by
    show splitOn '\n' (_ ++ '\n' :: []) = _
    rw [splitOn_append, splitOn_clean _ _ (no (no (no (by decide) hr) (by decide)) ha)]
    rfl
  have lines : ∀ r : Str, splitOn '\n' ("default Yocto\nlabel Yocto\n   kernel ".toList ++ k ++ "\n".toList ++ r) =
      ["default Yocto".toList, "label Yocto".toList, "   kernel ".toList ++ k] ++ splitOn '\n' r := by
    intro r
    have e : "default Yocto\nlabel Yocto\n   kernel ".toList ++ k ++ "\n".toList ++ r =
        "default Yocto".toList ++ '\n' :: ("label Yocto".toList ++ '\n' :: (("   kernel ".toList ++ k) ++ '\n' :: r)) := by
      have e0 : "default Yocto\nlabel Yocto\n   kernel ".toList =
        "default Yocto".toList ++ '\n' :: ("label Yocto".toList ++ '\n' :: "   kernel ".toList) := by decide
      have e1 : "\n".toList = ['\n'] := rfl
      rw [e0, e1]
      simp only [List.append_assoc, List.cons_append, List.nil_append]
    rw [e, splitOn_append, splitOn_append, splitOn_append, splitOn_clean _ _ (by decide), splitOn_clean _ _ (by decide),
      splitOn_clean _ _ (no (by decide) hk)]
    rfl
  cases hf : fdtDir ts with
  | none =>
    dsimp only
    have e : ∀ (a b c d e f : Str), a ++ b ++ c ++ [] ++ d ++ e ++ f = a ++ b ++ c ++ (d ++ e ++ f) := by
      intros; simp only [List.append_assoc, List.nil_append]
    have := lines ("append root=".toList ++ rootdev ++ " rootwait ".toList ++ append ++ "\n".toList)
    rw [last] at this
    rw [← List.append_nil ["default Yocto".toList, "label Yocto".toList, "   kernel ".toList ++ k]] at this
    rw [← this]
    simp only [List.append_assoc, List.nil_append]
  | some d =>
    dsimp only
    have hl := lines ("   fdtdir ".toList ++ d ++ '\n' :: ("append root=".toList ++ rootdev ++ " rootwait ".toList ++ append ++ "\n".toList))
    rw [splitOn_append, splitOn_clean _ _ (no (by decide) (hd d hf)), last] at hl
    rw [List.append_assoc ["default Yocto".toList, "label Yocto".toList, "   kernel ".toList ++ k], ← hl]
    have e1 : "\n".toList = ['\n'] := rfl
    rw [e1]
    simp only [List.append_assoc, List.nil_append, List.cons_append]

/-- The hypotheses are met. -/
example : extlinux [("a.dtb".toList, "dtb/a.dtb".toList), ("Image".toList, "Image".toList), ("zImage-1".toList, "z".toList)]
    "/dev/sda2".toList "quiet".toList =
    some "default Yocto\nlabel Yocto\n   kernel /z\n   fdtdir /dtb\nappend root=/dev/sda2 rootwait quiet\n".toList := by
  decide +kernel

/-- C201: a kernel in a directory is not found, the build ends. -/
theorem kernel_in_directory : extlinux [("boot/zImage".toList, "zImage".toList)] "/dev/sda2".toList [] = none := by
  decide +kernel

end Isar.Wic.Boot
