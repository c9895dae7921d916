import Verif.Meta.PathsSpec
/-!
# Properties of the path guards
-/

namespace Isar.Paths
open Py

/-! ### C33, C62: templates -/

theorem mem_transformGo {w : Str} : ∀ {fs : List Str} {o : Str}, o ∈ (transformGo w fs).1 →
    ∃ f ∈ fs, startsWith (templatePath w f) w = true ∧ o = templateOut (templatePath w f)
  | [], o, h => by cases h
  | f :: fs, o, h => by
    unfold transformGo at h
    dsimp only at h
    split at h
    · rename_i hs
      rcases List.mem_cons.mp h with rfl | h'
      · exact ⟨f, List.mem_cons_self, hs, rfl⟩
      · obtain ⟨g, hg, h1, h2⟩ := mem_transformGo h'
        exact ⟨g, List.mem_cons_of_mem _ hg, h1, h2⟩
    · cases h

theorem splitextRoot_tmpl {ds : List Str} {b : Str} (hb : '/' ∉ b) :
    splitextRoot (render (ds ++ [b ++ ".tmpl".toList])) =
      if b.any (· ≠ '.') then render (ds ++ [b]) else render (ds ++ [b ++ ".tmpl".toList]) := by
  have hb' : '/' ∉ b ++ ".tmpl".toList := by
    intro h
    rcases List.mem_append.mp h with h' | h'
    · exact hb h'
    · exact absurd h' (by decide)
  unfold splitextRoot
  rw [basename_render hb', headPart_render hb']
  have hpre : ((b ++ ".tmpl".toList).reverse.dropWhile (· ≠ '.')).reverse.dropLast = b := by
    have e1 : (b ++ ".tmpl".toList).reverse = ['l', 'p', 'm', 't'] ++ '.' :: b.reverse := by
      rw [List.reverse_append]; rfl
    rw [e1, dropWhile_append_stop (by decide) (by decide), List.reverse_cons, List.reverse_reverse,
      List.dropLast_concat]
  have hdot : (b ++ ".tmpl".toList).contains '.' = true := by
    rw [List.contains_iff_mem]
    exact List.mem_append_right _ (by decide)
  dsimp only
  rw [hpre, hdot, Bool.true_and]
  split
  · rw [render_snoc, List.append_assoc]; rfl
  · rfl

/-- The result of a template `ds/b` is a file in the same directory. -/
theorem templateOut_render {ds : List Str} {b : Str} (hb : Clean b) :
    ∃ b', Clean b' ∧ templateOut (render (ds ++ [b])) = render (ds ++ [b']) := by
  unfold templateOut
  split
  · rename_i h
    obtain ⟨t, ht⟩ := endsWith_iff.mp h
    -- the ending lies within the last component
    rw [render_snoc] at ht
    have hlen : 5 ≤ b.length := by
      rcases Nat.lt_or_ge b.length 5 with hlt | hge
      · exfalso
        have h1 : ('/' :: b) <:+ ".tmpl".toList := by
          refine List.suffix_of_suffix_length_le (l₃ := t ++ ".tmpl".toList) ?_ ?_ ?_
          · rw [← ht]; exact List.suffix_append _ _
          · exact List.suffix_append _ _
          · rw [List.length_cons]
            show b.length + 1 ≤ 5
            omega
        have : '/' ∈ ".tmpl".toList := h1.subset List.mem_cons_self
        exact absurd this (by decide)
      · exact hge
    have h2 : ".tmpl".toList <:+ b := by
      refine List.suffix_of_suffix_length_le (l₃ := t ++ ".tmpl".toList) ?_ ?_ ?_
      · exact List.suffix_append _ _
      · rw [← ht]
        exact ⟨dirText ds ++ ['/'], by rw [List.append_assoc]; rfl⟩
      · exact hlen
    obtain ⟨x, rfl⟩ := h2
    have hx : '/' ∉ x := fun e => hb.2.2.2 (List.mem_append_left _ e)
    rw [splitextRoot_tmpl hx]
    split
    · rename_i hany
      obtain ⟨c, hc, hcd⟩ := List.any_eq_true.mp hany
      have hcd' : c ≠ '.' := by simpa using hcd
      refine ⟨x, ⟨?_, ?_, ?_, hx⟩, rfl⟩
      · rintro rfl; cases hc
      · rintro rfl
        exact hcd' (by simpa [dot] using hc)
      · rintro rfl
        exact hcd' (by simpa [dotdot] using hc)
    · exact ⟨_, hb, rfl⟩
  · refine ⟨b ++ ".out".toList, ⟨?_, ?_, ?_, ?_⟩, ?_⟩
    · simp
    · intro e
      have := congrArg List.length e
      simp [dot] at this
    · intro e
      have := congrArg List.length e
      simp [dotdot] at this
    · intro h
      rcases List.mem_append.mp h with h' | h'
      · exact hb.2.2.2 h'
      · exact absurd h' (by decide)
    · rw [render_snoc, render_snoc, List.append_assoc]; rfl

theorem templatePath_norm (w f : Str) : ∃ x, templatePath w f = normpath x := by
  unfold templatePath
  dsimp only
  split
  · exact ⟨f, rfl⟩
  · exact ⟨_, rfl⟩

theorem head_render {ds : List Str} (hne : ds ≠ []) (h : ∀ c ∈ ds, Name c) :
    ∃ c r, render ds = '/' :: c :: r ∧ c ≠ '/' := by
  unfold render
  have := join_names_head h
  cases hj : join ['/'] ds with
  | nil =>
    cases ds with
    | nil => exact absurd rfl hne
    | cons d ds =>
      cases ds with
      | nil => exact absurd hj (h d List.mem_cons_self).1
      | cons e es =>
        have := congrArg List.length hj
        simp only [join, List.length_append, List.length_cons, List.length_nil] at this
        omega
  | cons c r =>
    rw [hj] at this
    exact ⟨c, r, rfl, fun e => this (by rw [e]; rfl)⟩

/-- **C33 (partial).**  `WORKDIR` is an absolute path, not the root.  Every file written by
template processing lies below `WORKDIR`, or the normalised name of its template continues the
text of `WORKDIR` without a slash.  Missing: that the second case cannot happen, which is false
(`template_outside`); symbolic links below `WORKDIR` are not considered. -/
theorem template_inside_partial {workdir files o : Str} (habs : initSlashes workdir = 1)
    (hne : normComps workdir ≠ []) (ho : o ∈ (transform workdir files).1) :
    Below workdir o ∨ ∃ f ∈ words files, ∃ rest,
      templatePath (normpath workdir) f = normpath workdir ++ rest ∧ rest.head? ≠ some '/' := by
  unfold transform at ho
  obtain ⟨f, hf, hs, rfl⟩ := mem_transformGo ho
  obtain ⟨rest, hr⟩ := startsWith_iff.mp hs
  by_cases hh : rest.head? = some '/'
  · left
    obtain ⟨r, rfl⟩ : ∃ r, rest = '/' :: r := by
      cases rest with
      | nil => cases hh
      | cons c r =>
        simp only [List.head?_cons, Option.some.injEq] at hh
        exact ⟨r, by rw [hh]⟩
    have hw := normComps_clean (initSlashes_abs habs)
    rw [normpath_abs habs] at hr ⊢
    obtain ⟨x, hx⟩ := templatePath_norm (render (normComps workdir)) f
    obtain ⟨c, r2, hc, hcs⟩ := head_render hne (fun c hc => (hw c hc).name)
    have hx1 : initSlashes x = 1 := by
      refine normpath_render_of (s := x) (c := c) (r := r2 ++ '/' :: r) ?_ hcs
      rw [← hx, hr, hc]; rfl
    have hxc := normComps_clean (initSlashes_abs hx1)
    have ht : templatePath (render (normComps workdir)) f = render (normComps x) := by
      rw [hx, normpath_abs hx1]
    obtain ⟨y, hy, hxy⟩ := (render_below hw hxc hne).mp ⟨r, by rw [← ht, hr]⟩
    obtain ⟨ys, b, rfl⟩ := (List.eq_nil_or_concat y).resolve_left hy
    rw [List.concat_eq_append] at hxy
    rw [ht, hxy, ← List.append_assoc]
    have hall : ∀ c ∈ normComps workdir ++ ys, Clean c := by
      intro c hc
      refine hxc c ?_
      rw [hxy, ← List.append_assoc]
      exact List.mem_append_left _ hc
    have hb : Clean b := hxc b (by rw [hxy]; simp)
    obtain ⟨b', hb', ho'⟩ := templateOut_render (ds := normComps workdir ++ ys) hb
    rw [ho']
    refine ⟨ys ++ [b'], by simp, ?_⟩
    rw [normComps_render, List.append_assoc]
    intro c hc
    rcases List.mem_append.mp hc with hc' | hc'
    · exact hall c hc'
    · rw [List.mem_singleton.mp hc']; exact hb'
  · exact Or.inr ⟨f, hf, rest, hr, hh⟩

/-- **C33 is false in general**: a template in a directory whose name begins with the name of the
work directory is accepted, and the result is written there. -/
theorem template_outside :
    transform "/build/work".toList "../workshop/file.tmpl".toList =
      (["/build/workshop/file".toList], true) ∧
    ¬ Below "/build/work".toList "/build/workshop/file".toList := by
  refine ⟨by decide +kernel, ?_⟩
  rintro ⟨x, hx, h⟩
  have e1 : normComps "/build/workshop/file".toList =
      ["build".toList, "workshop".toList, "file".toList] := by decide +kernel
  have e2 : normComps "/build/work".toList = ["build".toList, "work".toList] := by decide +kernel
  rw [e1, e2] at h
  simp only [List.cons_append, List.cons.injEq] at h
  exact absurd h.2.1 (by decide)

/-- **C33.**  A template that is refused stops the task: only the results of the templates before
it are written, and each accepted template gives one file. -/
theorem transform_written (workdir : Str) : ∀ fs : List Str,
    ∃ k, k ≤ fs.length ∧ ((transformGo workdir fs).2 = true ↔ k = fs.length) ∧
      (transformGo workdir fs).1 = (fs.take k).map (fun f => templateOut (templatePath workdir f)) ∧
      (∀ f ∈ fs.take k, startsWith (templatePath workdir f) workdir = true) ∧
      ∀ f, fs[k]? = some f → startsWith (templatePath workdir f) workdir = false
  | [] => ⟨0, by simp [transformGo]⟩
  | f :: fs => by
    obtain ⟨k, h1, h2, h3, h4, h5⟩ := transform_written workdir fs
    unfold transformGo
    dsimp only
    by_cases hs : startsWith (templatePath workdir f) workdir = true
    · rw [if_pos hs]
      refine ⟨k + 1, by simpa using h1, by simpa using h2, by simp [h3], ?_, by simpa using h5⟩
      intro g hg
      rw [List.take_succ_cons] at hg
      rcases List.mem_cons.mp hg with rfl | hg'
      · exact hs
      · exact h4 g hg'
    · rw [if_neg hs]
      refine ⟨0, by simp, by simp, by simp, by simp, ?_⟩
      intro g hg
      simp only [List.getElem?_cons_zero, Option.some.injEq] at hg
      rw [← hg]; simpa using hs

/-- **C62.**  The result of a template is a file in the directory of the template: `x.tmpl` gives
`x`, any other name `x` gives `x.out`. -/
theorem template_result_name {ds : List Str} {b : Str} (hb : '/' ∉ b) (hd : b.any (· ≠ '.') = true) :
    templateOut (render (ds ++ [b ++ ".tmpl".toList])) = render (ds ++ [b]) ∧
    (endsWith (render (ds ++ [b])) ".tmpl".toList = false →
      templateOut (render (ds ++ [b])) = render (ds ++ [b ++ ".out".toList])) := by
  constructor
  · unfold templateOut
    rw [if_pos, splitextRoot_tmpl hb, if_pos hd]
    refine endsWith_iff.mpr ⟨render (ds ++ [b]), ?_⟩
    rw [render_snoc, render_snoc, List.append_assoc]; rfl
  · intro h
    unfold templateOut
    rw [h, if_neg (by decide), render_snoc, render_snoc, List.append_assoc]; rfl

/-- **C62 (partial).**  The template itself is not overwritten.  Missing: templates whose name
consists of dots before `.tmpl`, which are overwritten (`template_overwritten`). -/
theorem template_kept_partial {ds : List Str} {b : Str} (hb : '/' ∉ b)
    (hd : ∀ x, b = x ++ ".tmpl".toList → x.any (· ≠ '.') = true) :
    templateOut (render (ds ++ [b])) ≠ render (ds ++ [b]) := by
  intro h
  by_cases he : ∃ x, b = x ++ ".tmpl".toList
  · obtain ⟨x, rfl⟩ := he
    have hx : '/' ∉ x := fun e => hb (List.mem_append_left _ e)
    rw [(template_result_name hx (hd x rfl)).1, render_snoc, render_snoc] at h
    have := congrArg List.length h
    simp only [List.length_append, List.length_cons] at this
    rw [show ".tmpl".toList.length = 5 from rfl] at this
    omega
  · unfold templateOut at h
    split at h
    · rename_i hew
      obtain ⟨t, ht⟩ := endsWith_iff.mp hew
      apply he
      rw [render_snoc] at ht
      have hlen : 5 ≤ b.length := by
        rcases Nat.lt_or_ge b.length 5 with hlt | hge
        · exfalso
          have h1 : ('/' :: b) <:+ ".tmpl".toList := by
            refine List.suffix_of_suffix_length_le (l₃ := t ++ ".tmpl".toList) ?_ ?_ ?_
            · rw [← ht]; exact List.suffix_append _ _
            · exact List.suffix_append _ _
            · rw [List.length_cons]
              show b.length + 1 ≤ 5
              omega
          have : '/' ∈ ".tmpl".toList := h1.subset List.mem_cons_self
          exact absurd this (by decide)
        · exact hge
      have h2 : ".tmpl".toList <:+ b := by
        refine List.suffix_of_suffix_length_le (l₃ := t ++ ".tmpl".toList) ?_ ?_ ?_
        · exact List.suffix_append _ _
        · rw [← ht]
          exact ⟨dirText ds ++ ['/'], by rw [List.append_assoc]; rfl⟩
        · exact hlen
      obtain ⟨x, rfl⟩ := h2
      exact ⟨x, rfl⟩
    · have := congrArg List.length h
      rw [List.length_append, show ".out".toList.length = 4 from rfl] at this
      omega

/-- A template called `.tmpl` is its own result: it is opened for writing while it is read. -/
theorem template_overwritten :
    transform "/build/work".toList "debian/.tmpl".toList =
      (["/build/work/debian/.tmpl".toList], true) := by decide +kernel

example : transform "/build/work/".toList "a.in ./debian/../x.tmpl /build/work/y".toList =
    (["/build/work/a.in.out".toList, "/build/work/x".toList, "/build/work/y.out".toList], true) := by
  decide +kernel
example : transform "/build/work".toList "a.tmpl /etc/passwd b.tmpl".toList =
    (["/build/work/a".toList], false) := by decide +kernel
example : initSlashes "/build/work".toList = 1 ∧ normComps "/build/work".toList ≠ [] := by
  decide +kernel

/-! ### C34: directories cleaned as root -/

theorem words_join_filter : ∀ ws : List Str, (∀ w ∈ ws, ∀ c ∈ w, isWs c = false) →
    words (join [' '] ws) = ws.filter (· ≠ [])
  | [], _ => rfl
  | [w], h => by
    show words w = _
    by_cases hw : w = []
    · subst hw; rfl
    · rw [words_word ⟨hw, h w List.mem_cons_self⟩, List.filter_cons_of_pos (by simpa using hw)]; rfl
  | w :: v :: ws, h => by
    have ih := words_join_filter (v :: ws) (fun x hx => h x (List.mem_cons_of_mem _ hx))
    show words (w ++ [' '] ++ join [' '] (v :: ws)) = _
    rw [List.append_assoc, List.singleton_append, words_append_ws _ _ _ (by decide), ih]
    by_cases hw : w = []
    · subst hw
      rw [List.filter_cons_of_neg (a := ([] : Str)) (by simp)]; rfl
    · rw [words_word ⟨hw, h w List.mem_cons_self⟩,
        List.filter_cons_of_pos (a := w) (by simpa using hw)]; rfl

theorem mem_join {sep : Str} {c : Char} : ∀ {ws : List Str}, c ∈ join sep ws →
    c ∈ sep ∨ ∃ w ∈ ws, c ∈ w
  | [], h => by cases h
  | [w], h => Or.inr ⟨w, List.mem_cons_self, h⟩
  | w :: v :: ws, h => by
    have h' : c ∈ w ++ sep ++ join sep (v :: ws) := h
    rcases List.mem_append.mp h' with h1 | h1
    · rcases List.mem_append.mp h1 with h2 | h2
      · exact Or.inr ⟨w, List.mem_cons_self, h2⟩
      · exact Or.inl h2
    · rcases mem_join h1 with h2 | ⟨x, hx, h2⟩
      · exact Or.inl h2
      · exact Or.inr ⟨x, List.mem_cons_of_mem _ hx, h2⟩

theorem mem_join_of {sep : Str} {c : Char} {w : Str} : ∀ {ws : List Str}, w ∈ ws → c ∈ w →
    c ∈ join sep ws
  | [], h, _ => by cases h
  | [v], h, hc => by rw [List.mem_singleton.mp h] at hc; exact hc
  | v :: u :: ws, h, hc => by
    show c ∈ v ++ sep ++ join sep (u :: ws)
    rcases List.mem_cons.mp h with rfl | h'
    · exact List.mem_append_left _ (List.mem_append_left _ hc)
    · exact List.mem_append_right _ (mem_join_of h' hc)

theorem normComps_sub (s : Str) : ∀ x ∈ normComps s, x ∈ splitOn '/' s := by
  have key : ∀ (a : Bool) (cs : List Str) (P : Str → Prop), (∀ c ∈ cs, P c) → ∀ acc, (∀ x ∈ acc, P x) →
      ∀ x ∈ cs.foldl (normStep a) acc, P x := by
    intro a cs P
    induction cs with
    | nil => exact fun _ acc h => h
    | cons c cs ih =>
      intro hcs acc h
      rw [List.foldl_cons]
      refine ih (fun d hd => hcs d (List.mem_cons_of_mem _ hd)) _ ?_
      unfold normStep
      split
      · exact h
      · split
        · intro x hx
          rcases List.mem_append.mp hx with hx' | hx'
          · exact h x hx'
          · rw [List.mem_singleton.mp hx']; exact hcs c List.mem_cons_self
        · exact fun x hx => h x (List.dropLast_subset _ hx)
  exact key _ _ (fun x => x ∈ splitOn '/' s) (fun _ h => h) _ (fun x hx => by cases hx)

theorem normpath_noWs {s : Str} (h : ∀ c ∈ s, isWs c = false) : ∀ c ∈ normpath s, isWs c = false := by
  intro c hc
  unfold normpath at hc
  dsimp only at hc
  split at hc
  · rw [List.mem_singleton.mp hc]; decide
  · rcases List.mem_append.mp hc with h1 | h1
    · rw [(List.mem_replicate.mp h1).2]; decide
    · rcases mem_join h1 with h2 | ⟨w, hw, h2⟩
      · rw [List.mem_singleton.mp h2]; decide
      · refine h c ?_
        rw [← join_splitOn '/' s]
        exact mem_join_of (normComps_sub s w hw) h2

theorem cleanDirs_words {tmpdir entries dirs : Str} (h : cleanDirs tmpdir entries = some dirs) :
    (∀ e ∈ words entries, startsWith (normpath e) (normpath tmpdir) = true) ∧
    words dirs = ((words entries).map (fun e => (normpath e).drop (normpath tmpdir).length)).filter
      (· ≠ []) := by
  unfold cleanDirs at h
  dsimp only at h
  split at h
  · rename_i hall
    rw [List.all_eq_true] at hall
    refine ⟨fun e he => hall _ (List.mem_map.mpr ⟨e, he, rfl⟩), ?_⟩
    rw [← Option.some.inj h, words_join_filter, List.map_map]; rfl
    intro w hw c hc
    obtain ⟨x, hx, rfl⟩ := List.mem_map.mp hw
    obtain ⟨e, he, rfl⟩ := List.mem_map.mp hx
    exact normpath_noWs (fun c hc => (words_isWord he).2 c hc) c (List.mem_of_mem_drop hc)
  · cases h

/-- An entry whose normalised text continues that of `TMPDIR` with a slash. -/
theorem entry_below {tmpdir e r : Str} (habs : initSlashes tmpdir = 1) (hne : normComps tmpdir ≠ [])
    (h : normpath e = normpath tmpdir ++ '/' :: r) :
    ∃ x, x ≠ [] ∧ normComps e = normComps tmpdir ++ x ∧ r = join ['/'] x ∧
      initSlashes e = 1 ∧ normComps (tmpdir ++ '/' :: r) = normComps e := by
  have hw := normComps_clean (initSlashes_abs habs)
  rw [normpath_abs habs] at h
  obtain ⟨c, r2, hc, hcs⟩ := head_render hne (fun c hc => (hw c hc).name)
  have he1 : initSlashes e = 1 := by
    refine normpath_render_of (s := e) (c := c) (r := r2 ++ '/' :: r) ?_ hcs
    rw [h, hc]; rfl
  have hec := normComps_clean (initSlashes_abs he1)
  rw [normpath_abs he1] at h
  obtain ⟨x, hx, hex⟩ := (render_below hw hec hne).mp ⟨r, h⟩
  have hr : r = join ['/'] x := by
    rw [hex, render_append hne hx] at h
    exact (List.cons.inj (List.append_cancel_left h)).2.symm
  refine ⟨x, hx, hex, hr, he1, ?_⟩
  have hxc : ∀ c ∈ x, Clean c := fun c hc => hec c (by rw [hex]; exact List.mem_append_right _ hc)
  rw [normComps_append (initSlashes_abs habs), hr, splitOn_join '/' x hx (fun c hc => (hxc c hc).2.2.2),
    foldl_normStep_clean x hxc, hex]

/-- **C34 (partial).**  `TMPDIR` is an absolute path, not the root.  Every directory that is
removed is one of the entries and lies below `TMPDIR`, or the normalised text of an entry continues
that of `TMPDIR` without a slash.  Missing: that the second case cannot happen, which is false
(`cleans_outside`), and that nothing is mounted there, which is false too (`mount_not_seen`). -/
theorem clean_inside_partial {tmpdir entries dirs r : Str} {mounts removed : List Str}
    (habs : initSlashes tmpdir = 1) (hne : normComps tmpdir ≠ [])
    (hc : cleanDirs tmpdir entries = some dirs)
    (hr : rootCleandirs tmpdir dirs mounts = some removed) (hm : r ∈ removed) :
    (Below tmpdir r ∧ ∃ e ∈ words entries, normComps r = normComps e) ∨
    ∃ e ∈ words entries, ∃ rest, normpath e = normpath tmpdir ++ rest ∧ rest ≠ [] ∧
      rest.head? ≠ some '/' := by
  obtain ⟨h1, h2⟩ := cleanDirs_words hc
  unfold rootCleandirs at hr
  split at hr
  · cases hr
  · rw [← Option.some.inj hr, h2] at hm
    obtain ⟨i, hi, rfl⟩ := List.mem_map.mp hm
    obtain ⟨hi1, hi2⟩ := List.mem_filter.mp hi
    obtain ⟨e, he, rfl⟩ := List.mem_map.mp hi1
    obtain ⟨rest, hrest⟩ := startsWith_iff.mp (h1 e he)
    rw [hrest, List.drop_left] at hi2 ⊢
    have hrne : rest ≠ [] := by simpa using hi2
    by_cases hh : rest.head? = some '/'
    · left
      obtain ⟨t, rfl⟩ : ∃ t, rest = '/' :: t := by
        cases rest with
        | nil => cases hh
        | cons c t =>
          simp only [List.head?_cons, Option.some.injEq] at hh
          exact ⟨t, by rw [hh]⟩
      obtain ⟨x, hx, hex, -, -, heq⟩ := entry_below habs hne hrest
      exact ⟨⟨x, hx, by rw [heq, hex]⟩, e, he, heq⟩
    · exact Or.inr ⟨e, he, rest, hrest, hrne, hh⟩

/-- **C34.**  If every entry is an absolute path to `TMPDIR` itself or to a place below it, the
list is accepted, and unless the mount check stops, exactly the entries below `TMPDIR` are removed,
in the order of the list. -/
theorem clean_exact {tmpdir entries : Str} (habs : initSlashes tmpdir = 1)
    (hne : normComps tmpdir ≠ [])
    (hall : ∀ e ∈ words entries, initSlashes e = 1 ∧
      (normComps e = normComps tmpdir ∨ Below tmpdir e)) :
    ∃ dirs, cleanDirs tmpdir entries = some dirs ∧
      ∀ mounts, rootCleandirs tmpdir dirs mounts = none ∨
        ∃ removed, rootCleandirs tmpdir dirs mounts = some removed ∧
          removed.map normComps =
            ((words entries).map normComps).filter (· ≠ normComps tmpdir) := by
  have hw := normComps_clean (initSlashes_abs habs)
  have hform : ∀ e ∈ words entries,
      (normComps e = normComps tmpdir ∧ normpath e = normpath tmpdir) ∨
      ∃ t, normpath e = normpath tmpdir ++ '/' :: t ∧ normComps e ≠ normComps tmpdir := by
    intro e he
    obtain ⟨h1, h2⟩ := hall e he
    rcases h2 with h2 | ⟨x, hx, h2⟩
    · exact Or.inl ⟨h2, by rw [normpath_abs h1, normpath_abs habs, h2]⟩
    · refine Or.inr ⟨join ['/'] x, ?_, ?_⟩
      · rw [normpath_abs h1, normpath_abs habs, h2, render_append hne hx]
      · rw [h2]
        intro hcon
        have := congrArg List.length hcon
        rw [List.length_append] at this
        exact hx (List.length_eq_zero_iff.mp (by omega))
  have hsome : ∃ dirs, cleanDirs tmpdir entries = some dirs := by
    unfold cleanDirs
    dsimp only
    rw [if_pos]
    · exact ⟨_, rfl⟩
    · rw [List.all_eq_true]
      intro x hx
      obtain ⟨e, he, rfl⟩ := List.mem_map.mp hx
      refine startsWith_iff.mpr ?_
      rcases hform e he with ⟨_, h⟩ | ⟨t, h, _⟩
      · exact ⟨[], by rw [h, List.append_nil]⟩
      · exact ⟨_, h⟩
  obtain ⟨dirs, hd⟩ := hsome
  refine ⟨dirs, hd, fun mounts => ?_⟩
  obtain ⟨-, h2⟩ := cleanDirs_words hd
  unfold rootCleandirs
  split
  · exact Or.inl rfl
  · refine Or.inr ⟨_, rfl, ?_⟩
    rw [h2]
    have key : ∀ es : List Str, (∀ e ∈ es, e ∈ words entries) →
        (((es.map (fun e => (normpath e).drop (normpath tmpdir).length)).filter
          (fun x => decide (x ≠ []))).map (tmpdir ++ ·)).map normComps =
        (es.map normComps).filter (fun x => decide (x ≠ normComps tmpdir)) := by
      intro es
      induction es with
      | nil => intro _; rfl
      | cons e es ih =>
        intro hes
        have ih' := ih (fun x hx => hes x (List.mem_cons_of_mem _ hx))
        rw [List.map_cons, List.map_cons]
        rcases hform e (hes e List.mem_cons_self) with ⟨h3, h4⟩ | ⟨t, h4, h3⟩
        · rw [h4, List.drop_length, List.filter_cons_of_neg (by simp), ih',
            List.filter_cons_of_neg (by simp [h3])]
        · rw [h4, List.drop_left, List.filter_cons_of_pos (by simp),
            List.filter_cons_of_pos (by simpa using h3), List.map_cons, List.map_cons, ih']
          obtain ⟨_, _, _, _, _, heq⟩ := entry_below habs hne h4
          rw [heq]
    exact key _ (fun e he => he)

/-- **C34 is false in general**: a directory next to `TMPDIR` is removed if its name begins with
that of `TMPDIR`. -/
theorem cleans_outside :
    cleanDirs "/build/tmp".toList "/build/tmp-old/keep".toList = some "-old/keep".toList ∧
    rootCleandirs "/build/tmp".toList "-old/keep".toList [] = some ["/build/tmp-old/keep".toList] ∧
    ¬ Below "/build/tmp".toList "/build/tmp-old/keep".toList := by
  refine ⟨by decide +kernel, by decide +kernel, ?_⟩
  rintro ⟨x, hx, h⟩
  have e1 : normComps "/build/tmp-old/keep".toList =
      ["build".toList, "tmp-old".toList, "keep".toList] := by decide +kernel
  have e2 : normComps "/build/tmp".toList = ["build".toList, "tmp".toList] := by decide +kernel
  rw [e1, e2] at h
  simp only [List.cons_append, List.cons.injEq] at h
  exact absurd h.2.1 (by decide)

/-- **C34 is false in general**: the mount check looks for the directory without the prefix
`TMPDIR`, so that it does not notice a mount in the directory that is removed, and stops because of
a mount elsewhere. -/
theorem mount_not_seen :
    rootCleandirs "/build/tmp".toList "/work/rootfs".toList ["/build/tmp/work/rootfs/proc".toList] =
      some ["/build/tmp/work/rootfs".toList] ∧
    rootCleandirs "/build/tmp".toList "/work/rootfs".toList ["/work/rootfs".toList] = none := by
  decide +kernel

theorem grepMatch_iff : ∀ {i m : Str}, '.' ∉ i →
    (grepMatch i m = true ↔ m = i ∨ ∃ t, m = i ++ '/' :: t)
  | [], m, _ => by
    unfold grepMatch
    cases m with
    | nil => simp
    | cons c m => simp
  | c :: i, [], _ => by simp [grepMatch]
  | c :: i, x :: m, h => by
    have hc : c ≠ '.' := fun e => h (by rw [e]; exact List.mem_cons_self)
    have ih := grepMatch_iff (i := i) (m := m) (fun e => h (List.mem_cons_of_mem _ e))
    unfold grepMatch
    rw [Bool.and_eq_true, ih]
    constructor
    · rintro ⟨h1, h2⟩
      have : c = x := by simpa [hc] using h1
      subst this
      rcases h2 with rfl | ⟨t, rfl⟩
      · exact Or.inl rfl
      · exact Or.inr ⟨t, rfl⟩
    · rintro (h1 | ⟨t, h1⟩)
      · obtain ⟨rfl, rfl⟩ := List.cons.inj h1
        exact ⟨by simp, Or.inl rfl⟩
      · obtain ⟨rfl, rfl⟩ := List.cons.inj h1
        exact ⟨by simp, Or.inr ⟨t, rfl⟩⟩

/-- **C34.**  What the mount check does: for entries without a dot, the cleanup stops before
anything is removed exactly if the text of an entry (after `TMPDIR`) is a mount point or a mount
point lies in it. -/
theorem mount_check {tmpdir dirs : Str} {mounts : List Str} (h : ∀ i ∈ words dirs, '.' ∉ i) :
    rootCleandirs tmpdir dirs mounts = none ↔
      ∃ i ∈ words dirs, ∃ m ∈ mounts, m = i ∨ ∃ t, m = i ++ '/' :: t := by
  unfold rootCleandirs
  have key : (words dirs).any (fun i => mounts.any (grepMatch i)) = true ↔
      ∃ i ∈ words dirs, ∃ m ∈ mounts, m = i ∨ ∃ t, m = i ++ '/' :: t := by
    rw [List.any_eq_true]
    constructor
    · rintro ⟨i, hi, h1⟩
      obtain ⟨m, hm, h2⟩ := List.any_eq_true.mp h1
      exact ⟨i, hi, m, hm, (grepMatch_iff (h i hi)).mp h2⟩
    · rintro ⟨i, hi, m, hm, h2⟩
      exact ⟨i, hi, List.any_eq_true.mpr ⟨m, hm, (grepMatch_iff (h i hi)).mpr h2⟩⟩
  rw [← key]
  split
  · rename_i h1; exact ⟨fun _ => h1, fun _ => rfl⟩
  · rename_i h1
    exact ⟨fun e => (by cases e), fun e => absurd e h1⟩

example : cleanDirs "/build/tmp/".toList "/build/tmp/a/ /build/tmp /build/tmp/x/../b".toList =
      some "/a  /b".toList ∧
    rootCleandirs "/build/tmp/".toList "/a  /b".toList ["/proc".toList] =
      some ["/build/tmp//a".toList, "/build/tmp//b".toList] := by decide +kernel
example : cleanDirs "/build/tmp".toList "/build/tmp/a /etc".toList = none := by decide +kernel

/-! ### C63: absolute links made relative -/

theorem rpart_render {ds : List Str} {b : Str} (hb : '/' ∉ b) : rpart (render (ds ++ [b])) = dirText ds := by
  unfold rpart
  rw [headPart_render hb, List.dropLast_concat]

theorem startsWith_false {s p : Str} (h : ¬ ∃ t, s = p ++ t) : startsWith s p = false := by
  cases hs : startsWith s p with
  | false => rfl
  | true => exact absurd (startsWith_iff.mp hs) h

/-- The loop goes up from `c ++ xs` to `c`. -/
theorem ancestor_up {link : Str} {c : List Str} (hc : c ≠ [])
    (hstop : startsWith link (render c) = true) : ∀ (xs : List Str), (∀ x ∈ xs, '/' ∉ x) →
    (∀ ys zs, xs = ys ++ zs → ys ≠ [] → startsWith link (render (c ++ ys)) = false) →
    ∀ fuel depth, xs.length < fuel →
    ancestor link fuel (render (c ++ xs)) depth = (render c, depth + xs.length) := by
  intro xs
  induction hn : xs.length generalizing xs with
  | zero =>
    intro _ _ fuel depth hf
    obtain rfl := List.length_eq_zero_iff.mp hn
    obtain ⟨k, rfl⟩ : ∃ k, fuel = k + 1 := ⟨fuel - 1, by omega⟩
    unfold ancestor
    rw [List.append_nil, if_neg]
    · rfl
    · rintro ⟨_, h⟩; rw [hstop] at h; cases h
  | succ n ih =>
    intro hs hno fuel depth hf
    obtain ⟨k, rfl⟩ : ∃ k, fuel = k + 1 := ⟨fuel - 1, by omega⟩
    have hxs : xs ≠ [] := by rintro rfl; simp at hn
    obtain ⟨ys, y, rfl⟩ := (List.eq_nil_or_concat xs).resolve_left hxs
    rw [List.concat_eq_append] at *
    unfold ancestor
    rw [if_pos ⟨by simp [render], hno _ [] (by simp) (by simp)⟩, ← List.append_assoc,
      rpart_render (hs y (by simp))]
    have hd : dirText (c ++ ys) = render (c ++ ys) := by
      unfold dirText; rw [if_neg (by simp [hc])]
    have hlen : ys.length = n := by simpa using hn
    rw [hd, ih ys hlen (fun x hx => hs x (List.mem_append_left _ hx)) ?_ k (depth + 1) (by omega)]
    · rw [Nat.add_assoc, Nat.add_comm 1 n]
    · intro a b hab ha
      exact hno a (b ++ [y]) (by rw [hab, List.append_assoc]) ha

theorem stripSlash_of {s : Str} (h1 : s.head? ≠ some '/') (h2 : s.getLast? ≠ some '/') :
    stripSlash s = s := by
  have key : ∀ t : Str, t.head? ≠ some '/' → t.dropWhile (fun x => decide (x = '/')) = t := by
    intro t ht
    cases t with
    | nil => rfl
    | cons c t =>
      rw [List.dropWhile_cons_of_neg]
      simpa using ht
  unfold stripSlash
  rw [key s h1, key s.reverse (by rw [List.head?_reverse]; exact h2), List.reverse_reverse]

theorem stripSlash_slash (s : Str) : stripSlash ('/' :: s) = stripSlash s := by
  unfold stripSlash
  rw [List.dropWhile_cons_of_pos (by simp)]

theorem join_getLast {xs : List Str} (h : ∀ c ∈ xs, Name c) : (join ['/'] xs).getLast? ≠ some '/' := by
  by_cases hne : xs = []
  · subst hne; simp [join]
  · obtain ⟨ys, y, rfl⟩ := (List.eq_nil_or_concat xs).resolve_left hne
    rw [List.concat_eq_append] at *
    have := render_getLast (ds := ys) (h y (by simp))
    unfold render at this
    rw [List.getLast?_cons] at this
    intro e
    rw [e] at this
    exact this rfl

theorem splitOn_ups (k : Nat) (s : Str) :
    splitOn '/' ((List.replicate k "../".toList).flatten ++ s) = List.replicate k dotdot ++ splitOn '/' s := by
  induction k with
  | zero => rfl
  | succ k ih =>
    rw [List.replicate_succ, List.flatten_cons, List.append_assoc, List.replicate_succ,
      List.cons_append, ← ih]
    show splitOn '/' (dotdot ++ '/' :: _) = _
    rw [splitOn_append]
    rfl

/-- **C63 (partial).**  An absolute link `path` (a file with the components `c ++ p :: ps`) to the
target `link` (components `c ++ ls`) becomes a relative link that leads from the directory of the
link to the same target.  Missing: no common directory (`c = []`; the link stays as it is), a
target whose next component only begins with the text `p` (`relative_link_wrong`) and a target that is the directory of the
link (`relative_link_lost`). -/
theorem relative_link_partial {c ps ls : List Str} {p : Str} (hc : c ≠ [])
    (hp : ∀ x ∈ c ++ p :: ps, Clean x) (hl : ∀ x ∈ c ++ ls, Clean x)
    (hdiff : ∀ l, ls.head? = some l → ¬ ∃ t, l = p ++ t) (hown : ls ≠ [] ∨ ps ≠ []) :
    ∃ text, makeRelative (render (c ++ p :: ps)) (render (c ++ ls)) = some text ∧ text ≠ [] ∧
      isabs text = false ∧ resolve (c ++ p :: ps).dropLast text = c ++ ls := by
  have hcc : ∀ x ∈ c, Clean x := fun x hx => hp x (List.mem_append_left _ hx)
  have hpp : Clean p := hp p (by simp)
  have hpsc : ∀ x ∈ ps, Clean x := fun x hx => hp x (by simp [hx])
  have hlsc : ∀ x ∈ ls, Clean x := fun x hx => hl x (List.mem_append_right _ hx)
  have hlink : ∃ rest, render (c ++ ls) = render c ++ rest ∧ stripSlash rest = join ['/'] ls := by
    by_cases hls : ls = []
    · subst hls
      exact ⟨[], by simp, rfl⟩
    · refine ⟨_, render_append hc hls, ?_⟩
      rw [stripSlash_slash, stripSlash_of (join_names_head (fun x hx => (hlsc x hx).name))
        (join_getLast (fun x hx => (hlsc x hx).name))]
  obtain ⟨rest, hrest, hstrip⟩ := hlink
  have hno : ∀ ys zs, p :: ps = ys ++ zs → ys ≠ [] →
      startsWith (render (c ++ ls)) (render (c ++ ys)) = false := by
    intro ys zs hyz hys
    apply startsWith_false
    rintro ⟨t, ht⟩
    obtain ⟨y, ys', rfl⟩ := List.exists_cons_of_ne_nil hys
    obtain ⟨rfl, -⟩ := List.cons.inj hyz
    rw [render_append hc hys, List.append_assoc] at ht
    have hls : ls ≠ [] := by
      rintro rfl
      rw [List.append_nil] at ht
      have := congrArg List.length ht
      simp only [List.length_append, List.length_cons] at this
      omega
    rw [render_append hc hls] at ht
    have h1 := (List.cons.inj (List.append_cancel_left ht)).2
    obtain ⟨l, ls', rfl⟩ := List.exists_cons_of_ne_nil hls
    have hlc := hlsc l List.mem_cons_self
    have h2 : ∃ u, join ['/'] (l :: ls') = p ++ u := by
      cases ys' with
      | nil => exact ⟨t, h1⟩
      | cons z zs' =>
        refine ⟨'/' :: join ['/'] (z :: zs') ++ t, ?_⟩
        rw [h1]
        show (p ++ ['/'] ++ join ['/'] (z :: zs')) ++ t = _
        simp
    obtain ⟨u, hu⟩ := h2
    have h3 : ∃ v, join ['/'] (l :: ls') = l ++ v ∧ (v = [] ∨ v.head? = some '/') := by
      cases ls' with
      | nil => exact ⟨[], by simp [join], Or.inl rfl⟩
      | cons z zs' =>
        refine ⟨'/' :: join ['/'] (z :: zs'), ?_, Or.inr rfl⟩
        show l ++ ['/'] ++ join ['/'] (z :: zs') = _
        simp
    obtain ⟨v, hv, hvh⟩ := h3
    rw [hv] at hu
    rcases List.append_eq_append_iff.mp hu with ⟨a, ha, hb⟩ | ⟨a, ha, hb⟩
    · -- p = l ++ a, v = a ++ u
      cases a with
      | nil => exact hdiff l rfl ⟨[], by rw [ha]; simp⟩
      | cons z a =>
        rcases hvh with hv0 | hv0
        · rw [hv0] at hb; cases hb
        · rw [hb] at hv0
          simp only [List.cons_append, List.head?_cons, Option.some.injEq] at hv0
          exact hpp.2.2.2 (by rw [ha, hv0]; simp)
    · exact hdiff l rfl ⟨a, ha⟩
  have hanc := ancestor_up hc (startsWith_iff.mpr ⟨rest, hrest⟩) (p :: ps)
    (fun x hx => (hp x (List.mem_append_right _ hx)).2.2.2) hno
    ((render (c ++ p :: ps)).length + 1) 0 (by
      have hlen : ∀ xs : List Str, (∀ x ∈ xs, Name x) → xs.length ≤ (render xs).length := by
        intro xs
        induction hn : xs.length generalizing xs with
        | zero => intro _; omega
        | succ n ih =>
          intro hx
          have hxs : xs ≠ [] := by rintro rfl; simp at hn
          obtain ⟨ys, y, rfl⟩ := (List.eq_nil_or_concat xs).resolve_left hxs
          rw [List.concat_eq_append] at *
          have h1 := ih ys (by simpa using hn) (fun x h => hx x (List.mem_append_left _ h))
          rw [render_snoc]
          have hy := List.length_pos_iff.mpr (hx y (by simp)).1
          unfold dirText
          split
          · rename_i h0; subst h0
            simp only [List.nil_append, List.length_append, List.length_nil,
              List.length_cons] at hn ⊢
            omega
          · rw [List.length_append, List.length_cons]; omega
      have := hlen (c ++ p :: ps) (fun x hx => (hp x hx).name)
      rw [List.length_append] at this
      omega)
  unfold makeRelative
  rw [show isabs (render (c ++ ls)) = true from rfl, if_neg (by decide), hanc]
  dsimp only
  rw [if_neg (by simp [render]), hrest, List.drop_left, hstrip]
  refine ⟨_, rfl, ?_, ?_, ?_⟩
  · rcases hown with h | h
    · obtain ⟨l, ls', rfl⟩ := List.exists_cons_of_ne_nil h
      intro e
      rw [List.append_eq_nil_iff] at e
      have := (hlsc l List.mem_cons_self).1
      cases ls' with
      | nil => exact this e.2
      | cons z zs =>
        have h4 : l ++ ['/'] ++ join ['/'] (z :: zs) = [] := e.2
        rw [List.append_eq_nil_iff, List.append_eq_nil_iff] at h4
        exact this h4.1.1
    · obtain ⟨q, qs, rfl⟩ := List.exists_cons_of_ne_nil h
      have : 0 + (p :: q :: qs).length - 1 = qs.length + 1 := by simp
      rw [this, List.replicate_succ]
      intro e
      cases e
  · cases hk : 0 + (p :: ps).length - 1 with
    | zero =>
      cases hi : isabs ((List.replicate 0 "../".toList).flatten ++ join ['/'] ls) with
      | false => rfl
      | true =>
        obtain ⟨t, ht⟩ := isabs_iff.mp hi
        have := join_names_head (fun x hx => (hlsc x hx).name)
        rw [show join ['/'] ls = '/' :: t from ht] at this
        exact absurd rfl this
    | succ k => rfl
  · unfold resolve
    rw [splitOn_ups, List.foldl_append, foldl_dotdots _ _
      (fun x hx => hp x (List.dropLast_subset _ hx))]
    have hdrop : (c ++ p :: ps).dropLast.take ((c ++ p :: ps).dropLast.length -
        (0 + (p :: ps).length - 1)) = c := by
      have h5 : (c ++ p :: ps).dropLast = c ++ (p :: ps).dropLast := List.dropLast_append_of_ne_nil (by simp)
      rw [h5, List.length_append, List.length_dropLast]
      have : c.length + ((p :: ps).length - 1) - (0 + (p :: ps).length - 1) = c.length := by omega
      rw [this, List.take_left]
    rw [hdrop]
    by_cases hls : ls = []
    · subst hls
      show [([] : Str)].foldl (normStep true) c = _
      rw [List.foldl_cons, normStep_skip, List.append_nil]; rfl
    · rw [splitOn_join '/' ls hls (fun x hx => (hlsc x hx).2.2.2), foldl_normStep_clean ls hlsc]

/-- **C63 is false in general**: the common directory is found by comparing text. -/
theorem relative_link_wrong :
    makeRelative "/usr/lib/link".toList "/usr/lib64/x".toList = some "64/x".toList ∧
    resolve ["usr".toList, "lib".toList] "64/x".toList ≠ ["usr".toList, "lib64".toList, "x".toList] := by
  decide +kernel

/-- **C63 is false in general**: a link to its own directory gets an empty text, which the system
refuses after the link has been removed. -/
theorem relative_link_lost : makeRelative "/usr/lib/link".toList "/usr/lib".toList = some [] := by
  decide +kernel

example : makeRelative "/usr/lib/a/link".toList "/usr/share/x".toList = some "../../share/x".toList := by
  decide +kernel

/-! ### C64: absolute links below a directory made relative -/

theorem relText_resolves_in {b s p : List Str} (hb : ∀ c ∈ b, Clean c) (hs : ∀ c ∈ s, Clean c)
    (hp : ∀ c ∈ p, Clean c) : resolve (b ++ s) (relText s p) = b ++ p := by
  have hbs : ∀ c ∈ b ++ s, Clean c := fun c hc => (List.mem_append.mp hc).elim (hb c) (hs c)
  obtain ⟨c, s', p', rfl, rfl, hc⟩ := commonLen_spec s p
  unfold relText resolve
  rw [hc]
  dsimp only
  have hlen : (c ++ s').length - c.length = s'.length := by simp
  rw [hlen, List.drop_left]
  split
  · rename_i h
    rw [List.append_eq_nil_iff] at h
    obtain ⟨h1, rfl⟩ := h
    have : s' = [] := by
      cases s' with
      | nil => rfl
      | cons a l => rw [List.length_cons, List.replicate_succ] at h1; cases h1
    subst this
    show [dot].foldl (normStep true) _ = _
    rw [List.foldl_cons, normStep_dot]; rfl
  · rename_i h
    rw [splitOn_join '/' _ h, List.foldl_append, foldl_dotdots _ _ hbs]
    · rw [foldl_normStep_clean p' (fun x hx => hp x (List.mem_append_right _ hx)), ← List.append_assoc b c p']
      congr 1
      rw [← List.append_assoc, List.length_append, Nat.add_sub_cancel, List.take_left]
    · intro w hw
      rcases List.mem_append.mp hw with hw' | hw'
      · rw [(List.mem_replicate.mp hw').2]; decide
      · exact (hp w (List.mem_append_right _ hw')).2.2.2

theorem afterLast_none {b : Str} : ∀ {s : Str}, (¬ ∃ x y, s = x ++ b ++ y) → afterLast b s = none
  | [], h => by
    unfold afterLast
    rw [if_neg]
    rintro rfl
    exact h ⟨[], [], rfl⟩
  | c :: s, h => by
    unfold afterLast
    rw [afterLast_none (s := s)]
    · dsimp only
      rw [startsWith_false, if_neg (by decide)]
      rintro ⟨t, ht⟩
      exact h ⟨[], t, by simpa using ht⟩
    · rintro ⟨x, y, rfl⟩
      exact h ⟨c :: x, y, by simp⟩

theorem afterLast_first {b t : Str} (hb : b ≠ []) (h : ∀ x y, b ++ t = x ++ b ++ y → x = []) :
    afterLast b (b ++ t) = some t := by
  obtain ⟨c, b', rfl⟩ := List.exists_cons_of_ne_nil hb
  show afterLast (c :: b') (c :: (b' ++ t)) = _
  unfold afterLast
  rw [afterLast_none]
  · dsimp only
    rw [if_pos (show startsWith (c :: (b' ++ t)) (c :: b') = true from startsWith_iff.mpr ⟨t, rfl⟩)]
    show some (List.drop (c :: b').length ((c :: b') ++ t)) = _
    rw [List.drop_left]
  · rintro ⟨x, y, hxy⟩
    have := h (c :: x) y (by simp [hxy])
    cases this

theorem relpath_abs {cwd : Str} {p : Str} {s : List Str} (hs : ∀ c ∈ s, Clean c)
    (hp : initSlashes p = 1) : relpath cwd p (render s) = relText s (normComps p) := by
  unfold relpath relText abspath
  rw [show isabs (render s) = true from rfl, initSlashes_abs hp, if_pos rfl, if_pos rfl,
    normpath_render hs, normpath_abs hp, parts_render hs,
    parts_render (normComps_clean (initSlashes_abs hp))]

/-- **C64 (partial).**  A link `ds/f` below the directory `bs` with the absolute text `link` gets a
relative text that leads from its directory to `link` below `bs`.  Missing: a directory whose name
occurs again in the path of the link (`replaced_link_wrong`). -/
theorem replaced_link_partial {cwd link : Str} {bs ds : List Str} {f : Str} (hbs : bs ≠ [])
    (hc : ∀ c ∈ bs ++ (ds ++ [f]), Clean c) (hl : initSlashes link = 1)
    (hone : ∀ x y, render (bs ++ (ds ++ [f])) = x ++ render bs ++ y → x = []) :
    ∃ text, replaceAbsolute cwd (render bs) (render (bs ++ (ds ++ [f]))) link = some text ∧
      resolve (bs ++ ds) text = bs ++ normComps link := by
  have hf : Clean f := hc f (by simp)
  have hds : ∀ c ∈ ds, Clean c := fun c hcd => hc c (by simp [hcd])
  have hb : ∀ c ∈ bs, Clean c := fun c hcd => hc c (List.mem_append_left _ hcd)
  unfold replaceAbsolute
  rw [initSlashes_abs hl, if_neg (by decide)]
  refine ⟨_, rfl, ?_⟩
  have hr : render (bs ++ (ds ++ [f])) = render bs ++ render (ds ++ [f]) := by
    rw [render_append hbs (by simp)]; rfl
  rw [hr] at hone ⊢
  rw [afterLast_first (by simp [render]) hone, Option.getD_some,
    dirname_render (fun c hcd => (hds c hcd).name) hf.2.2.2, relpath_abs hds hl]
  exact relText_resolves_in hb hds (normComps_clean (initSlashes_abs hl))

/-- **C64 is false in general**: the name of the directory is looked for from the end. -/
theorem replaced_link_wrong :
    replaceAbsolute "/".toList "/r".toList "/r/var/r/x/link".toList "/etc/y".toList =
      some "../etc/y".toList ∧
    resolve ["r".toList, "var".toList, "r".toList, "x".toList] "../etc/y".toList ≠
      ["r".toList, "etc".toList, "y".toList] := by decide +kernel

/-- **C64 is false in general**: with a directory name that ends in a slash the new text depends on
the working directory of the process. -/
theorem replaced_link_cwd :
    replaceAbsolute "/build".toList "/r/".toList "/r/var/link".toList "/etc/y".toList =
      some "../../etc/y".toList ∧
    resolve ["r".toList, "var".toList] "../../etc/y".toList ≠
      ["r".toList, "etc".toList, "y".toList] := by decide +kernel

example : replaceAbsolute "/".toList "/r".toList "/r/usr/lib/link".toList "/usr/share/y".toList =
    some "../share/y".toList := by decide +kernel

/-! ### C65: `is_path_parent` -/

theorem absTrailing_eq {cwd p : Str} (h : initSlashes (full cwd p) = 1) :
    absTrailing cwd p = dirText (normComps (full cwd p)) ++ ['/'] := by
  unfold absTrailing abspath
  rw [show (if isabs p = true then p else pathJoin cwd p) = full cwd p from rfl, normpath_abs h]
  have hc := normComps_clean (initSlashes_abs h)
  generalize normComps (full cwd p) = cs at hc ⊢
  dsimp only
  by_cases hne : cs = []
  · subst hne; rfl
  · obtain ⟨xs, y, rfl⟩ := (List.eq_nil_or_concat cs).resolve_left hne
    rw [List.concat_eq_append] at *
    rw [if_neg (render_getLast (hc y (by simp)).name)]
    unfold dirText
    rw [if_neg hne]

/-- **C65.**  `is_path_parent(parent, *paths)` holds exactly if there is at least one path and
every path is the parent directory itself or lies in it, as places in the file system, for all
spellings of the paths (except those that begin with exactly two slashes). -/
theorem path_parent_exact {cwd parent : Str} {paths : List Str}
    (hp : initSlashes (full cwd parent) = 1) (hs : ∀ p ∈ paths, initSlashes (full cwd p) = 1) :
    isPathParent cwd parent paths = true ↔
      paths ≠ [] ∧ ∀ p ∈ paths, ∃ x, normComps (full cwd p) = normComps (full cwd parent) ++ x := by
  have key : ∀ p ∈ paths, (startsWith (absTrailing cwd p) (absTrailing cwd parent) = true ↔
      ∃ x, normComps (full cwd p) = normComps (full cwd parent) ++ x) := by
    intro p hpm
    rw [absTrailing_eq hp, absTrailing_eq (hs p hpm), startsWith_iff]
    have hc := normComps_clean (initSlashes_abs hp)
    have hd := normComps_clean (initSlashes_abs (hs p hpm))
    generalize normComps (full cwd parent) = cs at hc ⊢
    generalize normComps (full cwd p) = ps at hd ⊢
    unfold dirText
    by_cases hcs : cs = []
    · subst hcs
      refine ⟨fun _ => ⟨ps, rfl⟩, fun _ => ?_⟩
      by_cases hps : ps = []
      · rw [if_pos rfl, if_pos hps]; exact ⟨[], rfl⟩
      · rw [if_pos rfl, if_neg hps]; exact ⟨join ['/'] ps ++ ['/'], rfl⟩
    · rw [if_neg hcs]
      by_cases hps : ps = []
      · subst hps
        rw [if_pos rfl]
        constructor
        · rintro ⟨t, ht⟩
          exfalso
          have := congrArg List.length ht
          simp only [render, List.length_append, List.length_cons, List.length_nil] at this
          omega
        · rintro ⟨x, hx⟩
          exact absurd (List.append_eq_nil_iff.mp hx.symm).1 hcs
      · rw [if_neg hps]
        constructor
        · rintro ⟨t, ht⟩
          have h2 := congrArg (splitOn '/') ht
          rw [List.append_assoc, List.singleton_append, splitOn_append, splitOn_append,
            splitOn_render hd hps, splitOn_render hc hcs] at h2
          simp only [List.cons_append, List.cons.injEq, true_and] at h2
          -- ps ++ [[]] = cs ++ splitOn t
          have hne : splitOn '/' t ≠ [] := splitOnGo_ne_nil _ _ _
          obtain ⟨us, u, hu⟩ := (List.eq_nil_or_concat (splitOn '/' t)).resolve_left hne
          rw [List.concat_eq_append] at hu
          rw [hu, show splitOn '/' ([] : Str) = [[]] from rfl, ← List.append_assoc] at h2
          exact ⟨us, (List.append_inj_left' h2 rfl)⟩
        · rintro ⟨x, rfl⟩
          by_cases hx : x = []
          · subst hx; exact ⟨[], by simp⟩
          · exact ⟨join ['/'] x ++ ['/'], by rw [render_append hcs hx]; simp⟩
  unfold isPathParent
  by_cases hne : paths = []
  · rw [if_pos hne]
    exact ⟨fun h => (by cases h), fun h => absurd hne h.1⟩
  · rw [if_neg hne, List.all_eq_true]
    exact ⟨fun h => ⟨hne, fun p hpm => (key p hpm).mp (h p hpm)⟩,
      fun h p hpm => (key p hpm).mpr (h.2 p hpm)⟩

/-- The exception: `//` is the same directory as `/`, but not for `normpath`. -/
theorem path_parent_two_slashes :
    isPathParent "/".toList "/a".toList ["//a/b".toList] = false := by decide +kernel

example : isPathParent "/w".toList "a/../b".toList ["/w/b/c".toList, "b".toList] = true ∧
    isPathParent "/w".toList "b".toList ["/w/bc".toList] = false := by decide +kernel

end Isar.Paths
