import Verif.Meta.ChangelogModel

/- C155, C156: the changelog and the lists of the control file of a package. -/

namespace Meta.Changelog
open Py

/-! ### C155 -/

/-- The version of the new entry: the first mark is replaced by the version of the sources, if these have a changelog. -/
inductive IsVersion (given : Str) (src : Option Log) : Str → Prop where
  | plain : (src = none ∨ src = some []) → IsVersion given src given
  | nomark {o l} : src = some (o :: l) → (∀ a b, given ≠ a ++ mark ++ b) → IsVersion given src given
  | replaced {o l a b} : src = some (o :: l) → given = a ++ mark ++ b → (∀ a' b', given = a' ++ mark ++ b' → a.length ≤ a'.length) →
      IsVersion given src (a ++ o.version ++ b)

/-- The date of the new entry: a little after that of the sources. -/
def rightDate (cfg : Cfg) : Option Log → Int
  | some (o :: _) => o.date + 42
  | _ => cfg.timestamp

/-- What the changelog has to be, for sources with this changelog: an entry for the recipe, then the changelog of the sources, then
that of the recipe; or only that of the recipe if it begins with this version. -/
def Right (cfg : Cfg) (src : Option Log) (log : Log) : Prop := ∃ v, IsVersion cfg.version src v ∧
  let e : Entry := ⟨v, rightDate cfg src, cfg.text⟩
  match cfg.recipe with
  | none => log = e :: src.getD []
  | some r =>
    (((∃ e' r', r = e' :: r' ∧ e'.version = v) ∨ (r = [] ∧ v = [])) ∧ log = r) ∨
    (¬ ((∃ e' r', r = e' :: r' ∧ e'.version = v) ∨ (r = [] ∧ v = [])) ∧ log = e :: src.getD [] ++ r)

theorem subst_spec (rep : Str) : ∀ (s : Str), (subst rep s = s ∧ ∀ a b, s ≠ a ++ mark ++ b) ∨
    ∃ a b, s = a ++ mark ++ b ∧ (∀ a' b', s = a' ++ mark ++ b' → a.length ≤ a'.length) ∧ subst rep s = a ++ rep ++ b
  | [] => Or.inl ⟨rfl, fun a b h => by
      have := congrArg List.length h
      rw [List.length_append, List.length_append] at this
      have h14 : mark.length = 14 := by decide
      simp only [List.length_nil] at this
      omega⟩
  | c :: s => by
    unfold subst
    by_cases hp : mark.isPrefixOf (c :: s) = true
    · rw [if_pos hp]
      obtain ⟨b, hb⟩ := List.isPrefixOf_iff_prefix.1 hp
      refine Or.inr ⟨[], b, hb.symm, fun _ _ _ => Nat.zero_le _, ?_⟩
      rw [← hb, List.drop_left]; rfl
    · rw [if_neg hp]
      have first : ∀ {a' b' : Str}, c :: s = a' ++ mark ++ b' → ∃ a'', a' = c :: a'' ∧ s = a'' ++ mark ++ b' := by
        intro a' b' h
        cases a' with
        | nil => exact absurd (List.isPrefixOf_iff_prefix.2 ⟨b', h.symm⟩) hp
        | cons x a'' =>
          have h := List.cons.inj h
          exact ⟨a'', by rw [h.1], h.2⟩
      rcases subst_spec rep s with ⟨h1, h2⟩ | ⟨a, b, h1, h2, h3⟩
      · refine Or.inl ⟨by rw [h1], fun a' b' h => ?_⟩
        obtain ⟨a'', _, hs⟩ := first h
        exact h2 _ _ hs
      · refine Or.inr ⟨c :: a, b, by rw [h1]; rfl, fun a' b' h => ?_, by rw [h3]; rfl⟩
        obtain ⟨a'', rfl, hs⟩ := first h
        exact Nat.succ_le_succ (h2 _ _ hs)

theorem right_of {cfg : Cfg} {src : Option Log} {st : St} (h : ∀ o l, src = some (o :: l) → st.debian ≠ none)
    (ho : (copied st).orig.getD [] = src.getD []) : Right cfg src ((run cfg st).debian.getD []) := by
  have hv : IsVersion cfg.version src (newVersion cfg st) ∧
      newDate cfg st = rightDate cfg src := by
    match src, h, ho with
    | none, h, ho =>
      have h2 : ∀ o l, (copied st).orig ≠ some (o :: l) := by
        intro o l e; rw [e] at ho; exact nomatch ho
      have h3 : newVersion cfg st = cfg.version := by
        unfold newVersion
        split
        · rename_i o l _ _ e; exact absurd e (h2 _ _)
        · rfl
      have h4 : newDate cfg st = cfg.timestamp := by
        unfold newDate
        split
        · rename_i o l _ _ e; exact absurd e (h2 _ _)
        · rfl
      rw [h3, h4]
      exact ⟨IsVersion.plain (Or.inl rfl), rfl⟩
    | some [], h, ho =>
      have h2 : ∀ o l, (copied st).orig ≠ some (o :: l) := by
        intro o l e; rw [e] at ho; exact nomatch ho
      have h3 : newVersion cfg st = cfg.version := by
        unfold newVersion
        split
        · rename_i o l _ _ e; exact absurd e (h2 _ _)
        · rfl
      have h4 : newDate cfg st = cfg.timestamp := by
        unfold newDate
        split
        · rename_i o l _ _ e; exact absurd e (h2 _ _)
        · rfl
      rw [h3, h4]
      exact ⟨IsVersion.plain (Or.inr rfl), rfl⟩
    | some (o :: l), h, ho =>
      have h1 : (copied st).orig = some (o :: l) := by
        cases e : (copied st).orig with
        | none => rw [e] at ho; exact nomatch ho
        | some x => rw [e] at ho; exact congrArg some ho
      obtain ⟨x, hx⟩ : ∃ x, st.debian = some x := by
        cases e : st.debian with
        | none => exact absurd e (h o l rfl)
        | some x => exact ⟨x, rfl⟩
      have h3 : newVersion cfg st = subst o.version cfg.version := by unfold newVersion; rw [hx, h1]
      have h4 : newDate cfg st = o.date + 42 := by unfold newDate; rw [hx, h1]
      rw [h3, h4]
      refine ⟨?_, rfl⟩
      rcases subst_spec o.version cfg.version with ⟨e1, e2⟩ | ⟨a, b, e1, e2, e3⟩
      · rw [e1]; exact IsVersion.nomark rfl e2
      · rw [e3]; exact IsVersion.replaced rfl e1 e2
  refine ⟨_, hv.1, ?_⟩
  unfold run written newEntry
  dsimp only
  rw [← hv.2, ho]
  cases cfg.recipe with
  | none => rfl
  | some r =>
    dsimp only
    have hl : latest r = newVersion cfg st ↔ (∃ e' r', r = e' :: r' ∧ e'.version = newVersion cfg st) ∨ (r = [] ∧ newVersion cfg st = []) := by
      cases r with
      | nil => exact ⟨fun h => Or.inr ⟨rfl, h.symm⟩, fun h => h.elim (fun ⟨_, _, h, _⟩ => nomatch h) fun h => h.2.symm⟩
      | cons x r =>
        refine ⟨fun h => Or.inl ⟨x, r, rfl, h⟩, fun h => h.elim (fun ⟨e', r', h1, h2⟩ => ?_) fun h => nomatch h.1⟩
        cases h1
        exact h2
    by_cases hc : latest r = newVersion cfg st
    · rw [if_pos hc]; exact Or.inl ⟨hl.1 hc, rfl⟩
    · rw [if_neg hc]; exact Or.inr ⟨fun h => hc (hl.2 h), rfl⟩

/-- C155: the first time, the changelog is right, whatever is in the sources and in the recipe. -/
theorem first_right (cfg : Cfg) (src : Option Log) : Right cfg src ((run cfg ⟨src, none⟩).debian.getD []) := by
  refine right_of (fun o l h => by rw [h]; exact nofun) ?_
  unfold copied
  dsimp only
  split
  · rfl
  · rename_i h
    have : src = none := Classical.byContradiction fun e => h ⟨e, rfl⟩
    rw [this]

/-- What is known after complete runs. -/
theorem run_settled {cfg : Cfg} {st : St} {src : Option Log} (h : (copied st).orig.getD [] = src.getD []) :
    (run cfg st).debian ≠ none ∧ (run cfg st).orig = some (src.getD []) := by
  refine ⟨nofun, ?_⟩
  unfold run
  dsimp only
  rw [h]

/-- C155: and so it is each time when it is done again. -/
theorem again_right (cfg : Cfg) (src : Option Log) (n : Nat) : Right cfg src ((Nat.repeat (run cfg) (n + 1) ⟨src, none⟩).debian.getD []) := by
  have key : ∀ n, (Nat.repeat (run cfg) (n + 1) ⟨src, none⟩).debian ≠ none ∧ (Nat.repeat (run cfg) (n + 1) ⟨src, none⟩).orig = some (src.getD []) := by
    intro n
    induction n with
    | zero =>
      refine run_settled (st := ⟨src, none⟩) ?_
      unfold copied
      dsimp only
      split
      · rfl
      · rename_i h
        have : src = none := Classical.byContradiction fun e => h ⟨e, rfl⟩
        rw [this]
    | succ n ih =>
      refine run_settled (st := Nat.repeat (run cfg) (n + 1) ⟨src, none⟩) ?_
      unfold copied
      rw [if_neg (fun h => by rw [ih.2] at h; exact nomatch h.2), ih.2]
      rfl
  cases n with
  | zero => exact first_right cfg src
  | succ n =>
    refine right_of (fun _ _ _ => (key n).1) ?_
    unfold copied
    rw [if_neg (fun h => by rw [(key n).2] at h; exact nomatch h.2), (key n).2]
    rfl

/-- C155, the part that holds for runs that are stopped: when the sources have a changelog, and the recipe does not bring one that
begins with this version, the next complete run makes the right changelog, however often it was stopped. -/
theorem stopped_right_partial {cfg : Cfg} {s : Log} (hr : ∀ r v, cfg.recipe = some r → IsVersion cfg.version (some s) v → latest r ≠ v) {st : St}
    (ha : After cfg ⟨some s, none⟩ st) : Right cfg (some s) ((run cfg st).debian.getD []) := by
  have good : ∀ {st : St}, (st.debian ≠ none ∧ (st.orig = some s ∨ st.orig = none ∧ st.debian = some s)) → (copied st).orig = some s ∧ (copied st).debian ≠ none := by
    intro st h
    unfold copied
    rcases h.2 with h2 | ⟨h2, h3⟩
    · rw [if_neg fun e => by rw [h2] at e; exact nomatch e.2]; exact ⟨h2, h.1⟩
    · rw [if_pos ⟨h.1, h2⟩]; exact ⟨h3, h.1⟩
  have hver : ∀ {st : St}, (st.debian ≠ none ∧ (st.orig = some s ∨ st.orig = none ∧ st.debian = some s)) → IsVersion cfg.version (some s) (newVersion cfg st) := by
    intro st h
    obtain ⟨x, hx⟩ : ∃ x, st.debian = some x := by
      cases e : st.debian with
      | none => exact absurd e h.1
      | some x => exact ⟨x, rfl⟩
    have h1 := (good h).1
    unfold newVersion
    rw [hx, h1]
    cases s with
    | nil => exact IsVersion.plain (Or.inr rfl)
    | cons o l =>
      dsimp only
      rcases subst_spec o.version cfg.version with ⟨e1, e2⟩ | ⟨a, b, e1, e2, e3⟩
      · rw [e1]; exact IsVersion.nomark rfl e2
      · rw [e3]; exact IsVersion.replaced rfl e1 e2
  have inv : st.debian ≠ none ∧ (st.orig = some s ∨ st.orig = none ∧ st.debian = some s) := by
    induction ha with
    | none => exact ⟨nofun, Or.inr ⟨rfl, rfl⟩⟩
    | run _ ih => exact ⟨nofun, Or.inl (by unfold run; dsimp only; rw [(good ih).1]; rfl)⟩
    | stop _ hs ih =>
      have hg := good ih
      cases hs with
      | begin => exact ih
      | copied => exact ⟨hg.2, Or.inl hg.1⟩
      | emptied => exact ⟨nofun, Or.inl hg.1⟩
      | entry => exact ⟨nofun, Or.inl hg.1⟩
      | touched l => exact ⟨nofun, Or.inl (by dsimp only; rw [hg.1]; rfl)⟩
      | removed r h1 h2 => exact absurd h2 (hr r _ h1 (hver ih))
  refine right_of (fun _ _ _ => inv.1) ?_
  rw [(good inv).1]

/-- Beside these: sources and a recipe. -/
def exCfg : Cfg := ⟨"<orig-version>+isar1".toList, 3600, "generated by Isar".toList, none⟩
def exSrc : Log := [⟨"1.0-2".toList, 1000, "x".toList⟩, ⟨"1.0-1".toList, 500, "y".toList⟩]

example : run exCfg ⟨some exSrc, none⟩ = ⟨some (⟨"1.0-2+isar1".toList, 1042, "generated by Isar".toList⟩ :: exSrc), some exSrc⟩ := by decide +kernel
example : Stops exCfg ⟨some exSrc, none⟩ ⟨some [], some exSrc⟩ ∧ ∀ r v, exCfg.recipe = some r → IsVersion exCfg.version (some exSrc) v → latest r ≠ v :=
  ⟨Stops.emptied, fun _ _ h => nomatch h⟩

/-- Against C155: stopped after the entry was written and before `changelog.orig` was made, for sources without a changelog, the
entry is taken for their changelog. -/
theorem entry_taken : let cfg : Cfg := ⟨"1".toList, 3600, "t".toList, none⟩
    Stops cfg ⟨none, none⟩ ⟨some [⟨"1".toList, 3600, "t".toList⟩], none⟩ ∧
    (run cfg ⟨some [⟨"1".toList, 3600, "t".toList⟩], none⟩).debian = some [⟨"1".toList, 3642, "t".toList⟩, ⟨"1".toList, 3600, "t".toList⟩] ∧
    (run cfg ⟨none, none⟩).debian = some [⟨"1".toList, 3600, "t".toList⟩] :=
  ⟨Stops.entry (cfg := ⟨"1".toList, 3600, "t".toList, none⟩) (st := ⟨none, none⟩), by decide +kernel, by decide +kernel⟩

/-- Against C155: stopped when the file was removed to be replaced by that of the recipe, the mark is not replaced the next time. -/
theorem mark_stays : let cfg : Cfg := { exCfg with recipe := some [⟨"1.0-2+isar1".toList, 7, "r".toList⟩] }
    Stops cfg ⟨some exSrc, none⟩ ⟨none, some exSrc⟩ ∧
    ((run cfg ⟨none, some exSrc⟩).debian.getD []).head? = some ⟨"<orig-version>+isar1".toList, 3600, "generated by Isar".toList⟩ ∧
    (run cfg ⟨some exSrc, none⟩).debian = cfg.recipe :=
  ⟨Stops.removed (cfg := { exCfg with recipe := some [⟨"1.0-2+isar1".toList, 7, "r".toList⟩] }) (st := ⟨some exSrc, none⟩) _ rfl (by decide +kernel),
    by decide +kernel, by decide +kernel⟩

/-- Against C155: when newer sources are unpacked in the same directory, their changelog is not used. -/
theorem newer_sources (cfg : Cfg) (old new : Log) : ∀ log, (run cfg ⟨some new, (run cfg ⟨some old, none⟩).orig⟩).debian = some log →
    cfg.recipe = none → log.tail = old := by
  intro log h hr
  have h1 : (run cfg ⟨some old, none⟩).orig = some old := by
    unfold run copied
    dsimp only
    rw [if_pos ⟨nofun, rfl⟩]
    rfl
  rw [h1] at h
  unfold run written copied at h
  rw [hr] at h
  dsimp only at h
  rw [if_neg (fun e => nomatch e.2)] at h
  rw [← Option.some.inj h]
  rfl

/-! ### C156 -/

/-- White space around a text. -/
def Trimmed (t : Str) : Prop := t ≠ [] ∧ (∀ c ∈ t.head?, isWs c = false) ∧ ∀ c ∈ t.getLast?, isWs c = false

theorem dropWhile_split (p : Char → Bool) : ∀ (s : Str), ∃ a, s = a ++ s.dropWhile p ∧ (∀ c ∈ a, p c = true) ∧ ∀ c ∈ (s.dropWhile p).head?, p c = false
  | [] => ⟨[], rfl, nofun, nofun⟩
  | c :: s => by
    by_cases h : p c = true
    · obtain ⟨a, h1, h2, h3⟩ := dropWhile_split p s
      rw [List.dropWhile_cons_of_pos h]
      exact ⟨c :: a, by rw [List.cons_append, ← h1], fun x hx => (List.mem_cons.1 hx).elim (fun e => e ▸ h) (h2 x), h3⟩
    · rw [List.dropWhile_cons_of_neg h]
      exact ⟨[], rfl, nofun, fun x hx => by cases hx; exact eq_false_of_ne_true h⟩

/-- What `strip` removes is white space at both ends. -/
theorem strip_spec (s : Str) : ∃ a b, s = a ++ strip s ++ b ∧ (∀ c ∈ a ++ b, isWs c = true) ∧ (strip s = [] ∨ Trimmed (strip s)) := by
  obtain ⟨a, h1, h2, h3⟩ := dropWhile_split isWs s
  obtain ⟨b, k1, k2, k3⟩ := dropWhile_split isWs (s.dropWhile isWs).reverse
  have e : s.dropWhile isWs = strip s ++ b.reverse := by
    have := congrArg List.reverse k1
    rw [List.reverse_reverse, List.reverse_append] at this
    exact this
  refine ⟨a, b.reverse, by rw [List.append_assoc, ← e, ← h1], fun c hc => ?_, ?_⟩
  · exact (List.mem_append.1 hc).elim (h2 c) fun h => k2 c (List.mem_reverse.1 h)
  · by_cases hn : strip s = []
    · exact Or.inl hn
    · refine Or.inr ⟨hn, fun c hc => h3 c ?_, fun c hc => k3 c ?_⟩
      · rw [e]
        cases hs : strip s with
        | nil => exact absurd hs hn
        | cons x t => rw [hs] at hc; exact hc
      · have : strip s = ((s.dropWhile isWs).reverse.dropWhile isWs).reverse := rfl
        rw [this, List.getLast?_reverse] at hc
        exact hc

theorem strip_ws : ∀ {w s : Str}, (∀ c ∈ w, isWs c = true) → strip (w ++ s) = strip s := by
  intro w s h
  unfold strip lstrip
  congr 1
  induction w with
  | nil => rfl
  | cons c w ih => rw [List.cons_append, List.dropWhile_cons_of_pos (h c List.mem_cons_self)]; exact ih fun x hx => h x (List.mem_cons_of_mem _ hx)

theorem strip_trimmed {t : Str} (h : Trimmed t) : strip t = t := by
  obtain ⟨h1, h2, h3⟩ := h
  have e1 : lstrip t = t := by
    unfold lstrip
    cases t with
    | nil => rfl
    | cons c t => rw [List.dropWhile_cons_of_neg (by rw [h2 c rfl]; exact nofun)]
  unfold strip
  rw [e1]
  unfold rstrip
  have e2 : t.reverse.dropWhile isWs = t.reverse := by
    cases hr : t.reverse with
    | nil => rfl
    | cons c r =>
      rw [List.dropWhile_cons_of_neg]
      have : c ∈ t.getLast? := by
        rw [← List.head?_reverse, hr]; rfl
      rw [h3 c this]; exact nofun
  rw [e2, List.reverse_reverse]

theorem rstrip_ws {w s : Str} (hw : ∀ c ∈ w, isWs c = true) : rstrip (s ++ w) = rstrip s := by
  unfold rstrip
  rw [List.reverse_append]
  congr 1
  have : ∀ (w : Str), (∀ c ∈ w, isWs c = true) → (w ++ s.reverse).dropWhile isWs = s.reverse.dropWhile isWs := by
    intro w
    induction w with
    | nil => intro _; rfl
    | cons c w ih => intro h; rw [List.cons_append, List.dropWhile_cons_of_pos (h c List.mem_cons_self)]; exact ih fun x hx => h x (List.mem_cons_of_mem _ hx)
  exact this w.reverse fun c hc => hw c (List.mem_reverse.1 hc)

theorem lstrip_trimmed {t s : Str} (h : Trimmed t) : lstrip (t ++ s) = t ++ s := by
  unfold lstrip
  cases ht : t with
  | nil => exact absurd ht h.1
  | cons c t => rw [List.cons_append, List.dropWhile_cons_of_neg (by rw [h.2.1 c (by rw [ht]; rfl)]; exact nofun)]

theorem given_strip {t w : Str} (h : Trimmed t) (hw : ∀ c ∈ w, isWs c = true) : strip (t ++ w) = t := by
  unfold strip
  rw [lstrip_trimmed h, rstrip_ws hw]
  have e := strip_trimmed h
  unfold strip at e
  have e2 := lstrip_trimmed (s := []) h
  rw [List.append_nil] at e2
  rwa [e2] at e

/-- The items of a list: the trimmed parts between commas. -/
def items (line : Str) : List Str := ((splitOn ',' line).map strip).filter (· ≠ [])

theorem items_trimmed {line t : Str} (h : t ∈ items line) : Trimmed t ∧ ',' ∉ t := by
  obtain ⟨h1, h2⟩ := List.mem_filter.1 h
  obtain ⟨p, hp, rfl⟩ := List.mem_map.1 h1
  obtain ⟨a, b, e, _, h3⟩ := strip_spec p
  refine ⟨h3.resolve_left (of_decide_eq_true h2), fun hc => splitOn_pieces hp ?_⟩
  rw [e]
  exact List.mem_append_left _ (List.mem_append_right _ hc)

theorem items_join : ∀ (ts : List Str), (∀ t ∈ ts, Trimmed t ∧ ',' ∉ t) → items (join ", ".toList ts) = ts
  | [], _ => rfl
  | [t], h => by
    have ht := h t List.mem_cons_self
    show ((splitOn ',' t).map strip).filter _ = [t]
    rw [splitOn_clean _ _ ht.2, List.map_cons, List.map_nil, strip_trimmed ht.1, List.filter_cons, if_pos (decide_eq_true ht.1.1), List.filter_nil]
  | t :: t' :: ts, h => by
    have ht := h t List.mem_cons_self
    have ih := items_join (t' :: ts) fun x hx => h x (List.mem_cons_of_mem _ hx)
    have e : join ", ".toList (t :: t' :: ts) = t ++ ',' :: (' ' :: join ", ".toList (t' :: ts)) := by
      show t ++ ", ".toList ++ _ = _
      rw [List.append_assoc]; rfl
    have e2 : items (' ' :: join ", ".toList (t' :: ts)) = items (join ", ".toList (t' :: ts)) := by
      unfold items
      have hsp : splitOn ',' (' ' :: join ", ".toList (t' :: ts)) = match splitOn ',' (join ", ".toList (t' :: ts)) with
          | [] => []
          | x :: xs => (' ' :: x) :: xs := by
        generalize join ", ".toList (t' :: ts) = s
        have key : ∀ (s cur : Str) , splitOnGo ',' s (' ' :: cur) = match splitOnGo ',' s cur with
          | [] => []
          | x :: xs => (' ' :: x) :: xs := by
          intro s
          induction s with
          | nil =>
            intro cur
            rfl
          | cons c s ih =>
            intro cur
            unfold splitOnGo
            split
            · rfl
            · exact ih (cur ++ [c])
        exact key s []
      rw [hsp]
      cases hs : splitOn ',' (join ", ".toList (t' :: ts)) with
      | nil => rfl
      | cons x xs =>
        dsimp only
        rw [List.map_cons, List.map_cons, show (' ' :: x) = [' '] ++ x from rfl, strip_ws (w := [' ']) (by decide)]
    rw [e]
    unfold items
    rw [splitOn_append, List.map_append, List.filter_append]
    have e3 : ((splitOn ',' t).map strip).filter (· ≠ []) = [t] := by
      rw [splitOn_clean _ _ ht.2, List.map_cons, List.map_nil, strip_trimmed ht.1, List.filter_cons, if_pos (decide_eq_true ht.1.1), List.filter_nil]
    rw [e3, show ((splitOn ',' (' ' :: join ", ".toList (t' :: ts))).map strip).filter (· ≠ []) = t' :: ts from e2.trans ih]
    rfl

/-- C156: a list in the control file has the items of the variable, each as it is written there without white space around it, in
order, and nothing empty. -/
theorem beautify_items (line : Str) : items (beautify line) = items line ∧ beautify line = join ", ".toList (items line) :=
  ⟨items_join _ fun _ => items_trimmed, rfl⟩

/-- C156: a list that is made of items without commas has these items, however much white space and however many commas. -/
theorem given_items {ps : List (Str × Str × Str)} (hp : ∀ p ∈ ps, (∀ c ∈ p.1 ++ p.2.2, isWs c = true) ∧ ',' ∉ p.1 ++ p.2.2 ∧
      (p.2.1 = [] ∨ Trimmed p.2.1) ∧ ',' ∉ p.2.1) (hne : ps ≠ []) :
    beautify (join [','] (ps.map fun p => p.1 ++ p.2.1 ++ p.2.2)) = join ", ".toList ((ps.map (·.2.1)).filter (· ≠ [])) := by
  unfold beautify
  rw [splitOn_join]
  · congr 1
    rw [List.map_map]
    congr 1
    refine List.map_congr_left fun p h => ?_
    obtain ⟨h1, _, h3, _⟩ := hp p h
    show strip (p.1 ++ p.2.1 ++ p.2.2) = p.2.1
    rw [List.append_assoc, strip_ws fun c hc => h1 c (List.mem_append_left _ hc)]
    have hw2 : ∀ c ∈ p.2.2, isWs c = true := fun c hc => h1 c (List.mem_append_right _ hc)
    rcases h3 with h3 | h3
    · rw [h3, List.nil_append]
      have := strip_ws (w := p.2.2) (s := []) hw2
      rw [List.append_nil] at this
      rw [this]; rfl
    · exact given_strip h3 hw2
  · intro h; exact hne (List.map_eq_nil_iff.1 h)
  · intro w hw
    obtain ⟨p, h, rfl⟩ := List.mem_map.1 hw
    obtain ⟨_, h2, _, h4⟩ := hp p h
    intro hc
    rcases List.mem_append.1 hc with hc | hc
    · rcases List.mem_append.1 hc with hc | hc
      · exact h2 (List.mem_append_left _ hc)
      · exact h4 hc
    · exact h2 (List.mem_append_right _ hc)

/-- C156: every text is such a list. -/
theorem every_line (line : Str) : ∃ ps : List (Str × Str × Str), ps ≠ [] ∧ line = join [','] (ps.map fun p => p.1 ++ p.2.1 ++ p.2.2) ∧
    (∀ p ∈ ps, (∀ c ∈ p.1 ++ p.2.2, isWs c = true) ∧ ',' ∉ p.1 ++ p.2.2 ∧ (p.2.1 = [] ∨ Trimmed p.2.1) ∧ ',' ∉ p.2.1) ∧
    beautify line = join ", ".toList ((ps.map (·.2.1)).filter (· ≠ [])) := by
  have key : ∀ (l : List Str), (∀ x ∈ l, ',' ∉ x) → ∃ ps : List (Str × Str × Str), l = ps.map (fun p => p.1 ++ p.2.1 ++ p.2.2) ∧
      ∀ p ∈ ps, (∀ c ∈ p.1 ++ p.2.2, isWs c = true) ∧ ',' ∉ p.1 ++ p.2.2 ∧ (p.2.1 = [] ∨ Trimmed p.2.1) ∧ ',' ∉ p.2.1 := by
    intro l
    induction l with
    | nil => intro _; exact ⟨[], rfl, nofun⟩
    | cons x l ih =>
      intro h
      obtain ⟨ps, h1, h2⟩ := ih fun y hy => h y (List.mem_cons_of_mem _ hy)
      obtain ⟨a, b, e, h3, h4⟩ := strip_spec x
      have hx := h x List.mem_cons_self
      refine ⟨(a, strip x, b) :: ps, by rw [List.map_cons, ← h1, ← e], fun p hp => ?_⟩
      rcases List.mem_cons.1 hp with rfl | hp
      · refine ⟨h3, fun hc => hx ?_, h4, fun hc => hx ?_⟩
        · rw [e]
          exact (List.mem_append.1 hc).elim (fun hc => List.mem_append_left _ (List.mem_append_left _ hc)) fun hc => List.mem_append_right _ hc
        · rw [e]
          exact List.mem_append_left _ (List.mem_append_right _ hc)
      · exact h2 p hp
  obtain ⟨ps, h1, h2⟩ := key (splitOn ',' line) fun x hx => splitOn_pieces hx
  have hne : ps ≠ [] := by
    intro e
    rw [e] at h1
    exact splitOnGo_ne_nil ',' line [] h1
  have hl : line = join [','] (ps.map fun p => p.1 ++ p.2.1 ++ p.2.2) := by rw [← h1, join_splitOn]
  refine ⟨ps, hne, hl, h2, ?_⟩
  conv => lhs; rw [hl]
  exact given_items h2 hne

example : beautify " libc6 (>= 2.36),\n , foo | bar ,".toList = "libc6 (>= 2.36), foo | bar".toList := by decide +kernel

end Meta.Changelog
