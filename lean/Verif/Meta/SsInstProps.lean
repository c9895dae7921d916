import Verif.Meta.SsInstModel
/-!
# Properties of shared directories
-/

namespace Meta.SsInst
open Py

/-! ## Paths -/

theorem replaceGo_skip (p r : Str) : ∀ (a b : Str), replaceGo p r a.length (a ++ b) = replaceGo p r 0 b
  | [], _ => rfl
  | _ :: a, b => replaceGo_skip p r a b

theorem replaceGo_none (p r : Str) : ∀ s : Str, ¬ p <:+: s → replaceGo p r 0 s = s
  | [], _ => rfl
  | c :: s, h => by
    have h1 : startsWith (c :: s) p = false := by
      cases hs : startsWith (c :: s) p with
      | false => rfl
      | true =>
        obtain ⟨t, ht⟩ := startsWith_iff.1 hs
        exact absurd ⟨[], t, by rw [ht]; rfl⟩ h
    unfold replaceGo
    rw [h1, if_neg (by decide), replaceGo_none p r s fun ⟨x, y, e⟩ => h ⟨c :: x, y, by rw [← e]; rfl⟩]

theorem replaceGo_front (p r x : Str) (hp : p ≠ []) (h : ¬ p <:+: x) : replaceGo p r 0 (p ++ x) = r ++ x := by
  cases p with
  | nil => exact absurd rfl hp
  | cons c q =>
    show replaceGo (c :: q) r 0 (c :: (q ++ x)) = r ++ x
    unfold replaceGo
    rw [if_pos (show startsWith (c :: (q ++ x)) (c :: q) = true from startsWith_iff.2 ⟨x, rfl⟩)]
    show r ++ replaceGo (c :: q) r q.length (q ++ x) = r ++ x
    rw [replaceGo_skip, replaceGo_none _ _ _ h]

/-- A task as in Isar: the input directory does not occur again in the names of what is in it, paths are
normalised and have no line breaks and no white space at the end. -/
structure Ok (t : Task) : Prop where
  src : t.src ≠ []
  once : ∀ e, e ∈ t.tree → ¬ t.src <:+: "/".toList ++ e.rel
  abs : ∃ d, t.dst = '/' :: d
  norm : ∀ e, e ∈ t.tree → normpath (placed t e) = placed t e
  lines : ∀ e, e ∈ t.tree → '\n' ∉ placed t e ∧ '\r' ∉ placed t e
  last : ∀ e, e ∈ t.tree → ∃ s c, placed t e = s ++ [c] ∧ isWs c = false ∧ c ≠ '/'

theorem recorded_eq {t : Task} (ok : Ok t) {e : Entry} (he : e ∈ t.tree) : recorded t e = placed t e := by
  unfold recorded placed
  rw [List.append_assoc, List.append_assoc]
  exact replaceGo_front _ _ _ ok.src (ok.once e he)

theorem placed_no_slash {t : Task} (ok : Ok t) {e : Entry} (he : e ∈ t.tree) :
    endsWith (placed t e) "/".toList = false := by
  obtain ⟨s, c, h1, _, h2⟩ := ok.last e he
  cases h : endsWith (placed t e) "/".toList with
  | false => rfl
  | true =>
    obtain ⟨x, hx⟩ := endsWith_iff.1 h
    rw [h1] at hx
    exact absurd (List.cons.inj (List.append_inj' hx rfl).2).1 h2

theorem mem_sharedFiles {t : Task} (ok : Ok t) {f : Str} :
    f ∈ sharedFiles t ↔ ∃ e, e ∈ t.tree ∧ e.node ≠ .dir ∧ f = placed t e := by
  unfold sharedFiles
  rw [List.mem_map]
  constructor
  · rintro ⟨e, he, rfl⟩
    rw [List.mem_filter] at he
    exact ⟨e, he.1, of_decide_eq_true he.2, recorded_eq ok he.1⟩
  · rintro ⟨e, he, hn, rfl⟩
    exact ⟨e, List.mem_filter.2 ⟨he, decide_eq_true hn⟩, recorded_eq ok he⟩

theorem mem_sharedDirs {t : Task} (ok : Ok t) {f : Str} :
    f ∈ sharedDirs t ↔ ∃ e, e ∈ t.tree ∧ e.node = .dir ∧ f = placed t e ++ "/".toList := by
  unfold sharedDirs
  rw [List.mem_map]
  constructor
  · rintro ⟨e, he, rfl⟩
    rw [List.mem_filter] at he
    refine ⟨e, he.1, of_decide_eq_true he.2, ?_⟩
    rw [recorded_eq ok he.1, placed_no_slash ok he.1, if_neg (by decide)]
  · rintro ⟨e, he, hn, rfl⟩
    refine ⟨e, List.mem_filter.2 ⟨he, decide_eq_true hn⟩, ?_⟩
    rw [recorded_eq ok he, placed_no_slash ok he, if_neg (by decide)]

theorem mem_manifestLines {t : Task} (ok : Ok t) {l : Str} : l ∈ manifestLines t ↔
    (∃ e, e ∈ t.tree ∧ e.node ≠ .dir ∧ l = placed t e) ∨
      ∃ e, e ∈ t.tree ∧ e.node = .dir ∧ l = placed t e ++ "/".toList := by
  unfold manifestLines
  rw [List.mem_append, List.mem_reverse, (sortBy_perm _ _).mem_iff, mem_sharedFiles ok, mem_sharedDirs ok]

/-! ## Installing -/

theorem overlapAllowed_iff {t : Task} (ok : Ok t) {e : Entry} (he : e ∈ t.tree) :
    overlapAllowed t (placed t e) = true ↔ ∃ w, w ∈ words t.allowed ∧ normpath w <+: placed t e := by
  unfold overlapAllowed
  rw [List.any_eq_true, ok.norm e he]
  constructor
  · rintro ⟨w, hw, h⟩
    obtain ⟨x, hx⟩ := startsWith_iff.1 h
    exact ⟨w, hw, x, hx.symm⟩
  · rintro ⟨w, hw, x, hx⟩
    exact ⟨w, hw, startsWith_iff.2 ⟨x, hx.symm⟩⟩

/-- **C113.**  If a file or a directory is where a task has a file, and it is not allowed to overlap,
nothing is installed. -/
theorem overlap_stops (t : Task) (ok : Ok t) (w : World) (e : Entry) (he : e ∈ t.tree) (hn : e.node ≠ .dir)
    (ho : (∃ c, w.fs.lookup (placed t e) = some (.file c)) ∨ w.fs.lookup (placed t e) = some .dir)
    (ha : ∀ a, a ∈ words t.allowed → ¬ normpath a <+: placed t e) :
    ∃ err, install t w = .error err := by
  have hocc : occupied w.fs (placed t e) = true := by
    unfold occupied
    rcases ho with ⟨c, h⟩ | h <;> rw [h]
  have hov : overlapAllowed t (placed t e) = false := by
    cases h : overlapAllowed t (placed t e) with
    | false => rfl
    | true =>
      obtain ⟨a, h1, h2⟩ := (overlapAllowed_iff ok he).1 h
      exact absurd h2 (ha a h1)
  have hc : conflicts t w.fs ≠ [] := by
    refine List.ne_nil_of_mem (a := placed t e) ?_
    unfold conflicts
    rw [List.mem_filter, hocc, hov]
    exact ⟨(mem_sharedFiles ok).2 ⟨e, he, hn, rfl⟩, rfl⟩
  unfold install check
  by_cases hm : w.man.isSome = true
  · rw [if_pos hm]; exact ⟨_, rfl⟩
  · rw [if_neg hm, if_pos hc]; exact ⟨_, rfl⟩

theorem runOps_append (w : World) (a b : List Op) : runOps w (a ++ b) = runOps (runOps w a) b :=
  List.foldl_append

theorem runOps_man_fs : ∀ (ops : List Op) (w : World), (∀ o, o ∈ ops → o = .openMan ∨ ∃ c, o = .writeMan c) →
    (runOps w ops).fs = w.fs
  | [], _, _ => rfl
  | o :: ops, w, h => by
    show (runOps (apply w o) ops).fs = w.fs
    rw [runOps_man_fs ops _ fun x hx => h x (List.mem_cons_of_mem _ hx)]
    rcases h o List.mem_cons_self with rfl | ⟨c, rfl⟩ <;> rfl

theorem manOps (t : Task) (o : Op) (h : o ∈ Op.openMan :: (manifestText t).map .writeMan) :
    o = .openMan ∨ ∃ c, o = .writeMan c := by
  rcases List.mem_cons.1 h with h | h
  · exact Or.inl h
  · obtain ⟨c, _, rfl⟩ := List.mem_map.1 h
    exact Or.inr ⟨c, rfl⟩

theorem mem_copyOps {t : Task} {o : Op} : o ∈ copyOps t ↔
    (∃ e, e ∈ t.tree ∧ e.node = .dir ∧ o = .mkdir (placed t e)) ∨
      ∃ e, e ∈ t.tree ∧ e.node ≠ .dir ∧ o = .put (placed t e) e.node := by
  unfold copyOps
  rw [List.mem_append, List.mem_map, List.mem_map]
  constructor
  · rintro (⟨e, he, rfl⟩ | ⟨e, he, rfl⟩)
    · rw [List.mem_filter] at he
      exact Or.inl ⟨e, he.1, of_decide_eq_true he.2, rfl⟩
    · rw [List.mem_filter] at he
      exact Or.inr ⟨e, he.1, of_decide_eq_true he.2, rfl⟩
  · rintro (⟨e, he, hn, rfl⟩ | ⟨e, he, hn, rfl⟩)
    · exact Or.inl ⟨e, List.mem_filter.2 ⟨he, decide_eq_true hn⟩, rfl⟩
    · exact Or.inr ⟨e, List.mem_filter.2 ⟨he, decide_eq_true hn⟩, rfl⟩

theorem apply_mkdir (w : World) (p q : Str) :
    (apply w (.mkdir p)).fs.lookup q = w.fs.lookup q ∨
      (q = p ∧ (apply w (.mkdir p)).fs.lookup q = some .dir) := by
  unfold apply
  dsimp only
  split
  · exact Or.inl rfl
  · exact Or.inl rfl
  · rw [show (World.fs { w with fs := w.fs.set p .dir }).lookup q = (w.fs.set p .dir).lookup q from rfl,
      Dict.lookup_set]
    by_cases h : q = p
    · rw [if_pos h]; exact Or.inr ⟨h, rfl⟩
    · rw [if_neg h]; exact Or.inl rfl

theorem apply_put (w : World) (p q : Str) (n : Node) :
    (apply w (.put p n)).fs.lookup q = w.fs.lookup q ∨
      (q = p ∧ w.fs.lookup q ≠ some .dir ∧ (apply w (.put p n)).fs.lookup q = some n) := by
  unfold apply
  dsimp only
  split
  · exact Or.inl rfl
  · rename_i hne
    rw [show (World.fs { w with fs := w.fs.set p n }).lookup q = (w.fs.set p n).lookup q from rfl,
      Dict.lookup_set]
    by_cases h : q = p
    · rw [if_pos h]
      refine Or.inr ⟨h, ?_, rfl⟩
      rw [h]
      exact fun c => hne c
    · rw [if_neg h]; exact Or.inl rfl

/-- What copies do at one path. -/
theorem copies_at {t : Task} (q : Str) : ∀ (cs : List Op) (w : World), (∀ o, o ∈ cs → o ∈ copyOps t) →
    (runOps w cs).fs.lookup q = w.fs.lookup q ∨
      (∃ e, e ∈ t.tree ∧ e.node = .dir ∧ q = placed t e ∧ (runOps w cs).fs.lookup q = some .dir) ∨
      ∃ e, e ∈ t.tree ∧ e.node ≠ .dir ∧ q = placed t e ∧ w.fs.lookup q ≠ some .dir ∧
        (runOps w cs).fs.lookup q = some e.node
  | [], _, _ => Or.inl rfl
  | o :: cs, w, h => by
    have ih := copies_at q cs (apply w o) fun x hx => h x (List.mem_cons_of_mem _ hx)
    show (runOps (apply w o) cs).fs.lookup q = w.fs.lookup q ∨ _
    rw [show runOps w (o :: cs) = runOps (apply w o) cs from rfl]
    rcases mem_copyOps.1 (h o List.mem_cons_self) with ⟨e, he, hn, rfl⟩ | ⟨e, he, hn, rfl⟩
    · rcases apply_mkdir w (placed t e) q with h1 | ⟨h1, h2⟩
      · rw [h1] at ih; exact ih
      · rcases ih with h3 | h3 | ⟨_, _, _, _, h4, _⟩
        · exact Or.inr (Or.inl ⟨e, he, hn, h1, h3.trans h2⟩)
        · exact Or.inr (Or.inl h3)
        · exact absurd h2 h4
    · rcases apply_put w (placed t e) q e.node with h1 | ⟨h1, h0, h2⟩
      · rw [h1] at ih; exact ih
      · rcases ih with h3 | h3 | ⟨e', a, b, c, _, d⟩
        · exact Or.inr (Or.inr ⟨e, he, hn, h1, h0, h3.trans h2⟩)
        · exact Or.inr (Or.inl h3)
        · exact Or.inr (Or.inr ⟨e', a, b, c, h0, d⟩)

/-- What an installation does at one path, however far it gets. -/
theorem done_at {t : Task} {ops : List Op} (hd : Done t ops) (w : World) (q : Str) :
    (runOps w ops).fs.lookup q = w.fs.lookup q ∨
      (∃ e, e ∈ t.tree ∧ e.node = .dir ∧ q = placed t e ∧ (runOps w ops).fs.lookup q = some .dir) ∨
      ∃ e, e ∈ t.tree ∧ e.node ≠ .dir ∧ q = placed t e ∧ w.fs.lookup q ≠ some .dir ∧
        (runOps w ops).fs.lookup q = some e.node := by
  cases hd with
  | manifest n =>
    rw [runOps_man_fs _ _ fun o ho => manOps t o (List.mem_of_mem_take ho)]
    exact Or.inl rfl
  | copies cs h =>
    rw [runOps_append]
    have := copies_at q cs (runOps w (Op.openMan :: (manifestText t).map .writeMan)) h
    rw [runOps_man_fs _ _ (manOps t)] at this
    exact this

/-- The checks have found nothing. -/
theorem check_free {t : Task} (ok : Ok t) {w : World} (hc : check t w = none) {e : Entry} (he : e ∈ t.tree)
    (hn : e.node ≠ .dir) (ha : ∀ a, a ∈ words t.allowed → ¬ normpath a <+: placed t e) :
    occupied w.fs (placed t e) = false := by
  unfold check at hc
  by_cases hm : w.man.isSome = true
  · rw [if_pos hm] at hc; cases hc
  rw [if_neg hm] at hc
  by_cases h2 : conflicts t w.fs ≠ []
  · rw [if_pos h2] at hc; cases hc
  have h3 : conflicts t w.fs = [] := Classical.not_not.1 h2
  unfold conflicts at h3
  rw [List.filter_eq_nil_iff] at h3
  have h4 := h3 _ ((mem_sharedFiles ok).2 ⟨e, he, hn, rfl⟩)
  cases ho : occupied w.fs (placed t e) with
  | false => rfl
  | true =>
    rw [ho] at h4
    cases hov : overlapAllowed t (placed t e) with
    | false => rw [hov] at h4; exact absurd rfl h4
    | true =>
      obtain ⟨a, b, c⟩ := (overlapAllowed_iff ok he).1 hov
      exact absurd c (ha a b)

/-- **C113.**  An installation, however far it gets, leaves the files that were there as they were, unless
they are allowed to overlap.  Missing: files where the task has a directory (`dir_replaces_file`); and
links are replaced (`link_replaced`). -/
theorem others_kept_partial (t : Task) (ok : Ok t) (w : World) (ops : List Op) (hc : check t w = none)
    (hd : Done t ops) (p : Str) (c : Nat) (hp : w.fs.lookup p = some (.file c))
    (ha : ∀ a, a ∈ words t.allowed → ¬ normpath a <+: p)
    (hdir : ∀ e, e ∈ t.tree → e.node = .dir → p ≠ placed t e) :
    (runOps w ops).fs.lookup p = some (.file c) := by
  rcases done_at hd w p with h | ⟨e, he, hn, h, _⟩ | ⟨e, he, hn, h, _⟩
  · exact h.trans hp
  · exact absurd h (hdir e he hn)
  · subst h
    have := check_free ok hc he hn ha
    unfold occupied at this
    rw [hp] at this
    cases this

/-- **C113.**  Directories stay directories. -/
theorem dirs_kept (t : Task) (w : World) (ops : List Op) (hd : Done t ops) (p : Str)
    (hp : w.fs.lookup p = some .dir) : (runOps w ops).fs.lookup p = some .dir := by
  rcases done_at hd w p with h | ⟨_, _, _, _, h⟩ | ⟨_, _, _, _, h, _⟩
  · exact h.trans hp
  · exact h
  · exact absurd hp h

theorem placed_inj {t : Task} {e e' : Entry} (h : placed t e = placed t e') : e.rel = e'.rel :=
  List.append_cancel_left h

/-- What copies do at the path of an entry. -/
theorem copies_entry {t : Task} (hdist : ∀ e, e ∈ t.tree → ∀ e', e' ∈ t.tree → e.rel = e'.rel → e = e')
    {e : Entry} (he : e ∈ t.tree) (cs : List Op) (w : World) (h : ∀ o, o ∈ cs → o ∈ copyOps t) :
    (runOps w cs).fs.lookup (placed t e) = w.fs.lookup (placed t e) ∨
      (runOps w cs).fs.lookup (placed t e) = some e.node := by
  rcases copies_at (placed t e) cs w h with h1 | ⟨e', he', hn, hp, h1⟩ | ⟨e', he', hn, hp, _, h1⟩
  · exact Or.inl h1
  · rw [← hdist e he e' he' (placed_inj hp)] at hn
    exact Or.inr (hn ▸ h1)
  · rw [← hdist e he e' he' (placed_inj hp)] at h1
    exact Or.inr h1

theorem mkdir_done (w : World) (p : Str) (h : ∀ x, w.fs.lookup p ≠ some (.link x)) :
    (apply w (.mkdir p)).fs.lookup p = some .dir := by
  unfold apply
  dsimp only
  split
  · assumption
  · rename_i hl; exact absurd hl (h _)
  · show (w.fs.set p .dir).lookup p = _
    rw [Dict.lookup_set, if_pos rfl]

theorem put_done (w : World) (p : Str) (n : Node) (h : w.fs.lookup p ≠ some .dir) :
    (apply w (.put p n)).fs.lookup p = some n := by
  unfold apply
  dsimp only
  split
  · rename_i hd; exact absurd hd h
  · show (w.fs.set p n).lookup p = _
    rw [Dict.lookup_set, if_pos rfl]

/-- **C113.**  After an installation everything that the task has is in the output directory, if there was
no link where it has a directory and no directory where it has a file. -/
theorem installed (t : Task) (w w' : World) (h : install t w = .ok w')
    (hdist : ∀ e, e ∈ t.tree → ∀ e', e' ∈ t.tree → e.rel = e'.rel → e = e')
    (e : Entry) (he : e ∈ t.tree)
    (hl : e.node = .dir → ∀ x, w.fs.lookup (placed t e) ≠ some (.link x))
    (hd : e.node ≠ .dir → w.fs.lookup (placed t e) ≠ some .dir) :
    w'.fs.lookup (placed t e) = some e.node := by
  unfold install at h
  split at h
  · cases h
  cases h
  unfold installOps
  rw [runOps_append]
  have hfs : (runOps w (Op.openMan :: (manifestText t).map .writeMan)).fs = w.fs := runOps_man_fs _ _ (manOps t)
  generalize runOps w (Op.openMan :: (manifestText t).map .writeMan) = w1 at hfs
  rw [← hfs] at hl hd
  by_cases hn : e.node = .dir
  · obtain ⟨a, b, hab⟩ := List.append_of_mem (mem_copyOps.2 (Or.inl ⟨e, he, hn, rfl⟩))
    have hsub : ∀ o, o ∈ a ++ .mkdir (placed t e) :: b → o ∈ copyOps t := fun o ho => hab ▸ ho
    rw [hab, runOps_append]
    show (runOps (apply (runOps w1 a) (.mkdir (placed t e))) b).fs.lookup _ = _
    have h1 : (apply (runOps w1 a) (.mkdir (placed t e))).fs.lookup (placed t e) = some e.node := by
      rw [hn]
      refine mkdir_done _ _ fun x hx => ?_
      rcases copies_entry hdist he a w1 fun o ho => hsub o (List.mem_append_left _ ho) with h2 | h2
      · exact hl hn x (h2 ▸ hx)
      · rw [h2, hn] at hx; cases hx
    rcases copies_entry hdist he b _ fun o ho => hsub o (List.mem_append_right _ (List.mem_cons_of_mem _ ho)) with h2 | h2
    · exact h2.trans h1
    · exact h2
  · obtain ⟨a, b, hab⟩ := List.append_of_mem (mem_copyOps.2 (Or.inr ⟨e, he, hn, rfl⟩))
    have hsub : ∀ o, o ∈ a ++ .put (placed t e) e.node :: b → o ∈ copyOps t := fun o ho => hab ▸ ho
    rw [hab, runOps_append]
    show (runOps (apply (runOps w1 a) (.put (placed t e) e.node)) b).fs.lookup _ = _
    have h1 : (apply (runOps w1 a) (.put (placed t e) e.node)).fs.lookup (placed t e) = some e.node := by
      refine put_done _ _ _ fun hx => ?_
      rcases copies_entry hdist he a w1 fun o ho => hsub o (List.mem_append_left _ ho) with h2 | h2
      · exact hd hn (h2 ▸ hx)
      · rw [h2] at hx; exact hn (Option.some.inj hx)
    rcases copies_entry hdist he b _ fun o ho => hsub o (List.mem_append_right _ (List.mem_cons_of_mem _ ho)) with h2 | h2
    · exact h2.trans h1
    · exact h2

/-! ## Reading the manifest -/

theorem splitOn_clean_r {l : Str} (h : '\r' ∉ l) : splitOn '\r' l = [l] := splitOn_clean _ _ h

theorem readLines_lines : ∀ ls : List Str, (∀ l, l ∈ ls → '\n' ∉ l ∧ '\r' ∉ l) →
    readLines ((ls.map (· ++ "\n".toList)).flatten) = ls ++ [[]]
  | [], _ => rfl
  | l :: ls, h => by
    have ih := readLines_lines ls fun x hx => h x (List.mem_cons_of_mem _ hx)
    unfold readLines at ih ⊢
    have e : ((l :: ls).map (· ++ "\n".toList)).flatten = l ++ '\n' :: (ls.map (· ++ "\n".toList)).flatten := by
      rw [List.map_cons, List.flatten_cons, List.append_assoc]; rfl
    obtain ⟨h1, h2⟩ := h l List.mem_cons_self
    rw [e, splitOn_append, splitOn_clean _ _ h1, List.flatMap_append, ih, List.flatMap_cons,
      splitOn_clean_r h2]
    rfl

theorem take_no {c : Char} {l : Str} (h : c ∉ l) (n : Nat) : c ∉ l.take n := fun hc => h (List.mem_of_mem_take hc)

/-- Every line that is read from the beginning of the text is the beginning of a line. -/
theorem readLines_take : ∀ (ls : List Str) (n : Nat), (∀ l, l ∈ ls → '\n' ∉ l ∧ '\r' ∉ l) →
    ∀ x, x ∈ readLines (((ls.map (· ++ "\n".toList)).flatten).take n) → x = [] ∨ ∃ l, l ∈ ls ∧ x <+: l
  | [], n, _ => by
    intro x hx
    rw [show (([] : List Str).map (· ++ "\n".toList)).flatten = [] from rfl, List.take_nil] at hx
    exact Or.inl (List.mem_singleton.1 hx)
  | l :: ls, n, h => by
    intro x hx
    have ih := readLines_take ls (n - l.length - 1) fun x hx => h x (List.mem_cons_of_mem _ hx)
    have e : ((l :: ls).map (· ++ "\n".toList)).flatten = l ++ '\n' :: (ls.map (· ++ "\n".toList)).flatten := by
      rw [List.map_cons, List.flatten_cons, List.append_assoc]; rfl
    obtain ⟨h1, h2⟩ := h l List.mem_cons_self
    rw [e] at hx
    unfold readLines at hx
    by_cases hn : n ≤ l.length
    · rw [List.take_append_of_le_length hn, splitOn_clean _ _ (take_no h1 n), List.flatMap_cons,
        splitOn_clean_r (take_no h2 n)] at hx
      have : x = l.take n := by
        rcases List.mem_append.1 hx with hx | hx
        · exact List.mem_singleton.1 hx
        · cases hx
      exact Or.inr ⟨l, List.mem_cons_self, this ▸ List.take_prefix _ _⟩
    · obtain ⟨k, hk⟩ : ∃ k, n = l.length + (k + 1) := ⟨n - l.length - 1, by omega⟩
      have hk' : n - l.length - 1 = k := by omega
      rw [hk, List.take_length_add_append, List.take_succ_cons, splitOn_append, splitOn_clean _ _ h1,
        List.flatMap_append, List.flatMap_cons, splitOn_clean_r h2] at hx
      rw [hk'] at ih
      rcases List.mem_append.1 hx with hx | hx
      · rcases List.mem_append.1 hx with hx | hx
        · exact Or.inr ⟨l, List.mem_cons_self, (List.mem_singleton.1 hx) ▸ List.prefix_rfl⟩
        · cases hx
      · rcases ih x hx with hx | ⟨m, hm, hx⟩
        · exact Or.inl hx
        · exact Or.inr ⟨m, List.mem_cons_of_mem _ hm, hx⟩

theorem lines_ok {t : Task} (ok : Ok t) {l : Str} (h : l ∈ manifestLines t) : '\n' ∉ l ∧ '\r' ∉ l := by
  rcases (mem_manifestLines ok).1 h with ⟨e, he, _, rfl⟩ | ⟨e, he, _, rfl⟩
  · exact ok.lines e he
  · obtain ⟨a, b⟩ := ok.lines e he
    constructor
    · intro hm
      rcases List.mem_append.1 hm with hm | hm
      · exact a hm
      · exact absurd hm (by decide)
    · intro hm
      rcases List.mem_append.1 hm with hm | hm
      · exact b hm
      · exact absurd hm (by decide)

theorem runOps_write : ∀ (s : Str) (w : World) (m : Str), w.man = some m →
    (runOps w (s.map .writeMan)).man = some (m ++ s)
  | [], w, m, h => by rw [List.append_nil]; exact h
  | c :: s, w, m, h => by
    show (runOps (apply w (.writeMan c)) (s.map .writeMan)).man = _
    rw [runOps_write s _ (m ++ [c]) (by show w.man.map (· ++ [c]) = _; rw [h]; rfl), List.append_assoc]
    rfl

theorem runOps_copy_man {t : Task} : ∀ (cs : List Op) (w : World), (∀ o, o ∈ cs → o ∈ copyOps t) →
    (runOps w cs).man = w.man
  | [], _, _ => rfl
  | o :: cs, w, h => by
    show (runOps (apply w o) cs).man = w.man
    rw [runOps_copy_man cs _ fun x hx => h x (List.mem_cons_of_mem _ hx)]
    rcases mem_copyOps.1 (h o List.mem_cons_self) with ⟨e, _, _, rfl⟩ | ⟨e, _, _, rfl⟩
    · unfold apply; dsimp only; split <;> rfl
    · unfold apply; dsimp only; split <;> rfl

/-- The manifest that is left: nothing, the beginning of the text, or the whole text. -/
theorem done_man {t : Task} {ops : List Op} (hd : Done t ops) (w : World) :
    ops = [] ∨ (∃ n, (runOps w ops).man = some ((manifestText t).take n)) := by
  cases hd with
  | manifest n =>
    cases n with
    | zero => exact Or.inl rfl
    | succ n =>
      refine Or.inr ⟨n, ?_⟩
      rw [List.take_succ_cons, ← List.map_take]
      show (runOps (apply w .openMan) _).man = _
      rw [runOps_write _ _ [] rfl, List.nil_append]
  | copies cs h =>
    refine Or.inr ⟨(manifestText t).length, ?_⟩
    rw [runOps_append, runOps_copy_man _ _ h, List.take_length]
    show (runOps (apply w .openMan) _).man = _
    rw [runOps_write _ _ [] rfl, List.nil_append]

/-! ## Cleaning -/

theorem cleanLine_at (b : Bool) (fs : Fs) (l q : Str) :
    (cleanLine b fs l).lookup q = fs.lookup q ∨
      ((cleanLine b fs l).lookup q = none ∧ (strip l = q ∨ strip l = q ++ "/".toList)) := by
  have hdel : ∀ p, (fs.del p).lookup q = fs.lookup q ∨ ((fs.del p).lookup q = none ∧ p = q) := by
    intro p
    rw [Dict.lookup_del]
    by_cases h : q = p
    · rw [if_pos h]; exact Or.inr ⟨rfl, h.symm⟩
    · rw [if_neg h]; exact Or.inl rfl
  unfold cleanLine
  dsimp only
  by_cases he : endsWith (strip l) "/".toList = true
  · rw [if_pos he]
    obtain ⟨x, hx⟩ := endsWith_iff.1 he
    have hdl : dropLast (strip l) = x := by
      rw [hx]; exact List.dropLast_concat
    have key : (fs.del (dropLast (strip l))).lookup q = fs.lookup q ∨
        ((fs.del (dropLast (strip l))).lookup q = none ∧ (strip l = q ∨ strip l = q ++ "/".toList)) := by
      rcases hdel (dropLast (strip l)) with h | ⟨h1, h2⟩
      · exact Or.inl h
      · refine Or.inr ⟨h1, Or.inr ?_⟩
        rw [← h2, hdl, hx]
    split
    · exact key
    · split
      · exact key
      · exact Or.inl rfl
    · exact Or.inl rfl
  · rw [if_neg he]
    have key : (fs.del (strip l)).lookup q = fs.lookup q ∨
        ((fs.del (strip l)).lookup q = none ∧ (strip l = q ∨ strip l = q ++ "/".toList)) := by
      rcases hdel (strip l) with h | ⟨h1, h2⟩
      · exact Or.inl h
      · exact Or.inr ⟨h1, Or.inl h2⟩
    split
    · exact key
    · exact key
    · exact Or.inl rfl

theorem cleanLines_at (b : Bool) (q : Str) : ∀ (ls : List Str) (fs : Fs),
    (ls.foldl (cleanLine b) fs).lookup q = fs.lookup q ∨
      ((ls.foldl (cleanLine b) fs).lookup q = none ∧
        ∃ l, l ∈ ls ∧ (strip l = q ∨ strip l = q ++ "/".toList))
  | [], _ => Or.inl rfl
  | l :: ls, fs => by
    show (ls.foldl (cleanLine b) (cleanLine b fs l)).lookup q = _ ∨
      ((ls.foldl (cleanLine b) (cleanLine b fs l)).lookup q = none ∧ _)
    rcases cleanLines_at b q ls (cleanLine b fs l) with h | ⟨h, x, hx, hs⟩
    · rcases cleanLine_at b fs l q with h1 | ⟨h1, h2⟩
      · exact Or.inl (h.trans h1)
      · exact Or.inr ⟨h.trans h1, l, List.mem_cons_self, h2⟩
    · exact Or.inr ⟨h, x, List.mem_cons_of_mem _ hx, hs⟩

/-- A file or link with a line of its own goes. -/
theorem cleanLine_removes (b : Bool) (fs : Fs) (l q : Str) (hs : strip l = q)
    (he : endsWith q "/".toList = false) (hne : fs.lookup q ≠ some .dir) :
    (cleanLine b fs l).lookup q = none := by
  unfold cleanLine
  dsimp only
  rw [hs, he, if_neg (by decide)]
  cases h : fs.lookup q with
  | none => exact h
  | some n =>
    cases n with
    | dir => exact absurd h hne
    | file c => dsimp only; rw [Dict.lookup_del, if_pos rfl]
    | link c => dsimp only; rw [Dict.lookup_del, if_pos rfl]

theorem cleanLines_removes (b : Bool) (q : Str) (he : endsWith q "/".toList = false) :
    ∀ (ls : List Str) (fs : Fs), (∃ l, l ∈ ls ∧ strip l = q) → fs.lookup q ≠ some .dir →
      (ls.foldl (cleanLine b) fs).lookup q = none
  | [], _, h, _ => by obtain ⟨_, h, _⟩ := h; cases h
  | l :: ls, fs, h, hne => by
    show (ls.foldl (cleanLine b) (cleanLine b fs l)).lookup q = none
    by_cases hs : strip l = q
    · have h1 := cleanLine_removes b fs l q hs he hne
      rcases cleanLines_at b q ls (cleanLine b fs l) with h2 | ⟨h2, _⟩
      · exact h2.trans h1
      · exact h2
    · obtain ⟨x, hx, hxs⟩ := h
      have hx' : x ∈ ls := by
        rcases List.mem_cons.1 hx with rfl | hx
        · exact absurd hxs hs
        · exact hx
      refine cleanLines_removes b q he ls _ ⟨x, hx', hxs⟩ ?_
      rcases cleanLine_at b fs l q with h1 | ⟨h1, _⟩
      · rw [h1]; exact hne
      · rw [h1]; exact fun c => nomatch c

theorem rstrip_last {s : Str} {c : Char} (h : isWs c = false) : rstrip (s ++ [c]) = s ++ [c] := by
  unfold rstrip
  rw [List.reverse_append]
  show (List.dropWhile isWs (c :: s.reverse)).reverse = _
  rw [List.dropWhile_cons_of_neg (by rw [h]; decide), List.reverse_cons, List.reverse_reverse]

theorem lstrip_slash (s : Str) : lstrip ('/' :: s) = '/' :: s := by
  unfold lstrip
  exact List.dropWhile_cons_of_neg (by decide)

theorem placed_abs {t : Task} (ok : Ok t) (e : Entry) : ∃ s, placed t e = '/' :: s := by
  obtain ⟨d, h⟩ := ok.abs
  unfold placed
  rw [h]
  exact ⟨_, rfl⟩

theorem strip_placed {t : Task} (ok : Ok t) {e : Entry} (he : e ∈ t.tree) :
    strip (placed t e) = placed t e := by
  obtain ⟨x, hx⟩ := placed_abs ok e
  unfold strip
  rw [show lstrip (placed t e) = placed t e by rw [hx, lstrip_slash]]
  obtain ⟨s, c, h, hw, _⟩ := ok.last e he
  rw [h, rstrip_last hw]

theorem strip_placed_dir {t : Task} (ok : Ok t) (e : Entry) :
    strip (placed t e ++ "/".toList) = placed t e ++ "/".toList := by
  obtain ⟨x, hx⟩ := placed_abs ok e
  unfold strip
  rw [show lstrip (placed t e ++ "/".toList) = placed t e ++ "/".toList by
    rw [hx]; exact lstrip_slash _]
  exact rstrip_last (by decide)

theorem rstrip_prefix (s : Str) : rstrip s <+: s := by
  unfold rstrip
  have h := List.dropWhile_suffix (l := s.reverse) isWs
  have h2 := List.reverse_prefix.2 h
  rw [List.reverse_reverse] at h2
  exact h2

/-- The beginning of a line, without white space at the end, is still the beginning of the line. -/
theorem strip_prefix {x m : Str} (hm : ∃ s, m = '/' :: s) (h : x <+: m) : strip x <+: m := by
  unfold strip
  cases x with
  | nil => exact List.nil_prefix
  | cons c x =>
    obtain ⟨s, rfl⟩ := hm
    have hc : c = '/' := by
      obtain ⟨r, hr⟩ := h
      exact (List.cons.inj hr).1
    subst hc
    rw [lstrip_slash]
    exact (rstrip_prefix _).trans h

theorem fs_eta (w : World) : ({ w with fs := w.fs } : World) = w := rfl

/-- What is left at a path after the manifest is cleaned. -/
theorem clean_at (b : Bool) (w : World) (q : Str) :
    (clean b w).fs.lookup q = w.fs.lookup q ∨ (clean b w).fs.lookup q = none := by
  unfold clean
  split
  · exact Or.inl rfl
  · rcases cleanLines_at b q (readLines _) w.fs with h | ⟨h, _⟩
    · exact Or.inl h
    · exact Or.inr h

theorem copies_man {t : Task} {cs : List Op} (h : ∀ o, o ∈ cs → o ∈ copyOps t) (w : World) :
    (runOps w (Op.openMan :: (manifestText t).map .writeMan ++ cs)).man = some (manifestText t) := by
  rw [runOps_append, runOps_copy_man _ _ h]
  show (runOps (apply w .openMan) _).man = _
  rw [runOps_write _ _ [] rfl, List.nil_append]

theorem readLines_text {t : Task} (ok : Ok t) : readLines (manifestText t) = manifestLines t ++ [[]] :=
  readLines_lines _ fun _ hl => lines_ok ok hl

theorem clean_of_man {b : Bool} {w : World} {m : Str} (h : w.man = some m) :
    (clean b w).fs = (readLines m).foldl (cleanLine b) w.fs := by
  unfold clean; rw [h]

/-- **C114.**  Wherever an installation stops, after the manifest is cleaned there is at every path what was
there before, or nothing, or a directory of the task: no file and no link of the task is left. -/
theorem interrupted_cleaned (t : Task) (ok : Ok t) (w : World) (ops : List Op) (hd : Done t ops) (b : Bool)
    (p : Str) :
    (clean b (runOps w ops)).fs.lookup p = w.fs.lookup p ∨ (clean b (runOps w ops)).fs.lookup p = none ∨
      ((clean b (runOps w ops)).fs.lookup p = some .dir ∧ ∃ e, e ∈ t.tree ∧ e.node = .dir ∧ p = placed t e) := by
  rcases clean_at b (runOps w ops) p with h | h
  · rcases done_at hd w p with h1 | ⟨e, he, hn, hp, h1⟩ | ⟨e, he, hn, hp, hndir, h1⟩
    · exact Or.inl (h.trans h1)
    · exact Or.inr (Or.inr ⟨h.trans h1, e, he, hn, hp⟩)
    · -- a file is there, so the manifest was complete
      cases hd with
      | manifest n =>
        rw [runOps_man_fs _ _ fun o ho => manOps t o (List.mem_of_mem_take ho)] at h
        exact Or.inl h
      | copies cs hcs =>
        refine Or.inr (Or.inl ?_)
        rw [clean_of_man (copies_man hcs w), readLines_text ok]
        refine cleanLines_removes b p ?_ _ _ ⟨placed t e, ?_, ?_⟩ ?_
        · rw [hp]; exact placed_no_slash ok he
        · exact List.mem_append.2 (Or.inl ((mem_manifestLines ok).2 (Or.inl ⟨e, he, hn, rfl⟩)))
        · rw [strip_placed ok he, hp]
        · rw [h1]; exact fun c => hn (Option.some.inj c)
  · exact Or.inr (Or.inl h)

/-- **C114.**  If the manifest is complete, cleaning removes every file and link that the task has, whatever
happened since. -/
theorem files_removed (t : Task) (ok : Ok t) (w : World) (hm : w.man = some (manifestText t))
    (b : Bool) (e : Entry) (he : e ∈ t.tree) (hn : e.node ≠ .dir)
    (hd : w.fs.lookup (placed t e) ≠ some .dir) : (clean b w).fs.lookup (placed t e) = none := by
  rw [clean_of_man hm, readLines_text ok]
  refine cleanLines_removes b _ (placed_no_slash ok he) _ _ ⟨placed t e, ?_, strip_placed ok he⟩ hd
  exact List.mem_append.2 (Or.inl ((mem_manifestLines ok).2 (Or.inl ⟨e, he, hn, rfl⟩)))

/-- The lines of the complete manifest name only what the task has. -/
theorem line_named {t : Task} (ok : Ok t) {l q : Str} (hl : l ∈ manifestLines t ++ [[]])
    (h : strip l = q ∨ strip l = q ++ "/".toList) (hq : q ≠ []) (hs : endsWith q "/".toList = false) :
    ∃ e, e ∈ t.tree ∧ q = placed t e := by
  rcases List.mem_append.1 hl with hl | hl
  · rcases (mem_manifestLines ok).1 hl with ⟨e, he, _, rfl⟩ | ⟨e, he, _, rfl⟩
    · rw [strip_placed ok he] at h
      rcases h with h | h
      · exact ⟨e, he, h.symm⟩
      · have := placed_no_slash ok he
        rw [h, endsWith_iff.2 ⟨q, rfl⟩] at this
        cases this
    · rw [strip_placed_dir ok] at h
      rcases h with h | h
      · rw [← h, endsWith_iff.2 ⟨_, rfl⟩] at hs
        cases hs
      · exact ⟨e, he, (List.append_cancel_right h).symm⟩
  · rw [List.mem_singleton.1 hl] at h
    rcases h with h | h
    · exact absurd h.symm hq
    · have := congrArg List.length h
      rw [List.length_append] at this
      exact absurd this (by show (0 : Nat) ≠ q.length + 1; omega)

/-- **C115.**  If the manifest is complete, cleaning changes nothing at paths that the task does not have,
whatever happened since. -/
theorem cleaned_keeps_others (t : Task) (ok : Ok t) (w : World) (hm : w.man = some (manifestText t))
    (b : Bool) (p : Str) (hp : p ≠ []) (hs : endsWith p "/".toList = false)
    (hne : ∀ e, e ∈ t.tree → p ≠ placed t e) : (clean b w).fs.lookup p = w.fs.lookup p := by
  rw [clean_of_man hm, readLines_text ok]
  rcases cleanLines_at b p (manifestLines t ++ [[]]) w.fs with h | ⟨_, l, hl, h⟩
  · exact h
  · obtain ⟨e, he, h⟩ := line_named ok hl h hp hs
    exact absurd h (hne e he)

/-- **C115.**  Wherever an installation stops, cleaning changes nothing at paths with which no path of the
task begins.  Missing: paths with which one begins, if the process stops while it writes the manifest
(`truncated_removes`). -/
theorem interrupted_keeps_partial (t : Task) (ok : Ok t) (w : World) (hm : w.man = none) (ops : List Op)
    (hd : Done t ops) (b : Bool) (p : Str) (hp : p ≠ [])
    (hne : ∀ e, e ∈ t.tree → ¬ p <+: placed t e ++ "/".toList) :
    (clean b (runOps w ops)).fs.lookup p = w.fs.lookup p := by
  have h0 : (runOps w ops).fs.lookup p = w.fs.lookup p := by
    rcases done_at hd w p with h | ⟨e, he, _, h, _⟩ | ⟨e, he, _, h, _⟩
    · exact h
    · exact absurd ⟨_, by rw [h]⟩ (hne e he)
    · exact absurd ⟨_, by rw [h]⟩ (hne e he)
  rcases done_man hd w with rfl | ⟨n, hn⟩
  · unfold clean
    rw [show (runOps w []).man = none from hm]
    rfl
  · rw [clean_of_man hn]
    rcases cleanLines_at b p (readLines ((manifestText t).take n)) (runOps w ops).fs with h | ⟨_, l, hl, h⟩
    · exact h.trans h0
    · exfalso
      have hpre : p <+: strip l := by
        rcases h with h | h
        · rw [h]; exact List.prefix_rfl
        · rw [h]; exact List.prefix_append _ _
      rcases readLines_take (manifestLines t) n (fun _ hl => lines_ok ok hl) l hl with rfl | ⟨m, hm, hx⟩
      · obtain ⟨r, hr⟩ := hpre
        exact hp (List.append_eq_nil_iff.1 hr).1
      · rcases (mem_manifestLines ok).1 hm with ⟨e, he, _, rfl⟩ | ⟨e, he, _, rfl⟩
        · exact hne e he ((hpre.trans (strip_prefix (placed_abs ok e) hx)).trans (List.prefix_append _ _))
        · obtain ⟨s, hs⟩ := placed_abs ok e
          exact hne e he (hpre.trans (strip_prefix ⟨s ++ "/".toList, by rw [hs]; rfl⟩ hx))

/-! ## Directories -/

theorem strip_length (l : Str) : (strip l).length ≤ l.length := by
  unfold strip
  refine Nat.le_trans (rstrip_prefix _).length_le ?_
  unfold lstrip
  exact (List.dropWhile_suffix _).length_le

/-- A line that is not longer than the line of a directory changes nothing below the directory. -/
theorem cleanLine_below (b : Bool) (fs : Fs) (l d q : Str) (hl : l.length ≤ d.length + 1)
    (hq : startsWith q (d ++ "/".toList) = true) : (cleanLine b fs l).lookup q = fs.lookup q := by
  obtain ⟨x, hx⟩ := startsWith_iff.1 hq
  have hlen : q.length = d.length + 1 + x.length := by
    rw [hx, List.length_append, List.length_append]; rfl
  have hsl := strip_length l
  have key : ∀ p, p ≠ q → (fs.del p).lookup q = fs.lookup q := by
    intro p h
    rw [Dict.lookup_del, if_neg fun e => h e.symm]
  unfold cleanLine
  dsimp only
  by_cases he : endsWith (strip l) "/".toList = true
  · rw [if_pos he]
    have hne : dropLast (strip l) ≠ q := by
      intro h
      obtain ⟨y, hy⟩ := endsWith_iff.1 he
      have h1 : dropLast (strip l) = y := by rw [hy]; exact List.dropLast_concat
      have h2 : (strip l).length = y.length + 1 := by rw [hy, List.length_append]; rfl
      rw [← h, h1] at hlen
      omega
    split
    · exact key _ hne
    · split
      · exact key _ hne
      · rfl
    · rfl
  · rw [if_neg he]
    have hne : strip l ≠ q := by
      intro h
      refine he ?_
      rw [h] at hsl ⊢
      have : x = [] := List.eq_nil_of_length_eq_zero (by omega)
      rw [hx, this, List.append_nil]
      exact endsWith_iff.2 ⟨d, rfl⟩
    split
    · exact key _ hne
    · exact key _ hne
    · rfl

theorem cleanLines_below (b : Bool) (d q : Str) (hq : startsWith q (d ++ "/".toList) = true) :
    ∀ (ls : List Str) (fs : Fs), (∀ l, l ∈ ls → l.length ≤ d.length + 1) →
      (ls.foldl (cleanLine b) fs).lookup q = fs.lookup q
  | [], _, _ => rfl
  | l :: ls, fs, h => by
    show (ls.foldl (cleanLine b) (cleanLine b fs l)).lookup q = _
    rw [cleanLines_below b d q hq ls _ fun x hx => h x (List.mem_cons_of_mem _ hx)]
    exact cleanLine_below b fs l d q (h l List.mem_cons_self) hq

theorem cleanLines_mono (b : Bool) (q : Str) (ls : List Str) (fs : Fs)
    (h : (ls.foldl (cleanLine b) fs).lookup q ≠ none) :
    (ls.foldl (cleanLine b) fs).lookup q = fs.lookup q := by
  rcases cleanLines_at b q ls fs with h1 | ⟨h1, _⟩
  · exact h1
  · exact absurd h1 h

theorem lookup_ne_none {fs : Fs} {k : Str} {v : Node} (h : (k, v) ∈ fs) : fs.lookup k ≠ none := by
  intro hn
  rw [List.lookup_eq_none_iff] at hn
  exact absurd (hn (k, v) h) (by rw [bne_self_eq_false]; decide)

/-- A directory of the task that is left has something below it that is left too. -/
theorem dir_left {t : Task} (ok : Ok t) (w : World) (hm : w.man = some (manifestText t)) {e : Entry}
    (he : e ∈ t.tree) (hn : e.node = .dir) (hd : w.fs.lookup (placed t e) = some .dir)
    (hl : (clean false w).fs.lookup (placed t e) ≠ none) :
    ∃ q, startsWith q (placed t e ++ "/".toList) = true ∧ (clean false w).fs.lookup q ≠ none := by
  rw [clean_of_man hm, readLines_text ok] at hl ⊢
  have hmem : placed t e ++ "/".toList ∈
      (sortBy (fun a b : Str => decide (a.length ≤ b.length)) (sharedDirs t)).reverse := by
    rw [List.mem_reverse, (sortBy_perm _ _).mem_iff]
    exact (mem_sharedDirs ok).2 ⟨e, he, hn, rfl⟩
  have hsorted : ((sortBy (fun a b : Str => decide (a.length ≤ b.length)) (sharedDirs t)).reverse).Pairwise
      fun a b => b.length ≤ a.length := by
    rw [List.pairwise_reverse]
    refine (sortBy_sorted (le := fun a b : Str => decide (a.length ≤ b.length)) ?_ ?_ (sharedDirs t)).imp
      fun h => of_decide_eq_true h
    · intro a b c h1 h2
      exact decide_eq_true (Nat.le_trans (of_decide_eq_true h1) (of_decide_eq_true h2))
    · intro a b
      rcases Nat.le_total a.length b.length with h | h
      · rw [decide_eq_true h]; rfl
      · rw [decide_eq_true h, Bool.or_true]
  obtain ⟨d1, d2, hsplit⟩ := List.append_of_mem hmem
  rw [hsplit] at hsorted
  have hshort : ∀ l, l ∈ d2 ++ [[]] → l.length ≤ (placed t e).length + 1 := by
    intro l hl
    rcases List.mem_append.1 hl with hl | hl
    · have := (List.pairwise_cons.1 (List.pairwise_append.1 hsorted).2.1).1 l hl
      rw [List.length_append] at this
      exact this
    · rw [List.mem_singleton.1 hl]; exact Nat.zero_le _
  have hlines : manifestLines t ++ [[]] =
      (sharedFiles t ++ d1) ++ (placed t e ++ "/".toList) :: (d2 ++ [[]]) := by
    unfold manifestLines
    rw [hsplit, List.append_assoc, List.append_assoc, List.append_assoc]
    rfl
  rw [hlines, List.foldl_append, List.foldl_cons] at hl ⊢
  generalize hfs : (sharedFiles t ++ d1).foldl (cleanLine false) w.fs = fs at hl ⊢
  have h1 := cleanLines_mono false (placed t e) _ _ hl
  have h1' : (cleanLine false fs (placed t e ++ "/".toList)).lookup (placed t e) ≠ none := by rw [← h1]; exact hl
  have h2 : fs.lookup (placed t e) = some .dir := by
    have h3 : fs.lookup (placed t e) ≠ none := by
      rcases cleanLine_at false fs (placed t e ++ "/".toList) (placed t e) with h | ⟨h, _⟩
      · rw [← h]; exact h1'
      · exact absurd h h1'
    rw [← hfs] at h3 ⊢
    rw [cleanLines_mono false _ _ _ h3, hd]
  have hcl : cleanLine false fs (placed t e ++ "/".toList) =
      if isEmpty fs (placed t e) && !false then fs.del (placed t e) else fs := by
    unfold cleanLine
    dsimp only
    rw [strip_placed_dir ok e, if_pos (endsWith_iff.2 ⟨placed t e, rfl⟩)]
    rw [show dropLast (placed t e ++ "/".toList) = placed t e from List.dropLast_concat, h2]
  by_cases hemp : isEmpty fs (placed t e) = true
  · rw [hcl, hemp, if_pos (by decide), Dict.lookup_del, if_pos rfl] at h1'
    exact absurd rfl h1'
  · have hcl' : cleanLine false fs (placed t e ++ "/".toList) = fs := by
      rw [hcl, Bool.eq_false_iff.2 hemp, if_neg (by decide)]
    unfold isEmpty at hemp
    rw [List.all_eq_true] at hemp
    obtain ⟨x, hx⟩ := Classical.not_forall.1 hemp
    obtain ⟨hxm, hx⟩ := Classical.not_imp.1 hx
    have hst : startsWith x.1 (placed t e ++ "/".toList) = true := by
      cases h : startsWith x.1 (placed t e ++ "/".toList) with
      | true => rfl
      | false => rw [h] at hx; exact absurd rfl hx
    refine ⟨x.1, hst, ?_⟩
    rw [hcl', cleanLines_below false (placed t e) x.1 hst _ _ hshort]
    exact lookup_ne_none (v := x.2) hxm

theorem length_bound (fs : Fs) : ∃ n, ∀ q, fs.lookup q ≠ none → q.length ≤ n := by
  induction fs with
  | nil => exact ⟨0, fun q h => absurd rfl h⟩
  | cons a fs ih =>
    obtain ⟨n, hn⟩ := ih
    refine ⟨n + a.1.length, fun q h => ?_⟩
    by_cases hq : q = a.1
    · rw [hq]; omega
    · have : List.lookup q (a :: fs) = fs.lookup q := by
        rw [List.lookup_cons, beq_eq_false_iff_ne.2 hq]
      rw [this] at h
      have := hn q h
      omega

theorem clean_mono {b : Bool} {w : World} {q : Str} (h : (clean b w).fs.lookup q ≠ none) :
    (clean b w).fs.lookup q = w.fs.lookup q := by
  rcases clean_at b w q with h1 | h1
  · exact h1
  · exact absurd h1 h

/-- **C114.**  If the manifest is complete and the task is allowed to remove directories, each directory of
the task is removed, unless something is left below it that the task has not put there. -/
theorem dirs_removed (t : Task) (ok : Ok t) (w : World) (hm : w.man = some (manifestText t))
    (e : Entry) (he : e ∈ t.tree) (hn : e.node = .dir) (hd : w.fs.lookup (placed t e) = some .dir) :
    (clean false w).fs.lookup (placed t e) = none ∨
      ∃ q, placed t e ++ "/".toList <+: q ∧ (clean false w).fs.lookup q ≠ none ∧
        ∀ e', e' ∈ t.tree → q = placed t e' → w.fs.lookup q ≠ some e'.node := by
  obtain ⟨n, hbound⟩ := length_bound (clean false w).fs
  -- from the deepest up
  have key : ∀ k (e : Entry), n ≤ (placed t e).length + k → e ∈ t.tree → e.node = .dir →
      w.fs.lookup (placed t e) = some .dir → (clean false w).fs.lookup (placed t e) ≠ none →
      ∃ q, placed t e ++ "/".toList <+: q ∧ (clean false w).fs.lookup q ≠ none ∧
        ∀ e', e' ∈ t.tree → q = placed t e' → w.fs.lookup q ≠ some e'.node := by
    intro k
    induction k with
    | zero =>
      intro e hk he hn hd hl
      obtain ⟨q, h1, h2⟩ := dir_left ok w hm he hn hd hl
      obtain ⟨x, hx⟩ := startsWith_iff.1 h1
      have := hbound q h2
      rw [hx, List.length_append, List.length_append] at this
      have : ("/".toList).length = 1 := rfl
      omega
    | succ k ih =>
      intro e hk he hn hd hl
      obtain ⟨q, h1, h2⟩ := dir_left ok w hm he hn hd hl
      obtain ⟨x, hx⟩ := startsWith_iff.1 h1
      by_cases hq : ∀ e', e' ∈ t.tree → q = placed t e' → w.fs.lookup q ≠ some e'.node
      · exact ⟨q, ⟨x, hx.symm⟩, h2, hq⟩
      · obtain ⟨e', hq⟩ := Classical.not_forall.1 hq
        obtain ⟨he', hq⟩ := Classical.not_imp.1 hq
        obtain ⟨hqe, hq⟩ := Classical.not_imp.1 hq
        have hq := Classical.not_not.1 hq
        have hlen : q.length = (placed t e).length + 1 + x.length := by
          rw [hx, List.length_append, List.length_append]; rfl
        by_cases hdir : e'.node = .dir
        · rw [hdir] at hq
          rw [hqe] at hq h2 hlen
          obtain ⟨q', a, b, c⟩ := ih e' (by omega) he' hdir hq h2
          refine ⟨q', ?_, b, c⟩
          rw [hx] at hqe
          exact (List.prefix_append _ x).trans ((hqe ▸ List.prefix_append _ _ : _ <+: placed t e' ++ "/".toList).trans a)
        · refine absurd (files_removed t ok w hm false e' he' hdir ?_) (hqe ▸ h2)
          rw [← hqe, hq]
          exact fun c => hdir (Option.some.inj c)
  by_cases hl : (clean false w).fs.lookup (placed t e) = none
  · exact Or.inl hl
  · exact Or.inr (key n e (by omega) he hn hd hl)

/-! ## Concrete cases -/

/-- A boot directory of a machine: a directory, a file in it and a link beside it. -/
def boot : Task where
  src := "/w/deploy".toList
  dst := "/deploy".toList
  tree := [⟨"d".toList, .dir⟩, ⟨"d/linux".toList, .file 1⟩, ⟨"initrd".toList, .link "d".toList⟩]
  allowed := "/deploy/ovmf".toList

/-- A recipe for firmware. -/
def firmware : Task where
  src := "/v/deploy".toList
  dst := "/deploy".toList
  tree := [⟨"d".toList, .dir⟩, ⟨"d/fw".toList, .file 2⟩]
  allowed := []

def start : World := ⟨[("/deploy".toList, .dir), ("/deploy/other".toList, .file 9)], none⟩

theorem not_infix_of {p : Str} {s : Str} (h : s.length < p.length) : ¬ p <:+: s :=
  fun ⟨a, b, e⟩ => by
    have := congrArg List.length e
    rw [List.length_append, List.length_append] at this
    omega

theorem boot_cases {e : Entry} (he : e ∈ boot.tree) :
    e = ⟨"d".toList, .dir⟩ ∨ e = ⟨"d/linux".toList, .file 1⟩ ∨ e = ⟨"initrd".toList, .link "d".toList⟩ := by
  rcases List.mem_cons.1 he with h | he
  · exact Or.inl h
  rcases List.mem_cons.1 he with h | he
  · exact Or.inr (Or.inl h)
  · exact Or.inr (Or.inr (List.mem_singleton.1 he))

theorem boot_ok : Ok boot where
  src := by decide
  once := by
    intro e he
    rcases boot_cases he with rfl | rfl | rfl
    · exact not_infix_of (by decide)
    · exact not_infix_of (by decide)
    · exact not_infix_of (by decide)
  abs := ⟨_, rfl⟩
  norm := by
    intro e he
    rcases boot_cases he with rfl | rfl | rfl <;> decide
  lines := by
    intro e he
    rcases boot_cases he with rfl | rfl | rfl <;> decide
  last := by
    intro e he
    rcases boot_cases he with rfl | rfl | rfl
    · exact ⟨"/deploy/".toList, 'd', rfl, rfl, by decide⟩
    · exact ⟨"/deploy/d/linu".toList, 'x', rfl, rfl, by decide⟩
    · exact ⟨"/deploy/initr".toList, 'd', rfl, rfl, by decide⟩

/-- What `boot` installs, and that it goes again. -/
example : (install boot start).toOption.map (·.fs) = some
      [("/deploy".toList, .dir), ("/deploy/other".toList, .file 9), ("/deploy/d".toList, .dir),
        ("/deploy/d/linux".toList, .file 1), ("/deploy/initrd".toList, .link "d".toList)] ∧
    (install boot start).toOption.bind (·.man) =
      some "/deploy/d/linux\n/deploy/initrd\n/deploy/d/\n".toList ∧
    (install boot start).toOption.map (clean false) = some start := by decide +kernel

/-- For `installed`. -/
example (w' : World) (h : install boot start = .ok w') :
    w'.fs.lookup "/deploy/d/linux".toList = some (.file 1) :=
  installed boot start w' h (by decide) ⟨"d/linux".toList, .file 1⟩ (by decide) (nomatch ·) (by decide)

/-- For `overlap_stops`: the kernel is there already. -/
example : ∃ err, install boot ⟨[("/deploy/d/linux".toList, .file 5)], none⟩ = .error err :=
  overlap_stops boot boot_ok _ ⟨"d/linux".toList, .file 1⟩ (by decide) (by decide)
    (Or.inl ⟨5, by decide⟩) (by
      intro a ha
      have : a = "/deploy/ovmf".toList := by
        have h : words boot.allowed = ["/deploy/ovmf".toList] := by decide
        rw [h] at ha
        exact List.mem_singleton.1 ha
      subst this
      rw [← List.isPrefixOf_iff_prefix]
      decide)

/-- For `others_kept_partial` and `interrupted_keeps_partial`: the file of another recipe stays, also if the
machine stops in the middle of the manifest. -/
example : (runOps start (installOps boot)).fs.lookup "/deploy/other".toList = some (.file 9) :=
  others_kept_partial boot boot_ok start _ (by decide) (.copies _ fun _ h => h) _ 9 (by decide)
    (by
      intro a ha
      have : a = "/deploy/ovmf".toList := by
        have h : words boot.allowed = ["/deploy/ovmf".toList] := by decide
        rw [h] at ha
        exact List.mem_singleton.1 ha
      subst this
      rw [← List.isPrefixOf_iff_prefix]
      decide)
    (by decide)

example : (clean true (runOps start ((installOps boot).take 12))).fs.lookup "/deploy/other".toList =
    some (.file 9) := by decide +kernel

/-- For `dirs_removed`: a second recipe has put a file into the same directory; the directory stays as long
as that file, and goes with it. -/
example :
    let w1 := runOps start (installOps boot)
    let w2 : World := ⟨w1.fs.set "/deploy/d/fw".toList (.file 2), w1.man⟩
    (clean false w2).fs.lookup "/deploy/d".toList = some .dir ∧
      (clean false w2).fs.lookup "/deploy/d/linux".toList = none ∧
      (clean false ⟨(clean false w2).fs, some (manifestText firmware)⟩).fs = start.fs := by decide +kernel

/-- A task whose copy was interrupted after the first file. -/
example : Done boot (Op.openMan :: (manifestText boot).map .writeMan ++
    [.mkdir "/deploy/d".toList, .put "/deploy/d/linux".toList (.file 1)]) :=
  .copies _ (by decide)

/-! ## What does not hold -/

/-- Against C113: the file of another recipe is replaced where the task has a directory; it is not among
the files that are looked for. -/
theorem dir_replaces_file :
    let w : World := ⟨[("/deploy/d".toList, .file 7)], none⟩
    check boot w = none ∧ (runOps w (installOps boot)).fs.lookup "/deploy/d".toList = some .dir := by
  decide +kernel

/-- Against C113: the link of another recipe is replaced. -/
theorem link_replaced :
    let w : World := ⟨[("/deploy/initrd".toList, .link "theirs".toList)], none⟩
    check boot w = none ∧
      (runOps w (installOps boot)).fs.lookup "/deploy/initrd".toList = some (.link "d".toList) := by
  decide +kernel

/-- Against C113: to allow `/deploy/ovmf` also allows `/deploy/ovmf-other`. -/
theorem prefix_allowed :
    let t : Task := { boot with tree := [⟨"ovmf-other".toList, .file 1⟩] }
    let w : World := ⟨[("/deploy/ovmf-other".toList, .file 7)], none⟩
    check t w = none ∧
      (runOps w (installOps t)).fs.lookup "/deploy/ovmf-other".toList = some (.file 1) := by
  decide +kernel

/-- Against C113: two tasks that both check before either copies both succeed, and the file of one is
replaced by the other's.  One after the other, the second is stopped. -/
theorem race_overwrites :
    let t : Task := { firmware with tree := [⟨"d".toList, .dir⟩, ⟨"d/linux".toList, .file 3⟩] }
    check boot start = none ∧ check t start = none ∧
      (runOps ⟨(runOps start (installOps boot)).fs, none⟩ (installOps t)).fs.lookup
        "/deploy/d/linux".toList = some (.file 3) ∧
      (install t ⟨(runOps start (installOps boot)).fs, none⟩).toOption = none := by
  decide +kernel

/-- Without `Ok.once`: the input directory occurs again in the name of a file; the path in the manifest is
another than that of the file, which is overwritten unseen and is not removed. -/
theorem replaced_twice :
    let t : Task := { src := "/w".toList, dst := "/deploy".toList, tree := [⟨"a/w".toList, .file 1⟩], allowed := [] }
    let w : World := ⟨[("/deploy/a/w".toList, .file 7)], none⟩
    check t w = none ∧ manifestLines t = ["/deploy/a/deploy".toList] ∧
      (clean false (runOps w (installOps t))).fs.lookup "/deploy/a/w".toList = some (.file 1) := by
  decide +kernel

/-- Without `Ok.last`: a file whose name ends in a space is not removed. -/
theorem space_left :
    let t : Task := { src := "/w".toList, dst := "/deploy".toList, tree := [⟨"a ".toList, .file 1⟩], allowed := [] }
    (clean false (runOps ⟨[], none⟩ (installOps t))).fs.lookup "/deploy/a ".toList = some (.file 1) := by
  decide +kernel

/-- Against C115: the machine stops in the middle of a line of the manifest; what is written names the file
of another recipe, which is removed when the task is next run. -/
theorem truncated_removes :
    let w : World := ⟨[("/deploy/init".toList, .file 7)], none⟩
    check boot w = none ∧ Done boot ((Op.openMan :: (manifestText boot).map .writeMan).take 29) ∧
      (runOps w ((Op.openMan :: (manifestText boot).map .writeMan).take 29)).fs = w.fs ∧
      (clean true (runOps w ((Op.openMan :: (manifestText boot).map .writeMan).take 29))).fs = [] :=
  ⟨by decide +kernel, .manifest 29, by decide +kernel, by decide +kernel⟩

end Meta.SsInst
