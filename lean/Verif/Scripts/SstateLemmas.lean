import Verif.Scripts.SstateSpec
/-!
# Lemmas about sstate targets
-/

namespace Isar.Sstate
open Py

/-! ## Directories -/

theorem above_iff {d p : Path} : Above d p ↔ (d.isPrefixOf p && d != p) = true := by
  rw [Bool.and_eq_true, List.isPrefixOf_iff_prefix, bne_iff_ne]
  constructor
  · rintro ⟨t, ht, rfl⟩
    refine ⟨List.prefix_append _ _, ?_⟩
    intro h
    have := congrArg List.length h
    rw [List.length_append] at this
    exact ht (List.length_eq_zero_iff.mp (by omega))
  · rintro ⟨⟨t, rfl⟩, hne⟩
    refine ⟨t, ?_, rfl⟩
    rintro rfl
    simp at hne

theorem above_trans {a b c : Path} (h : Above a b) (h' : Above b c) : Above a c := by
  obtain ⟨t, ht, rfl⟩ := h
  obtain ⟨u, hu, rfl⟩ := h'
  exact ⟨t ++ u, by simp [ht], by simp⟩

theorem empty_iff {fs : Fs} {d : Path} : fs.empty d = true ↔
    (∀ e ∈ fs.files, ¬ Above d e.1) ∧ (∀ e ∈ fs.dirs, ¬ Above d e) := by
  unfold Fs.empty
  rw [Bool.and_eq_true, Bool.not_eq_true', Bool.not_eq_true', List.any_eq_false,
    List.any_eq_false]
  simp only [above_iff]

theorem mem_parents {dirs d : Path} : ∀ n, n ≤ dirs.length →
    (d ∈ parents dirs n ↔ d ≠ [] ∧ d.length ≤ n ∧ ∃ t, dirs = d ++ t) := by
  intro n
  induction n with
  | zero =>
    intro _
    simp only [parents, List.not_mem_nil, false_iff]
    rintro ⟨h1, h2, _⟩
    exact h1 (List.length_eq_zero_iff.mp (by omega))
  | succ n ih =>
    intro hn
    simp only [parents, List.mem_cons, ih (by omega)]
    constructor
    · rintro (rfl | ⟨h1, h2, h3⟩)
      · refine ⟨?_, by simp; omega, dirs.drop (n + 1), by simp⟩
        intro h
        have := congrArg List.length h
        rw [List.length_take, Nat.min_eq_left hn] at this
        simp at this
      · exact ⟨h1, by omega, h3⟩
    · rintro ⟨h1, h2, t, rfl⟩
      by_cases h : d.length = n + 1
      · left
        rw [← h, List.take_left]
      · exact Or.inr ⟨h1, by omega, t, rfl⟩

theorem mem_parents_above {p d : Path} (hp : p ≠ []) :
    d ∈ parents p.dropLast p.dropLast.length ↔ d ≠ [] ∧ Above d p := by
  rw [mem_parents _ (Nat.le_refl _)]
  constructor
  · rintro ⟨h1, _, t, ht⟩
    refine ⟨h1, t ++ [p.getLast hp], by simp, ?_⟩
    rw [← List.append_assoc, ← ht, List.dropLast_concat_getLast]
  · rintro ⟨h1, t, ht, rfl⟩
    rw [List.dropLast_append_of_ne_nil ht]
    exact ⟨h1, by simp, t.dropLast, rfl⟩

/-- A list of directories from the inside to the outside. -/
def Chain (ds : List Path) : Prop := ds.Pairwise fun a b => Above b a

theorem parents_chain (dirs : Path) : ∀ n, n ≤ dirs.length → Chain (parents dirs n) := by
  intro n
  induction n with
  | zero => intro _; exact List.Pairwise.nil
  | succ n ih =>
    intro hn
    refine List.Pairwise.cons ?_ (ih (by omega))
    intro d hd
    obtain ⟨h1, h2, t, ht⟩ := (mem_parents n (by omega)).mp hd
    have hl : d.length ≤ n + 1 := by omega
    refine ⟨t.take (n + 1 - d.length), ?_, ?_⟩
    · intro h
      have h3 := congrArg List.length h
      rw [List.length_take] at h3
      have h4 := congrArg List.length ht
      rw [List.length_append] at h4
      simp at h3
      rcases h3 with h3 | h3
      · omega
      · rw [h3] at h4; simp at h4; omega
    · rw [ht, List.take_append, List.take_of_length_le hl]

theorem rmdirs_files (fs : Fs) : ∀ ds, (rmdirs fs ds).files = fs.files := by
  intro ds
  induction ds generalizing fs with
  | nil => rfl
  | cons d ds ih =>
    unfold rmdirs
    split
    · split
      · rw [ih]
      · rfl
    · exact ih fs

theorem rmdirs_sub (fs : Fs) : ∀ ds d, d ∈ (rmdirs fs ds).dirs → d ∈ fs.dirs := by
  intro ds
  induction ds generalizing fs with
  | nil => exact fun _ h => h
  | cons d ds ih =>
    intro x hx
    unfold rmdirs at hx
    split at hx
    · split at hx
      · have := ih _ x hx
        exact (List.mem_filter.mp this).1
      · exact hx
    · exact ih fs x hx

/-- What is removed lies in the list and has nothing left below it. -/
theorem rmdirs_removed (fs : Fs) : ∀ ds d, d ∈ fs.dirs → d ∉ (rmdirs fs ds).dirs →
    d ∈ ds ∧ (∀ e ∈ fs.files, ¬ Above d e.1) ∧ (∀ e ∈ (rmdirs fs ds).dirs, ¬ Above d e) := by
  intro ds
  induction ds generalizing fs with
  | nil => intro d h1 h2; exact absurd h1 h2
  | cons x ds ih =>
    intro d h1 h2
    unfold rmdirs at h2 ⊢
    split at h2
    · rename_i hx
      rw [if_pos hx]
      split at h2
      · rename_i he
        rw [if_pos he]
        by_cases hdx : d = x
        · subst hdx
          refine ⟨List.mem_cons_self, (empty_iff.mp he).1, ?_⟩
          intro e hmem
          exact (empty_iff.mp he).2 e (List.mem_filter.mp (rmdirs_sub _ _ _ hmem)).1
        · have := ih { fs with dirs := fs.dirs.filter (· ≠ x) } d
            (List.mem_filter.mpr ⟨h1, by simpa using hdx⟩) h2
          exact ⟨List.mem_cons_of_mem _ this.1, this.2⟩
      · exact absurd h1 h2
    · rename_i hx
      rw [if_neg hx]
      have := ih fs d h1 h2
      exact ⟨List.mem_cons_of_mem _ this.1, this.2⟩

/-- What stays of a chain has something below it. -/
theorem rmdirs_kept (fs : Fs) : ∀ ds, Chain ds → ∀ d ∈ ds, d ∈ (rmdirs fs ds).dirs →
    (rmdirs fs ds).empty d = false := by
  intro ds
  induction ds generalizing fs with
  | nil => intro _ d h; simp at h
  | cons x ds ih =>
    intro hch d hd hmem
    have hch' := List.pairwise_cons.mp hch
    unfold rmdirs at hmem ⊢
    split at hmem
    · rename_i hx
      rw [if_pos hx]
      split at hmem
      · rename_i he
        rw [if_pos he]
        rcases List.mem_cons.mp hd with rfl | hd
        · have := rmdirs_sub _ _ _ hmem
          simp at this
        · exact ih _ hch'.2 d hd hmem
      · rename_i he
        rw [if_neg he]
        rcases List.mem_cons.mp hd with rfl | hd
        · simpa using he
        · have hab := hch'.1 d hd
          cases hemp : fs.empty d with
          | false => rfl
          | true => exact absurd hab ((empty_iff.mp hemp).2 x hx)
    · rename_i hx
      rw [if_neg hx]
      rcases List.mem_cons.mp hd with rfl | hd
      · exact absurd (rmdirs_sub _ _ _ hmem) hx
      · exact ih fs hch'.2 d hd hmem

theorem foldl_delete_files (l : List Path) (fs : Fs) :
    (l.foldl delete fs).files = fs.files.filter (fun e => decide (e.1 ∉ l)) := by
  induction l generalizing fs with
  | nil => exact (List.filter_eq_self.mpr (by simp)).symm
  | cons p l ih =>
    rw [List.foldl_cons, ih, delete, rmdirs_files, List.filter_filter]
    apply List.filter_congr
    intro e _
    simp only [List.mem_cons, not_or, Bool.decide_and, ne_eq, Bool.and_comm]

/-! ## Names -/

theorem takeWhile_stop {α} {p : α → Bool} {a : List α} {c : α} {b : List α}
    (ha : ∀ x ∈ a, p x = true) (hc : p c = false) :
    (a ++ c :: b).takeWhile p = a ∧ (a ++ c :: b).dropWhile p = c :: b := by
  induction a with
  | nil => simp [hc]
  | cons x a ih =>
    have hx := ha x List.mem_cons_self
    have := ih (fun y hy => ha y (List.mem_cons_of_mem _ hy))
    simp [hx, this.1, this.2]

theorem takeWhile_all {α} {p : α → Bool} {a : List α} (ha : ∀ x ∈ a, p x = true) :
    a.takeWhile p = a := by
  induction a with
  | nil => rfl
  | cons x a ih =>
    simp [ha x List.mem_cons_self, ih (fun y hy => ha y (List.mem_cons_of_mem _ hy))]

theorem field_append {a : Str} (ha : ':' ∉ a) (rest : Str) :
    field (a ++ ':' :: rest) = some (a, rest) := by
  have := takeWhile_stop (p := (· ≠ ':')) (a := a) (c := ':') (b := rest)
    (fun x hx => by
      have : x ≠ ':' := by rintro rfl; exact ha hx
      simpa using this) (by simp)
  unfold field
  rw [this.2, this.1]

theorem candidates_noslash {s : Str} (h : '/' ∉ s) : candidates s = [] := by
  induction s with
  | nil => rfl
  | cons c s ih =>
    simp only [List.mem_cons, not_or] at h
    unfold candidates
    rw [ih h.2, if_neg (fun hc => h.1 hc.symm)]
    rfl

theorem candidates_dir {name : Str} (h : '/' ∉ name) (d : Str) :
    ∃ rest, candidates (d ++ '/' :: name) = name :: rest := by
  induction d with
  | nil => exact ⟨[], by simp [candidates, candidates_noslash h]⟩
  | cons c d ih =>
    obtain ⟨rest, hr⟩ := ih
    exact ⟨rest ++ (if c = '/' then [d ++ '/' :: name] else []), by
      simp only [List.cons_append, candidates, hr]⟩

/-! ## Filters -/

theorem mem_filterArch {l : List Entry} {arch : Option Str} {e : Entry} :
    e ∈ filterArch l arch ↔ e ∈ l ∧ ∀ a, arch = some a → a ≠ [] → e.fields.arch = a := by
  cases arch with
  | none => simp [filterArch]
  | some a =>
    unfold filterArch
    by_cases ha : a = []
    · subst ha
      dsimp only
      rw [if_pos rfl]
      constructor
      · intro h
        refine ⟨h, ?_⟩
        intro a' h' hne
        exact absurd (Option.some.inj h').symm hne
      · exact And.left
    · dsimp only
      rw [if_neg ha, List.mem_filter]
      simp only [decide_eq_true_eq, Option.some.injEq]
      constructor
      · rintro ⟨h1, h2⟩
        refine ⟨h1, ?_⟩
        rintro a' rfl _
        exact h2
      · rintro ⟨h1, h2⟩
        exact ⟨h1, h2 a rfl ha⟩

theorem mem_applyFilters {l : List Entry} {pnFilter : Option (Str → Bool)} {arch : Option Str}
    {e : Entry} : e ∈ applyFilters l pnFilter arch ↔ e ∈ l ∧ Matches pnFilter arch e.fields := by
  unfold applyFilters Matches
  rw [mem_filterArch]
  cases pnFilter with
  | none => simp [filterPn]
  | some r =>
    unfold filterPn
    dsimp only
    rw [List.mem_filter]
    simp only [Option.some.injEq, forall_eq', and_assoc]

theorem mem_listAll {fs : Fs} {e : Entry} : e ∈ listAll fs ↔
    ∃ x ∈ fs.files, matchPath (join ['/'] x.1) = some e.fields ∧ e.path = x.1 ∧
      e.age = x.2.age := by
  unfold listAll
  rw [List.mem_filterMap]
  constructor
  · rintro ⟨x, hx, he⟩
    unfold entryOf at he
    rw [Option.map_eq_some_iff] at he
    obtain ⟨f, hf, rfl⟩ := he
    exact ⟨x, hx, hf, rfl, rfl⟩
  · rintro ⟨x, hx, hm, hp, ha⟩
    refine ⟨x, hx, ?_⟩
    unfold entryOf
    rw [hm]
    obtain ⟨ep, ea, ef⟩ := e
    simp only at hp ha
    subst hp ha
    rfl

/-! ## Files -/

theorem lookup_filter_ne {l : List (Path × File)} {p q : Path} (h : q ≠ p) :
    (l.filter (·.1 ≠ p)).lookup q = l.lookup q := by
  induction l with
  | nil => rfl
  | cons e l ih =>
    obtain ⟨k, f⟩ := e
    by_cases hk : k = p
    · subst hk
      have : (q == k) = false := by rw [beq_eq_false_iff_ne]; exact h
      rw [List.filter_cons_of_neg (by simp), ih, List.lookup_cons, this]
    · rw [List.filter_cons_of_pos (by simpa using hk), List.lookup_cons, List.lookup_cons, ih]

theorem lookup_none_iff {l : List (Path × File)} {p : Path} :
    l.lookup p = none ↔ p ∉ l.map (·.1) := by
  induction l with
  | nil => simp
  | cons e l ih =>
    obtain ⟨k, f⟩ := e
    by_cases hk : p = k
    · subst hk; simp
    · have : (p == k) = false := by rw [beq_eq_false_iff_ne]; exact hk
      rw [List.lookup_cons, this, List.map_cons, List.mem_cons, not_or]
      simp [ih, hk]

theorem lookup_append' {l l' : List (Path × File)} {p : Path} :
    (l ++ l').lookup p = (l.lookup p).or (l'.lookup p) := by
  induction l with
  | nil => simp
  | cons e l ih =>
    obtain ⟨k, f⟩ := e
    by_cases hk : p = k
    · subst hk; simp
    · have : (p == k) = false := by rw [beq_eq_false_iff_ne]; exact hk
      rw [List.cons_append, List.lookup_cons, List.lookup_cons, this]
      exact ih

theorem get_setFile (fs : Fs) (p q : Path) (f : File) :
    (setFile fs p f).get q = if q = p then some f else fs.get q := by
  unfold setFile Fs.get
  dsimp only
  rw [lookup_append']
  by_cases h : q = p
  · subst h
    have : (fs.files.filter (·.1 ≠ q)).lookup q = none := by
      rw [lookup_none_iff]
      simp
    rw [this]
    simp
  · have hf : (q == p) = false := by rw [beq_eq_false_iff_ne]; exact h
    rw [lookup_filter_ne h, if_neg h]
    simp [List.lookup_cons, hf]

theorem makedirs_files {fs fs' : Fs} {d : Path} (h : makedirs fs d = some fs') :
    fs'.files = fs.files := by
  unfold makedirs at h
  split at h
  · simp at h
  · cases h; rfl

theorem makedirs_dirs {fs fs' : Fs} {d x : Path} (h : makedirs fs d = some fs') :
    x ∈ fs'.dirs ↔ x ∈ fs.dirs ∨ x ∈ parents d d.length := by
  unfold makedirs at h
  split at h
  · simp at h
  · cases h
    simp only [List.mem_append, List.mem_filter, decide_eq_true_eq]
    constructor
    · rintro (h | ⟨h, _⟩)
      · exact Or.inl h
      · exact Or.inr h
    · rintro (h | h)
      · exact Or.inl h
      · by_cases hx : x ∈ fs.dirs
        · exact Or.inl hx
        · exact Or.inr ⟨h, hx⟩

theorem get_uploadOne {fs fs' : Fs} {e : Path × File} (h : uploadOne fs e = some fs') (q : Path) :
    fs'.get q = if q = e.1 then some ⟨e.2.content, 0⟩ else fs.get q := by
  unfold uploadOne at h
  rw [Option.map_eq_some_iff] at h
  obtain ⟨fs1, h1, rfl⟩ := h
  rw [get_setFile]
  simp only [Fs.get, makedirs_files h1]

theorem dirs_uploadOne {fs fs' : Fs} {e : Path × File} (h : uploadOne fs e = some fs') (x : Path) :
    x ∈ fs'.dirs ↔ x ∈ fs.dirs ∨ x ∈ parents e.1.dropLast e.1.dropLast.length := by
  unfold uploadOne at h
  rw [Option.map_eq_some_iff] at h
  obtain ⟨fs1, h1, rfl⟩ := h
  show x ∈ fs1.dirs ↔ _
  exact makedirs_dirs h1

theorem get_uploadAll : ∀ (l : List (Path × File)) (fs fs' : Fs), (l.map (·.1)).Nodup →
    uploadAll fs l = some fs' → ∀ q, fs'.get q =
      match l.lookup q with
      | some f => some ⟨f.content, 0⟩
      | none => fs.get q := by
  intro l
  induction l with
  | nil => intro fs fs' _ h q; cases h; rfl
  | cons e l ih =>
    intro fs fs' hn h q
    unfold uploadAll at h
    cases h1 : uploadOne fs e with
    | none => simp [h1] at h
    | some fs1 =>
      rw [h1] at h
      simp only [List.map_cons, List.nodup_cons] at hn
      rw [ih fs1 fs' hn.2 h q, get_uploadOne h1]
      obtain ⟨k, f⟩ := e
      by_cases hk : q = k
      · subst hk
        have : l.lookup q = none := lookup_none_iff.mpr hn.1
        simp [this]
      · have hf : (q == k) = false := by rw [beq_eq_false_iff_ne]; exact hk
        simp only [List.lookup_cons, hf, if_neg hk]

theorem dirs_uploadAll : ∀ (l : List (Path × File)) (fs fs' : Fs),
    uploadAll fs l = some fs' → ∀ x, x ∈ fs'.dirs ↔
      x ∈ fs.dirs ∨ ∃ e ∈ l, x ∈ parents e.1.dropLast e.1.dropLast.length := by
  intro l
  induction l with
  | nil => intro fs fs' h x; cases h; simp
  | cons e l ih =>
    intro fs fs' h x
    unfold uploadAll at h
    cases h1 : uploadOne fs e with
    | none => simp [h1] at h
    | some fs1 =>
      rw [h1] at h
      rw [ih fs1 fs' h x, dirs_uploadOne h1]
      simp only [List.mem_cons, exists_eq_or_imp, or_assoc]

theorem lookup_filter {l : List (Path × File)} {p : Path} (P : Path → Bool) :
    (l.filter fun e => P e.1).lookup p = if P p then l.lookup p else none := by
  induction l with
  | nil => simp
  | cons e l ih =>
    obtain ⟨k, f⟩ := e
    rw [List.filter_cons]
    by_cases hk : p = k
    · subst hk
      by_cases hp : P p = true
      · simp [hp]
      · rw [if_neg hp, ih]; simp [hp]
    · have hf : (p == k) = false := by rw [beq_eq_false_iff_ne]; exact hk
      split
      · rw [List.lookup_cons, List.lookup_cons, hf]; exact ih
      · rw [List.lookup_cons, hf]; exact ih

/-! ## lint -/

theorem words_lstrip (s : Str) : words (lstrip s) = words s := by
  induction s with
  | nil => rfl
  | cons c s ih =>
    unfold lstrip at ih ⊢
    by_cases hc : isWs c = true
    · rw [List.dropWhile_cons_of_pos hc, ih, words_cons_ws _ _ hc]
    · rw [List.dropWhile_cons_of_neg hc]

theorem countPath_zero {b s p : Str} {h : Hits} :
    (countPath b s p h).src + (countPath b s p h).build =
      h.src + h.build + if startsWith p b || startsWith p s then 1 else 0 := by
  unfold countPath
  split
  · rename_i hb; simp [hb]; omega
  · rename_i hb
    split
    · rename_i hs; simp [hs]; omega
    · rename_i hs; simp [hb, hs]

end Isar.Sstate
