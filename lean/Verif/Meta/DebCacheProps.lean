import Verif.Meta.DebCacheModel
/-!
# Properties of the directory of downloaded packages: C124 and C125
-/

namespace Meta.DebCache
open Py

/-! ## Export -/

theorem exportFile_old (debs : Local) (cache : Dir) (f : Str × Nat) (n : Str) (c : Nat) (h : cache.lookup n = some c) :
    (exportFile debs cache f).lookup n = some c := by
  unfold exportFile
  by_cases h1 : (cache.lookup f.1).isSome
  · rw [if_pos h1]; exact h
  · rw [if_neg h1]
    by_cases h2 : sameLocal debs f = true
    · rw [if_pos h2]; exact h
    · rw [if_neg h2, Dict.lookup_set]
      by_cases e : n = f.1
      · subst e
        rw [h] at h1
        exact absurd rfl h1
      · rw [if_neg e]; exact h

theorem exportSeen_old (debs : Local) (n : Str) (c : Nat) (fs : Dir) : ∀ (cache : Dir), cache.lookup n = some c →
    (fs.foldl (exportFile debs) cache).lookup n = some c := by
  induction fs with
  | nil => intro cache h; exact h
  | cons f fs ih => intro cache h; exact ih _ (exportFile_old debs cache f n c h)

theorem exportFile_new (debs : Local) (cache : Dir) (f : Str × Nat) (n : Str)
    (h : ((exportFile debs cache f).lookup n).isSome = true) (h0 : cache.lookup n = none) :
    n = f.1 ∧ (exportFile debs cache f).lookup n = some f.2 ∧
      ∀ l, found debs n = some l → l.2 ≠ f.2 := by
  unfold exportFile at h ⊢
  by_cases h1 : (cache.lookup f.1).isSome
  · rw [if_pos h1, h0] at h; cases h
  · rw [if_neg h1] at h ⊢
    by_cases h2 : sameLocal debs f = true
    · rw [if_pos h2, h0] at h; cases h
    · rw [if_neg h2, Dict.lookup_set] at h
      rw [if_neg h2, Dict.lookup_set]
      by_cases e : n = f.1
      · subst e
        refine ⟨rfl, if_pos rfl, fun l hl => ?_⟩
        unfold sameLocal at h2
        rw [hl] at h2
        simpa using h2
      · rw [if_neg e, h0] at h; cases h

/-- Where the files in the cache come from. -/
theorem exportSeen_new (debs : Local) (n : Str) (c : Nat) (fs : Dir) : ∀ (cache : Dir),
    (fs.foldl (exportFile debs) cache).lookup n = some c → cache.lookup n = some c ∨ (n, c) ∈ fs ∧
      ∀ l, found debs n = some l → l.2 ≠ c := by
  induction fs with
  | nil => intro cache h; exact Or.inl h
  | cons f fs ih =>
    intro cache h
    rcases ih _ h with h | ⟨h, h'⟩
    · cases h0 : cache.lookup n with
      | some x => rw [exportFile_old debs cache f n x h0] at h; exact Or.inl h
      | none =>
        have := exportFile_new debs cache f n (by rw [h]; rfl) h0
        rw [this.2.1] at h
        injection h with h
        subst h
        exact Or.inr ⟨by rw [this.1]; exact List.mem_cons_self, this.2.2⟩
    · exact Or.inr ⟨List.mem_cons_of_mem _ h, h'⟩

theorem exportSeen_all (debs : Local) (n : Str) (c : Nat) (fs : Dir) : ∀ (cache : Dir), (n, c) ∈ fs →
    (∀ l, found debs n = some l → l.2 ≠ c) → ((fs.foldl (exportFile debs) cache).lookup n).isSome := by
  induction fs with
  | nil => intro _ h; cases h
  | cons f fs ih =>
    intro cache h hl
    rcases List.mem_cons.1 h with rfl | h
    · have : ∃ x, (exportFile debs cache (n, c)).lookup n = some x := by
        unfold exportFile
        by_cases h1 : (cache.lookup n).isSome
        · rw [if_pos h1]; exact Option.isSome_iff_exists.1 h1
        · rw [if_neg h1]
          have h2 : ¬ (sameLocal debs (n, c) = true) := by
            unfold sameLocal
            cases hf : found debs n with
            | none => exact nofun
            | some l => simpa using hl l hf
          rw [if_neg h2, Dict.lookup_set, if_pos rfl]
          exact ⟨c, rfl⟩
      obtain ⟨x, hx⟩ := this
      rw [List.foldl_cons, exportSeen_old debs n x fs _ hx]; rfl
    · exact ih _ h hl

/-! ## Import -/

theorem importFile_has (ln : Str → Bool) (archives : Dir) (f : Str × Nat) (n : Str) :
    ((importFile ln archives f).lookup n).isSome = ((archives.lookup n).isSome || n == f.1) := by
  unfold importFile
  by_cases h : ln f.1
  · rw [if_pos h, Dict.lookup_set]
    by_cases e : n = f.1
    · rw [if_pos e, e]; simp
    · rw [if_neg e, show (n == f.1) = false from by simpa using e]; simp
  · rw [if_neg h]
    by_cases h1 : (archives.lookup f.1).isSome
    · rw [if_pos h1]
      by_cases e : n = f.1
      · rw [e, h1]; rfl
      · rw [show (n == f.1) = false from by simpa using e]; simp
    · rw [if_neg h1, Dict.lookup_set]
      by_cases e : n = f.1
      · rw [if_pos e, e]; simp
      · rw [if_neg e, show (n == f.1) = false from by simpa using e]; simp

theorem import_has (ln : Str → Bool) (n : Str) (fs : Dir) : ∀ (archives : Dir),
    ((fs.foldl (importFile ln) archives).lookup n).isSome =
      ((archives.lookup n).isSome || fs.any fun f => n == f.1) := by
  induction fs with
  | nil => intro archives; simp
  | cons f fs ih =>
    intro archives
    rw [List.foldl_cons, ih, importFile_has, List.any_cons, Bool.or_assoc]

theorem importFile_other (ln : Str → Bool) (archives : Dir) (f : Str × Nat) (n : Str) (h : n ≠ f.1) :
    (importFile ln archives f).lookup n = archives.lookup n := by
  unfold importFile
  split
  · rw [Dict.lookup_set, if_neg h]
  split
  · rfl
  · rw [Dict.lookup_set, if_neg h]

theorem import_other (ln : Str → Bool) (n : Str) (fs : Dir) : ∀ (archives : Dir), (∀ c, (n, c) ∉ fs) →
    (fs.foldl (importFile ln) archives).lookup n = archives.lookup n := by
  induction fs with
  | nil => intro archives _; rfl
  | cons f fs ih =>
    intro archives h
    rw [List.foldl_cons, ih _ fun c hc => h c (List.mem_cons_of_mem _ hc), importFile_other]
    rintro rfl
    exact h f.2 List.mem_cons_self

theorem mem_of_lookup {d : Dir} {n : Str} {c : Nat} (h : d.lookup n = some c) : (n, c) ∈ d := by
  induction d with
  | nil => cases h
  | cons e d ih =>
    obtain ⟨m, x⟩ := e
    rw [List.lookup_cons] at h
    cases hb : n == m with
    | true =>
      rw [hb] at h
      replace h : some x = some c := h
      injection h with h
      have : n = m := by simpa using hb
      subst this; subst h
      exact List.mem_cons_self
    | false =>
      rw [hb] at h
      exact List.mem_cons_of_mem _ (ih h)

/-- A package that was neither in the cache nor in apt's directory does not appear, and a package in the cache
is there after an import. -/
theorem import_exact (ln : Str → Bool) (cache archives : Dir) (n : Str) :
    ((importDebs ln cache archives).lookup n).isSome ↔
      (archives.lookup n).isSome ∨ isDeb n = true ∧ (cache.lookup n).isSome := by
  unfold importDebs
  rw [import_has, Bool.or_eq_true]
  refine or_congr Iff.rfl ?_
  rw [List.any_eq_true]
  constructor
  · rintro ⟨f, hf, e⟩
    obtain ⟨h1, h2⟩ := List.mem_filter.1 hf
    have e : n = f.1 := by simpa using e
    subst e
    refine ⟨h2, ?_⟩
    cases hl : cache.lookup f.1 with
    | some x => rfl
    | none =>
      obtain ⟨m, c⟩ := f
      exact absurd (List.lookup_eq_none_iff.1 hl (m, c) h1) (by simp)
  · rintro ⟨h1, h2⟩
    obtain ⟨c, hc⟩ := Option.isSome_iff_exists.1 h2
    exact ⟨(n, c), List.mem_filter.2 ⟨mem_of_lookup hc, h1⟩, by simp⟩

/-! ## C124: downloads are kept -/

theorem step_kept (w : World) (o : Op) (n : Str) (c : Nat) (h : w.cache.lookup n = some c) :
    (step w o).cache.lookup n = some c := by
  cases o with
  | imports r ln => exact h
  | exports r debs => exact exportSeen_old _ n c _ _ h
  | apt r dir => exact h

/-- **C124.**  What is in the cache stays there as it is, in all histories. -/
theorem cache_kept (ops more : List Op) (n : Str) (c : Nat) (h : (run ops).cache.lookup n = some c) :
    (run (ops ++ more)).cache.lookup n = some c := by
  unfold run at h ⊢
  rw [List.foldl_append]
  have : ∀ (more : List Op) (w : World), w.cache.lookup n = some c → (more.foldl step w).cache.lookup n = some c := by
    intro more
    induction more with
    | nil => intro w h; exact h
    | cons o more ih => intro w h; exact ih _ (step_kept w o n c h)
  exact this more _ h

/-- **C124.**  A package that apt has downloaded for one root file system is there for every other one, after
every history: it was exported once, it is imported now. -/
theorem downloaded_once (ops more : List Op) (r r' : Nat) (debs : Local) (ln : Str → Bool) (n : Str) (c : Nat)
    (hd : isDeb n = true) (h : ((run ops).archives r).lookup n = some c) :
    (((run (ops ++ [.exports r debs] ++ more ++ [.imports r' ln])).archives r').lookup n).isSome := by
  have hx : ((run (ops ++ [.exports r debs])).cache.lookup n).isSome := by
    unfold run
    rw [List.foldl_append]
    show ((exportSeen (seen "isar_debs".toList debs) _ _).lookup n).isSome
    have : seen "isar_debs".toList debs = [] := if_neg (by decide)
    rw [this]
    exact exportSeen_all [] n c _ _ (List.mem_filter.2 ⟨mem_of_lookup h, hd⟩) (fun l h => nomatch h)
  obtain ⟨x, hx⟩ := Option.isSome_iff_exists.1 hx
  have hk := cache_kept _ more n x hx
  rw [show run (ops ++ [.exports r debs] ++ more ++ [.imports r' ln]) =
    step (run (ops ++ [.exports r debs] ++ more)) (.imports r' ln) from by unfold run; rw [List.foldl_append]; rfl]
  show (((if r' = r' then importDebs ln _ _ else _) : Dir).lookup n).isSome
  rw [if_pos rfl, import_exact]
  exact Or.inr ⟨hd, by rw [hk]; rfl⟩

/-- **C124.**  Everything in the cache is a package that apt had, with its content. -/
theorem cache_origin (ops : List Op) (n : Str) (c : Nat) (h : (run ops).cache.lookup n = some c) :
    ∃ pre r debs post, ops = pre ++ .exports r debs :: post ∧ isDeb n = true ∧ (n, c) ∈ (run pre).archives r := by
  have main : ∀ (post pre : List Op), (run (pre ++ post)).cache.lookup n = some c →
      (run pre).cache.lookup n = none → ∃ pre' r debs post', pre ++ post = pre' ++ .exports r debs :: post' ∧
        isDeb n = true ∧ (n, c) ∈ (run pre').archives r := by
    intro post
    induction post with
    | nil => intro pre h h0; rw [List.append_nil, h0] at h; cases h
    | cons o post ih =>
      intro pre h h0
      have e : pre ++ o :: post = pre ++ [o] ++ post := by rw [List.append_assoc]; rfl
      cases hn : (run (pre ++ [o])).cache.lookup n with
      | none =>
        rw [e] at h
        obtain ⟨a, b, c', d, h1, h2⟩ := ih (pre ++ [o]) h hn
        exact ⟨a, b, c', d, by rw [e, h1], h2⟩
      | some x =>
        have hk := cache_kept (pre ++ [o]) post n x hn
        rw [← e, h] at hk
        injection hk with hk
        subst hk
        have hs : run (pre ++ [o]) = step (run pre) o := by unfold run; rw [List.foldl_append]; rfl
        rw [hs] at hn
        cases o with
        | imports r ln =>
          have hn : (run pre).cache.lookup n = some c := hn
          rw [h0] at hn; cases hn
        | apt r dir =>
          have hn : (run pre).cache.lookup n = some c := hn
          rw [h0] at hn; cases hn
        | exports r debs =>
          refine ⟨pre, r, debs, post, rfl, ?_⟩
          have hn : (exportSeen (seen "isar_debs".toList debs) ((run pre).archives r) (run pre).cache).lookup n = some c := hn
          unfold exportSeen at hn
          rcases exportSeen_new _ n c _ _ hn with h' | ⟨h', _⟩
          · rw [h0] at h'; cases h'
          · exact ⟨(List.mem_filter.1 h').2, (List.mem_filter.1 h').1⟩
  have := main ops [] h rfl
  exact this

/-- A download in one root file system, and later the import into another. -/
example : ((run [.apt 1 [("a_1_all.deb".toList, 7), ("lock".toList, 0)], .exports 1 [], .apt 1 [],
    .imports 2 fun _ => true]).archives 2) = [("a_1_all.deb".toList, 7)] := by decide +kernel

/-- With hard links, a file in apt's directory is replaced by the one in the cache; without, it stays. -/
theorem import_replaces :
    importDebs (fun _ => true) [("a.deb".toList, 1)] [("a.deb".toList, 2)] = [("a.deb".toList, 1)] ∧
    importDebs (fun _ => false) [("a.deb".toList, 1)] [("a.deb".toList, 2)] = [("a.deb".toList, 2)] := by decide +kernel

/-- **C124.**  An import changes nothing but packages that are in the cache. -/
theorem import_others (ln : Str → Bool) (cache archives : Dir) (n : Str) (h : cache.lookup n = none ∨ isDeb n = false) :
    (importDebs ln cache archives).lookup n = archives.lookup n := by
  refine import_other ln n _ archives fun c hc => ?_
  obtain ⟨h1, h2⟩ := List.mem_filter.1 hc
  rcases h with h | h
  · exact absurd (List.lookup_eq_none_iff.1 h (n, c) h1) (by simp)
  · rw [h] at h2; cases h2

/-! ## C125: packages that are built locally -/

/-- **C125.**  If the commands saw the list of local packages: a package is not exported if it is the local
package of that name, provided that no path of another local package has that name in it. -/
theorem local_left_out_partial (debs : Local) (archives cache : Dir) (n path : Str) (c : Nat)
    (hu : ∀ c', (n, c') ∈ archives → c' = c) (h : (path, c) ∈ debs) (hn : isSub n path = true)
    (only : ∀ l, l ∈ debs → isSub n l.1 = true → l.2 = c) (hnew : cache.lookup n = none) :
    (exportSeen debs archives cache).lookup n = none := by
  cases hl : (exportSeen debs archives cache).lookup n with
  | none => rfl
  | some x =>
    rcases exportSeen_new debs n x _ cache hl with h' | ⟨h', h''⟩
    · rw [hnew] at h'; cases h'
    · have hx := hu x (List.mem_filter.1 h').1
      subst hx
      cases hf : found debs n with
      | none =>
        have := List.find?_eq_none.1 hf (path, x) h
        exact absurd hn this
      | some l =>
        have h1 := List.mem_of_find?_eq_some hf
        have h2 := List.find?_some hf
        exact absurd (only l h1 h2) (h'' l hf)

/-- For `local_left_out_partial`. -/
example : exportSeen [("/r/pool/h/hello_1_all.deb".toList, 5)] [("hello_1_all.deb".toList, 5), ("libc6_2_all.deb".toList, 6)] [] =
    [("libc6_2_all.deb".toList, 6)] := by decide +kernel

/-- Against C125: the name of one local package is in that of another one, from the same source, which `find`
lists first. -/
theorem name_inside :
    exportSeen [("/r/pool/h/libhello_1_all.deb".toList, 4), ("/r/pool/h/hello_1_all.deb".toList, 5)]
      [("hello_1_all.deb".toList, 5)] [] = [("hello_1_all.deb".toList, 5)] := by decide +kernel

/-- Against C125: the commands do not see the list, because `isar_debs` is not exported.  Every package in apt's
directory gets into the cache, also those that have been built locally. -/
theorem local_exported (debs : Local) (archives cache : Dir) (n : Str) (c : Nat) (hd : isDeb n = true)
    (h : (n, c) ∈ archives) : ((exportDebs debs archives cache).lookup n).isSome := by
  unfold exportDebs
  rw [show seen "isar_debs".toList debs = [] from if_neg (by decide)]
  exact exportSeen_all [] n c _ cache (List.mem_filter.2 ⟨h, hd⟩) (fun l h => nomatch h)

/-- Together: a local package that is built again with the same version is replaced by the old one when a root
file system imports the cache. -/
theorem old_local_package : ∃ ops : List Op, (run ops).archives 2 = [("hello_1_all.deb".toList, 5)] ∧
    ops = [.apt 1 [("hello_1_all.deb".toList, 5)], .exports 1 [("/r/hello_1_all.deb".toList, 5)],
      .apt 2 [("hello_1_all.deb".toList, 9)], .imports 2 fun _ => true] := by
  exact ⟨_, by decide +kernel, rfl⟩

/-! ## More -/

/-- **C124.**  Packages are the files whose names end in `.deb`, in upper or lower case. -/
theorem isDeb_iff (n : Str) : isDeb n = true ↔ ∃ base suffix, n = base ++ suffix ∧ suffix.map Char.toLower = ".deb".toList := by
  unfold isDeb
  rw [endsWith_iff]
  constructor
  · rintro ⟨t, h⟩
    obtain ⟨a, b, rfl, _, h2⟩ := List.map_eq_append_iff.1 h
    exact ⟨a, b, rfl, h2⟩
  · rintro ⟨a, b, rfl, h⟩
    exact ⟨a.map Char.toLower, by rw [List.map_append, h]⟩

example : isDeb "A_1_all.DEB".toList = true ∧ isDeb "a_1_all.deb.lock".toList = false := by decide

/-- **C124.**  Importing and exporting do not change the directories of apt in other root file systems, and
exporting none at all. -/
theorem others_untouched (w : World) (r j : Nat) (ln : Str → Bool) (debs : Local) :
    (j ≠ r → (step w (.imports r ln)).archives j = w.archives j) ∧ (step w (.exports r debs)).archives j = w.archives j ∧
      (step w (.imports r ln)).cache = w.cache :=
  ⟨fun h => if_neg h, rfl, rfl⟩

end Meta.DebCache
