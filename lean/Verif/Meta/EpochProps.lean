import Verif.Meta.EpochModel
import Verif.Wic.KsLemmas
/-!
# The date of the sources: C207, C208, C209
-/

namespace Isar.Epoch

open Py

/-! ## Directories -/

/-- A file is in a directory or below it. -/
inductive InTree : Dir → Str × Int → Prop where
  | here {fs ds f} : f ∈ fs → InTree (.mk fs ds) f
  | inside {fs ds n d f} : (n, d) ∈ ds → InTree d f → InTree (.mk fs ds) f

/-- Neither hidden nor a lock of devtool. -/
def Visible (f : Str × Int) : Prop := (∀ t, f.1 ≠ '.' :: t) ∧ f.1 ≠ "singletask.lock".toList

/-- There is a directory `.git` in the directory with this path, and none of those on the way is left out. -/
inductive GitAt : Dir → List Str → Prop where
  | here {fs ds d} : (".git".toList, d) ∈ ds → GitAt (.mk fs ds) []
  | inside {fs ds n d p} : (n, d) ∈ ds → n ∉ exclude → GitAt d p → GitAt (.mk fs ds) (n :: p)

theorem head_dot {s : Str} : s.head? ≠ some '.' ↔ ∀ t, s ≠ '.' :: t := by
  cases s with
  | nil => exact ⟨(fun _ _ h => nomatch h), (fun _ h => nomatch h)⟩
  | cons c s =>
    refine ⟨fun h t e => h (by rw [e]; rfl), fun h e => h s ?_⟩
    rw [show c = '.' from Option.some.inj e]

mutual
theorem mem_walked {f : Str × Int} : ∀ (d : Dir), f ∈ walked d ↔ InTree d f ∧ f.1.head? ≠ some '.'
  | .mk fs ds => by
    rw [walked, List.mem_append, List.mem_filter, mem_walkedAll ds, decide_eq_true_iff]
    constructor
    · rintro (⟨h1, h2⟩ | ⟨n, d, h1, h2, h3⟩)
      · exact ⟨.here h1, h2⟩
      · exact ⟨.inside h1 h2, h3⟩
    · rintro ⟨h, h2⟩
      cases h with
      | here h => exact .inl ⟨h, h2⟩
      | inside h h' => exact .inr ⟨_, _, h, h', h2⟩

theorem mem_walkedAll {f : Str × Int} : ∀ (ds : List (Str × Dir)),
    f ∈ walkedAll ds ↔ ∃ n d, (n, d) ∈ ds ∧ InTree d f ∧ f.1.head? ≠ some '.'
  | [] => by
    rw [walkedAll]
    exact ⟨fun h => (nomatch h), fun ⟨_, _, h, _⟩ => (nomatch h)⟩
  | (m, d) :: ds => by
    rw [walkedAll, List.mem_append, mem_walked d, mem_walkedAll ds]
    constructor
    · rintro (h | ⟨n, e, h1, h2⟩)
      · exact ⟨m, d, List.mem_cons_self, h⟩
      · exact ⟨n, e, List.mem_cons_of_mem _ h1, h2⟩
    · rintro ⟨n, e, h1, h2⟩
      rcases List.mem_cons.1 h1 with h | h
      · cases h; exact .inl h2
      · exact .inr ⟨n, e, h, h2⟩
end

mutual
theorem walkGit_some : ∀ (d : Dir) {p : List Str}, walkGit d = some p → GitAt d p
  | .mk fs ds, p, h => by
    rw [walkGit] at h
    split at h
    · rename_i hc
      cases h
      obtain ⟨e, he, hn⟩ := List.mem_map.1 (List.contains_iff_mem.1 hc)
      obtain ⟨n, d⟩ := e
      dsimp only at hn
      subst hn
      exact .here he
    · obtain ⟨n, d, q, h1, h2, h3, rfl⟩ := walkGitAll_some ds h
      exact .inside h1 h2 h3

theorem walkGitAll_some : ∀ (ds : List (Str × Dir)) {p : List Str}, walkGitAll ds = some p →
    ∃ n d q, (n, d) ∈ ds ∧ n ∉ exclude ∧ GitAt d q ∧ p = n :: q
  | [], _, h => by rw [walkGitAll] at h; cases h
  | (n, d) :: ds, p, h => by
    rw [walkGitAll] at h
    split at h
    · obtain ⟨m, e, q, h1, h2⟩ := walkGitAll_some ds h
      exact ⟨m, e, q, List.mem_cons_of_mem _ h1, h2⟩
    · rename_i hx
      split at h
      · rename_i q hq
        cases h
        exact ⟨n, d, q, List.mem_cons_self, fun h => hx (List.contains_iff_mem.2 h), walkGit_some d hq, rfl⟩
      · obtain ⟨m, e, q, h1, h2⟩ := walkGitAll_some ds h
        exact ⟨m, e, q, List.mem_cons_of_mem _ h1, h2⟩
end

mutual
theorem walkGit_none : ∀ (d : Dir), walkGit d = none → ∀ p, ¬ GitAt d p
  | .mk fs ds, h, p, hg => by
    rw [walkGit] at h
    split at h
    · cases h
    · rename_i hc
      cases hg with
      | here hm => exact hc (List.contains_iff_mem.2 (List.mem_map.2 ⟨_, hm, rfl⟩))
      | inside h1 h2 h3 => exact walkGitAll_none ds h _ _ _ h1 h2 h3

theorem walkGitAll_none : ∀ (ds : List (Str × Dir)), walkGitAll ds = none → ∀ n d p, (n, d) ∈ ds → n ∉ exclude → ¬ GitAt d p
  | [], _, _, _, _, h, _, _ => nomatch h
  | (m, e) :: ds, h, n, d, p, hm, hx, hg => by
    rw [walkGitAll] at h
    split at h
    · rename_i hc
      rcases List.mem_cons.1 hm with h' | h'
      · cases h'; exact hx (List.contains_iff_mem.1 hc)
      · exact walkGitAll_none ds h n d p h' hx hg
    · split at h
      · cases h
      · rename_i hn
        rcases List.mem_cons.1 hm with h' | h'
        · cases h'; exact walkGit_none _ hn p hg
        · exact walkGitAll_none ds h n d p h' hx hg
end

theorem walkGit_unique {d : Dir} {p : List Str} (h : GitAt d p) (hu : ∀ q, GitAt d q → q = p) : walkGit d = some p := by
  cases e : walkGit d with
  | none => exact absurd h (walkGit_none d e p)
  | some q => rw [hu q (walkGit_some d e)]

/-! ## The youngest file -/

/-- The time of the youngest visible file. -/
def Youngest (d : Dir) (m : Int) : Prop :=
  (∃ f, InTree d f ∧ Visible f ∧ f.2 = m) ∧ ∀ f, InTree d f → Visible f → f.2 ≤ m

theorem newest_fold : ∀ {l : List (Str × Int)}, (∀ f ∈ l, 0 ≤ f.2) → ∀ {a : Option Int}, (∀ x, a = some x → 0 ≤ x) →
    match l.foldl newest a with
    | none => a = none ∧ ∀ f ∈ l, f.1 = "singletask.lock".toList
    | some m => (a = some m ∨ ∃ f ∈ l, f.1 ≠ "singletask.lock".toList ∧ f.2 = m) ∧ (∀ x, a = some x → x ≤ m) ∧
        ∀ f ∈ l, f.1 ≠ "singletask.lock".toList → f.2 ≤ m
  | [], _, a, _ => by
    cases a with
    | none => exact ⟨rfl, (fun _ h => nomatch h)⟩
    | some m => exact ⟨.inl rfl, (fun x h => by cases h; exact Int.le_refl _), (fun _ h => nomatch h)⟩
  | f :: l, hl, a, ha => by
    have h0 := hl f List.mem_cons_self
    have hl' : ∀ g ∈ l, 0 ≤ g.2 := fun g hg => hl g (List.mem_cons_of_mem _ hg)
    rw [List.foldl_cons]
    by_cases hs : f.1 = "singletask.lock".toList
    · have e : newest a f = a := by unfold newest; rw [if_pos hs]
      rw [e]
      have ih := newest_fold hl' ha
      split at ih
      · exact ⟨ih.1, fun g hg => (List.mem_cons.1 hg).elim (fun e => e ▸ hs) (ih.2 g)⟩
      · rename_i m h
        refine ⟨ih.1.imp id fun ⟨g, hg, h⟩ => ⟨g, List.mem_cons_of_mem _ hg, h⟩, ih.2.1, fun g hg hn => ?_⟩
        rcases List.mem_cons.1 hg with rfl | hg
        · exact absurd hs hn
        · exact ih.2.2 g hg hn
    · obtain ⟨x, hx, hx1, hx2, hx3⟩ : ∃ x, newest a f = some x ∧ (a = some x ∨ x = f.2) ∧ (∀ y, a = some y → y ≤ x) ∧ f.2 ≤ x := by
        unfold newest
        rw [if_neg hs]
        cases a with
        | none => exact ⟨_, rfl, .inr rfl, (fun _ h => nomatch h), Int.le_refl _⟩
        | some e =>
          have he := ha e rfl
          dsimp only
          by_cases hc : e = 0 ∨ f.2 > e
          · rw [if_pos hc]
            exact ⟨_, rfl, .inr rfl, (fun y h => by cases h; omega), Int.le_refl _⟩
          · rw [if_neg hc]
            exact ⟨_, rfl, .inl rfl, (fun y h => by cases h; exact Int.le_refl _), by omega⟩
      rw [hx]
      have ih := newest_fold hl' (a := some x) (fun y h => by cases h; omega)
      split at ih
      · cases ih.1
      · rename_i m h
        have hxm := ih.2.1 x rfl
        refine ⟨?_, fun y hy => Int.le_trans (hx2 y hy) hxm, fun g hg hn => ?_⟩
        · rcases ih.1 with h | ⟨g, hg, h⟩
          · cases h
            rcases hx1 with h | h
            · exact .inl h
            · exact .inr ⟨f, List.mem_cons_self, hs, h.symm⟩
          · exact .inr ⟨g, List.mem_cons_of_mem _ hg, h⟩
        · rcases List.mem_cons.1 hg with rfl | hg
          · exact Int.le_trans hx3 hxm
          · exact ih.2.2 g hg hn

theorem walked_visible {d : Dir} {f : Str × Int} : f ∈ walked d ∧ f.1 ≠ "singletask.lock".toList ↔ InTree d f ∧ Visible f := by
  rw [mem_walked, head_dot]
  exact ⟨fun h => ⟨h.1.1, h.1.2, h.2⟩, fun h => ⟨⟨h.1, h.2.1⟩, h.2.2⟩⟩

/-- C207: the time of the youngest file, whatever the order is in which the files are listed. -/
theorem youngest_file {s w : Str} {d : Dir} (hpos : ∀ f, InTree d f → 0 ≤ f.2) :
    (∀ m, youngest s w d = some m ↔ s ≠ w ∧ Youngest d m) ∧
    (youngest s w d = none ↔ s = w ∨ ∀ f, InTree d f → ¬ Visible f) := by
  unfold youngest
  by_cases hsw : s = w
  · rw [if_pos hsw]
    exact ⟨fun m => ⟨(fun h => nomatch h), fun h => absurd hsw h.1⟩, fun _ => .inl hsw, fun _ => rfl⟩
  · rw [if_neg hsw]
    have h := newest_fold (l := walked d) (fun f hf => hpos f ((mem_walked d).1 hf).1) (a := none) (fun _ h => nomatch h)
    split at h
    · rename_i e
      rw [e]
      have hno : ∀ f, InTree d f → ¬ Visible f := fun f hf hv =>
        (walked_visible.2 ⟨hf, hv⟩).2 (h.2 f (walked_visible.2 ⟨hf, hv⟩).1)
      exact ⟨fun m => ⟨fun h => (nomatch h), fun ⟨_, ⟨f, h1, h2, _⟩, _⟩ => absurd h2 (hno f h1)⟩, fun _ => .inr hno, fun _ => rfl⟩
    · rename_i m e
      rw [e]
      obtain ⟨f, hf, hv, hm⟩ : ∃ f, InTree d f ∧ Visible f ∧ f.2 = m := by
        rcases h.1 with h | ⟨f, hf, hn, hm⟩
        · cases h
        · have := walked_visible.1 ⟨hf, hn⟩
          exact ⟨f, this.1, this.2, hm⟩
      have hmax : ∀ g, InTree d g → Visible g → g.2 ≤ m := fun g hg hgv =>
        h.2.2 g (walked_visible.2 ⟨hg, hgv⟩).1 (walked_visible.2 ⟨hg, hgv⟩).2
      refine ⟨fun n => ⟨fun h => by cases h; exact ⟨hsw, ⟨f, hf, hv, hm⟩, hmax⟩, fun ⟨_, ⟨g, h1, h2, h3⟩, h4⟩ => ?_⟩,
        fun h => (nomatch h), fun h => h.elim (fun h => absurd h hsw) fun h => absurd hv (h f hf)⟩
      have := hmax g h1 h2
      have := h4 f hf hv
      rw [show m = n by omega]

/-! ## C207: the date -/

/-- A source is fetched with git. -/
def UsesGit (w : World) : Prop := ∃ a b, w.srcUri = a ++ "git://".toList ++ b ∨ w.srcUri = a ++ "gitsm://".toList ++ b

/-- The repository: the usual one, that of `S`, or the only one in the work directory. -/
inductive Repo (w : World) : Str → Prop where
  | usual : w.isdir (pathJoin w.workdir "git/.git".toList) = true → Repo w (pathJoin w.workdir "git/.git".toList)
  | source : w.isdir (pathJoin w.workdir "git/.git".toList) = false → w.isdir (pathJoin w.sourcedir ".git".toList) = true →
      Repo w (pathJoin w.sourcedir ".git".toList)
  | only {p} : w.isdir (pathJoin w.workdir "git/.git".toList) = false → w.isdir (pathJoin w.sourcedir ".git".toList) = false →
      GitAt w.work p → (∀ q, GitAt w.work q → q = p) → Repo w (pathJoin (p.foldl pathJoin w.workdir) ".git".toList)

/-- There is none. -/
def NoRepo (w : World) : Prop :=
  w.isdir (pathJoin w.workdir "git/.git".toList) = false ∧ w.isdir (pathJoin w.sourcedir ".git".toList) = false ∧
  ∀ p, ¬ GitAt w.work p

theorem repo_found {w : World} {g : Str} (h : Repo w g) : findGit w = some g := by
  unfold findGit
  cases h with
  | usual h => rw [if_pos h]
  | source h1 h2 => rw [if_neg (by rw [h1]; exact Bool.false_ne_true), if_pos h2]
  | only h1 h2 h3 h4 =>
    rw [if_neg (by rw [h1]; exact Bool.false_ne_true), if_neg (by rw [h2]; exact Bool.false_ne_true), walkGit_unique h3 h4]
    rfl

theorem noRepo_found {w : World} (h : NoRepo w) : findGit w = none := by
  unfold findGit
  rw [if_neg (by rw [h.1]; exact Bool.false_ne_true), if_neg (by rw [h.2.1]; exact Bool.false_ne_true)]
  cases e : walkGit w.work with
  | none => rfl
  | some p => exact absurd (walkGit_some _ e) (h.2.2 p)

theorem usesGit_iff {w : World} : (isSub "git://".toList w.srcUri || isSub "gitsm://".toList w.srcUri) = true ↔ UsesGit w := by
  rw [Bool.or_eq_true, isSub_iff, isSub_iff]
  constructor
  · rintro (⟨a, b, h⟩ | ⟨a, b, h⟩)
    · exact ⟨a, b, .inl h⟩
    · exact ⟨a, b, .inr h⟩
  · rintro ⟨a, b, h | h⟩
    · exact .inl ⟨a, b, h⟩
    · exact .inr ⟨a, b, h⟩

/-- No date from git: none of the sources, no repository, or one without a commit. -/
def NoGit (w : World) : Prop := ¬ UsesGit w ∨ NoRepo w ∨ ∃ g, Repo w g ∧ w.gitTime g = none

theorem fromGit_none {w : World} (h : NoGit w) : fromGit w = none := by
  unfold fromGit
  split
  · rename_i hu
    rcases h with h | h | ⟨g, h1, h2⟩
    · exact absurd (usesGit_iff.1 hu) h
    · rw [noRepo_found h]
    · rw [repo_found h1]; exact h2
  · rfl

/-- C207: with git the date is the one of the last commit. -/
theorem date_of_commit {w : World} {g : Str} {n : Int} (hu : UsesGit w) (hr : Repo w g) (ht : w.gitTime g = some n) (h0 : n ≠ 0) :
    epoch w = some n := by
  have e : fromGit w = some n := by
    unfold fromGit
    rw [if_pos (usesGit_iff.2 hu), repo_found hr]
    exact ht
  unfold epoch orElse
  rw [e]
  dsimp only
  rw [if_neg h0]

/-- C207: without git it is the one of the youngest file of the sources. -/
theorem date_of_files_partial {w : World} {m : Int} (hg : NoGit w) (hs : w.sourcedir ≠ w.workdir) (hpos : ∀ f, InTree w.src f → 0 ≤ f.2)
    (hm : Youngest w.src m) (h0 : m ≠ 0) : epoch w = some m := by
  unfold epoch
  rw [fromGit_none hg, ((youngest_file hpos).1 m).2 ⟨hs, hm⟩]
  unfold orElse
  dsimp only
  rw [if_neg h0]

/-- C207: without any files it is a fixed one. -/
theorem date_fixed {w : World} {t : Str} {n : Int} (hg : NoGit w)
    (hs : w.sourcedir = w.workdir ∨ ∀ f, InTree w.src f → ¬ Visible f) (ht : w.fallback = some t) (hn : Wic.Ks.pyInt t = some n) :
    epoch w = some n := by
  have hy : youngest w.sourcedir w.workdir w.src = none := by
    rcases hs with h | h
    · unfold youngest; rw [if_pos h]
    · unfold youngest
      split
      · rfl
      · have : ∀ {l : List (Str × Int)}, (∀ f ∈ l, f.1 = "singletask.lock".toList) → l.foldl newest none = none := by
          intro l
          induction l with
          | nil => exact fun _ => rfl
          | cons f l ih =>
            intro hl
            rw [List.foldl_cons]
            have : newest none f = none := by unfold newest; rw [if_pos (hl f List.mem_cons_self)]
            rw [this]
            exact ih fun g hg => hl g (List.mem_cons_of_mem _ hg)
        refine this fun f hf => Classical.byContradiction fun hn => ?_
        have := walked_visible.1 ⟨hf, hn⟩
        exact h f this.1 this.2
  have hf : fixed w = some n := by
    have hne : t ≠ [] := fun e => by
      rw [e] at hn
      cases hn
    unfold fixed
    rw [ht]
    dsimp only
    rw [if_neg hne, hn]
  unfold epoch
  rw [fromGit_none hg, hy, hf]
  rfl

/-- The same sources in directories that are listed in another order. -/
structure SameSources (w w' : World) : Prop where
  workdir : w.workdir = w'.workdir
  sourcedir : w.sourcedir = w'.sourcedir
  srcUri : w.srcUri = w'.srcUri
  fallback : w.fallback = w'.fallback
  isdir : w.isdir = w'.isdir
  gitTime : w.gitTime = w'.gitTime
  git : ∀ p, GitAt w.work p ↔ GitAt w'.work p
  files : ∀ f, InTree w.src f ↔ InTree w'.src f

theorem findGit_same {w w' : World} (h : SameSources w w') (hone : ∀ p q, GitAt w.work p → GitAt w.work q → p = q) :
    findGit w = findGit w' := by
  have hw : walkGit w.work = walkGit w'.work := by
    cases e : walkGit w.work with
    | none =>
      cases e' : walkGit w'.work with
      | none => rfl
      | some p => exact absurd ((h.git p).2 (walkGit_some _ e')) (walkGit_none _ e p)
    | some p =>
      have hp := walkGit_some _ e
      exact (walkGit_unique ((h.git p).1 hp) fun q hq => hone q p ((h.git q).2 hq) hp).symm
  unfold findGit
  rw [h.workdir, h.sourcedir, h.isdir, hw]

/-- C207: the date does not depend on the order in which directories are listed. -/
theorem same_sources_partial {w w' : World} (h : SameSources w w') (hone : ∀ p q, GitAt w.work p → GitAt w.work q → p = q)
    (hpos : ∀ f, InTree w.src f → 0 ≤ f.2) : epoch w = epoch w' := by
  have hy : youngest w.sourcedir w.workdir w.src = youngest w'.sourcedir w'.workdir w'.src := by
    have h1 := youngest_file (s := w.sourcedir) (w := w.workdir) hpos
    have h2 := youngest_file (s := w'.sourcedir) (w := w'.workdir) (d := w'.src) fun f hf => hpos f ((h.files f).2 hf)
    cases e : youngest w'.sourcedir w'.workdir w'.src with
    | none =>
      refine h1.2.2 ((h2.2.1 e).imp (fun e => ?_) fun hn f hf => hn f ((h.files f).1 hf))
      rw [h.sourcedir, h.workdir]; exact e
    | some m =>
      obtain ⟨hne, ⟨f, hf, hv⟩, hmax⟩ := (h2.1 m).1 e
      refine (h1.1 m).2 ⟨fun e => hne (by rw [← h.sourcedir, ← h.workdir]; exact e), ⟨f, (h.files f).2 hf, hv⟩, fun g hg =>
        hmax g ((h.files g).1 hg)⟩
  have hg : fromGit w = fromGit w' := by
    unfold fromGit
    rw [h.srcUri, findGit_same h hone, h.gitTime]
  have hf : fixed w = fixed w' := by unfold fixed; rw [h.fallback]
  unfold epoch
  rw [hy, hg, hf]

/-! ## C208: the file with the date -/

theorem pyInt_showInt (n : Int) : Wic.Ks.pyInt (showInt n) = some n := by
  unfold showInt
  by_cases h : n < 0
  · rw [if_pos h]
    have hcl : strip ('-' :: dec n.natAbs) = '-' :: dec n.natAbs := by
      refine Wic.Ks.strip_clean (fun c hc => ?_) fun c hc => ?_
      · rw [← Option.some.inj hc]; decide
      · rw [List.getLast?_cons] at hc
        cases hd : (dec n.natAbs).getLast? with
        | none => rw [hd] at hc; cases hc; decide
        | some d =>
          rw [hd] at hc
          cases hc
          exact Wic.Ks.isDigit_not_ws (dec_digits (List.mem_of_mem_getLast? hd))
    have hp := Wic.Ks.pyInt_dec n.natAbs
    have hv : Wic.Ks.digitsVal false 0 (dec n.natAbs) = some n.natAbs := by
      rw [Wic.Ks.digitsVal_digits _ (fun c => dec_digits) _ _ (Or.inr (dec_ne_nil _))]
      have := decVal_dec n.natAbs
      unfold decVal at this
      rw [this]
    unfold Wic.Ks.pyInt
    rw [hcl]
    show (Wic.Ks.digitsVal false 0 (dec n.natAbs)).map _ = _
    rw [hv]
    show some (-(n.natAbs : Int)) = some n
    congr 1
    omega
  · rw [if_neg h, Wic.Ks.pyInt_dec]
    congr 1
    omega

theorem new_ne (e : Str) : e ++ ".new".toList ≠ e := fun h => by
  have := congrArg List.length h
  rw [List.length_append] at this
  have : ".new".toList.length = 4 := rfl
  omega

/-- C208: what is written is read again. -/
theorem read_written {w : World} {fb e : Str} {fs fs' : Files} {n b : Int} (hfb : Wic.Ks.pyInt fb = some b) (hn : epoch w = some n)
    (hs : stamp w e fs = some fs') : ∃ c, read fb fs' none e = some (showInt n, c) := by
  unfold stamp at hs
  rw [hn] at hs
  cases hs
  refine ⟨some (showInt n, e), ?_⟩
  have : valueOf fb (write n e fs) e = some n := by
    unfold valueOf write
    rw [hfb, List.lookup_cons, beq_iff_eq.2 rfl]
    dsimp only
    rw [pyInt_showInt]
  unfold read
  dsimp only
  rw [this]
  rfl

/-- C208: without a file, or with one that has no number, it is the fixed date. -/
theorem read_fallback {fb e : Str} {fs : Files} {b : Int} (hfb : Wic.Ks.pyInt fb = some b)
    (h : fs.lookup e = none ∨ ∃ s, fs.lookup e = some s ∧ Wic.Ks.pyInt s = none) : ∃ c, read fb fs none e = some (showInt b, c) := by
  refine ⟨some (showInt b, e), ?_⟩
  have : valueOf fb fs e = some b := by
    unfold valueOf
    rw [hfb]
    rcases h with h | ⟨s, h, hs⟩
    · rw [h]
    · rw [h]; dsimp only; rw [hs]
  unfold read
  dsimp only
  rw [this]
  rfl

theorem lookup_others {x q : Str} (hq : q ≠ x) : ∀ {fs : Files}, (fs.filter fun f => f.1 ≠ x).lookup q = fs.lookup q
  | [] => rfl
  | (k, v) :: fs => by
    rw [List.filter_cons, List.lookup_cons]
    by_cases hk : k = x
    · rw [if_neg (by rw [decide_eq_true_iff]; exact fun h => h hk), lookup_others hq,
        beq_eq_false_iff_ne.2 (fun h => hq (h.trans hk))]
    · rw [if_pos (decide_eq_true hk), List.lookup_cons, lookup_others hq]

/-- C208: whenever writing is interrupted, the file has its old content or all of the new one, and other files stay. -/
theorem interrupted {n : Int} {e : Str} {fs st : Files} (h : st ∈ writeSteps n e fs) :
    (st.lookup e = fs.lookup e ∨ st.lookup e = some (showInt n)) ∧
    ∀ q, q ≠ e → q ≠ e ++ ".new".toList → st.lookup q = fs.lookup q := by
  have htmp : ∀ v q, q ≠ e ++ ".new".toList → ((e ++ ".new".toList, v) :: fs).lookup q = fs.lookup q := fun v q hq => by
    rw [List.lookup_cons, beq_eq_false_iff_ne.2 hq]
  unfold writeSteps at h
  dsimp only at h
  rcases List.mem_append.1 h with h | h
  · rcases List.mem_append.1 h with h | h
    · rcases List.mem_cons.1 h with rfl | h
      · exact ⟨.inl rfl, fun _ _ _ => rfl⟩
      · rw [List.mem_singleton.1 h]
        exact ⟨.inl (htmp _ _ (new_ne e).symm), fun q _ hq => htmp _ _ hq⟩
    · obtain ⟨k, -, rfl⟩ := List.mem_map.1 h
      exact ⟨.inl (htmp _ _ (new_ne e).symm), fun q _ hq => htmp _ _ hq⟩
  · rw [List.mem_singleton.1 h]
    refine ⟨.inr ?_, fun q h1 h2 => ?_⟩
    · rw [List.lookup_cons, beq_iff_eq.2 rfl]
    · rw [List.lookup_cons, beq_eq_false_iff_ne.2 h1]
      exact lookup_others h2

/-- The end of it. -/
theorem written_last {n : Int} {e : Str} {fs : Files} : (writeSteps n e fs).getLast? = some (write n e fs) := by
  unfold writeSteps write
  dsimp only
  rw [List.getLast?_concat]

theorem showInt_ne (n : Int) : showInt n ≠ [] := by
  unfold showInt
  split
  · exact List.cons_ne_nil _ _
  · exact dec_ne_nil _

/-- C208: within one process the date does not change, whatever is written meanwhile. -/
theorem read_again {fb e v : Str} {fs fs' : Files} {c : Cache} (h : read fb fs none e = some (v, c)) :
    read fb fs' c e = some (v, c) := by
  unfold read at h
  dsimp only at h
  obtain ⟨n, -, he⟩ := Option.map_eq_some_iff.1 h
  cases he
  unfold read
  dsimp only
  rw [if_pos ⟨showInt_ne n, rfl⟩]

/-! ## C209: the files of an image -/

/-- C209: no file of an image is younger than the date, and those that are not keep theirs. -/
theorem none_younger_partial {format : Int → Str} {parse : Str → Int} {sde : Int} (hp : parse (format sde) = sde)
    {files : List (Str × Int)} : finalize format parse sde files = files.map fun f => (f.1, min f.2 sde) := by
  unfold finalize
  refine List.map_congr_left fun f _ => ?_
  rw [hp]
  obtain ⟨n, t⟩ := f
  dsimp only
  split
  · rw [show min t sde = sde by omega]
  · rw [show min t sde = t by omega]

/-! ## Cases -/

def tar (files : List (Str × Int)) : Dir := .mk [(".hidden".toList, 99)] [("src".toList, .mk files [])]

def repo : Dir := .mk [] [(".git".toList, .mk [] [])]

/-- A small world without git. -/
def plain (src : Dir) : World :=
  { workdir := "/w".toList, sourcedir := "/w/s".toList, srcUri := "http://x".toList, fallback := some "7".toList,
    isdir := fun _ => false, work := .mk [] [("s".toList, src)], src := src, gitTime := fun _ => none }

/-- One with two repositories. -/
def two (dirs : List (Str × Dir)) : World :=
  { plain (.mk [] []) with
    srcUri := "git://x".toList, work := .mk [] dirs,
    gitTime := fun g => if g = "/w/a/.git".toList then some 1 else if g = "/w/b/.git".toList then some 2 else none }

/-- A case of `date_of_files_partial`. -/
example : epoch (plain (tar [("a".toList, 3), ("b".toList, 5)])) = some 5 ∧ NoGit (plain (tar [("a".toList, 3), ("b".toList, 5)])) := by
  refine ⟨by decide +kernel, .inl fun ⟨a, b, h⟩ => ?_⟩
  have h1 : isSub "git://".toList "http://x".toList = false := by decide +kernel
  have h2 : isSub "gitsm://".toList "http://x".toList = false := by decide +kernel
  rcases h with h | h
  · exact absurd (h1.symm.trans (isSub_iff.2 ⟨a, b, h⟩)) Bool.false_ne_true
  · exact absurd (h2.symm.trans (isSub_iff.2 ⟨a, b, h⟩)) Bool.false_ne_true

/-- A case of `date_of_commit`. -/
example : Repo (two [("a".toList, repo), ("temp".toList, repo)]) "/w/a/.git".toList ∧
    UsesGit (two [("a".toList, repo), ("temp".toList, repo)]) ∧
    epoch (two [("a".toList, repo), ("temp".toList, repo)]) = some 1 := by
  refine ⟨.only (p := ["a".toList]) rfl rfl (.inside (d := repo) List.mem_cons_self (by decide) (.here List.mem_cons_self))
    fun q hq => ?_, ⟨[], ['x'], .inl rfl⟩, by decide +kernel⟩
  cases hq with
  | here h =>
    rcases List.mem_cons.1 h with h | h
    · exact absurd (Prod.mk.inj h).1 (by decide)
    · exact absurd (Prod.mk.inj (List.mem_singleton.1 h)).1 (by decide)
  | inside h1 h2 h3 =>
    rcases List.mem_cons.1 h1 with h | h
    · cases h
      cases h3 with
      | here _ => rfl
      | inside h4 h5 h6 =>
        cases List.mem_singleton.1 h4
        cases h6 with
        | here h => exact nomatch h
        | inside h => exact nomatch h
    · cases List.mem_singleton.1 h
      exact absurd (show "temp".toList ∈ exclude by decide) h2

/-- C207: with two repositories the date depends on the order in which the system lists them. -/
theorem two_repositories :
    epoch (two [("a".toList, repo), ("b".toList, repo)]) = some 1 ∧ epoch (two [("b".toList, repo), ("a".toList, repo)]) = some 2 := by
  refine ⟨by decide +kernel, by decide +kernel⟩

/-- C207: with times before 1970 it depends on that, too. -/
theorem before_1970 :
    epoch (plain (tar [("a".toList, 0), ("b".toList, -5)])) = some (-5) ∧
    epoch (plain (tar [("b".toList, -5), ("a".toList, 0)])) = some 7 := by
  refine ⟨by decide +kernel, by decide +kernel⟩

/-- C207: that `S` is the work directory is not seen if it is written in another way; the date is then the one of a log. -/
theorem other_spelling :
    epoch { plain (.mk [] [("temp".toList, .mk [("log.do_unpack".toList, 1000)] [])]) with sourcedir := "/w".toList } = some 7 ∧
    epoch { plain (.mk [] [("temp".toList, .mk [("log.do_unpack".toList, 1000)] [])]) with sourcedir := "/w/".toList } = some 1000 := by
  refine ⟨by decide +kernel, by decide +kernel⟩

/-- C207: files like NEWS do not count more than others, although this is documented. -/
theorem known_files_ignored : epoch (plain (tar [("NEWS".toList, 3), ("b".toList, 5)])) = some 5 := by decide +kernel

/-- C208: a date that is there already, for example from a recipe, is overwritten, although this is documented otherwise. -/
theorem provided_ignored {w : World} {e v : Str} {fs fs' : Files} {n : Int} (hn : epoch w = some n)
    (h : stamp w e ((e, v) :: fs) = some fs') : fs'.lookup e = some (showInt n) := by
  unfold stamp at h
  rw [hn] at h
  cases h
  unfold write
  rw [List.lookup_cons, beq_iff_eq.2 rfl]

/-- C208: so a process that had asked for the date before it was found goes on with the fixed one. -/
theorem asked_before {w : World} {fb e : Str} {fs fs' : Files} {b : Int} {c : Cache} {v : Str} (hfb : Wic.Ks.pyInt fb = some b)
    (h0 : fs.lookup e = none) (h1 : read fb fs none e = some (v, c)) (_h2 : stamp w e fs = some fs') :
    read fb fs' c e = some (showInt b, c) := by
  obtain ⟨c', h⟩ := read_fallback hfb (.inl h0)
  rw [h] at h1
  cases h1
  exact read_again h

/-- A case of it. -/
example : read "7".toList [] none "/e".toList = some ("7".toList, some ("7".toList, "/e".toList)) ∧
    stamp (plain (tar [("a".toList, 3)])) "/e".toList [] = some [("/e".toList, "3".toList)] ∧
    read "7".toList [("/e".toList, "3".toList)] none "/e".toList = some ("3".toList, some ("3".toList, "/e".toList)) := by
  refine ⟨by decide +kernel, by decide +kernel, by decide +kernel⟩

/-- A case of `none_younger_partial`. -/
example : finalize (fun n => showInt n) (fun s => (Wic.Ks.pyInt s).getD 0) 5 [("a".toList, 3), ("b".toList, 8)] =
    [("a".toList, 3), ("b".toList, 5)] := by decide +kernel

/-- C209: a time that is there twice, when the clock is put back, may be read as the later one; files are younger then. -/
theorem clock_put_back : ∃ (format : Int → Str) (parse : Str → Int),
    (∀ n, format n = format (n + 3600) ∨ parse (format n) = n) ∧
    ∃ sde f, f ∈ finalize format parse sde [("a".toList, 1800)] ∧ f.2 > sde := by
  refine ⟨fun n => if 0 ≤ n ∧ n < 3600 then showInt (n + 3600) else showInt n, fun s => (Wic.Ks.pyInt s).getD 0, fun n => ?_, 0,
    ("a".toList, 1800), ?_, by decide⟩
  · by_cases h : 0 ≤ n ∧ n < 3600
    · left
      dsimp only
      rw [if_pos h, if_neg (by omega)]
    · right
      dsimp only
      rw [if_neg h, pyInt_showInt]
      rfl
  · decide +kernel

end Isar.Epoch
