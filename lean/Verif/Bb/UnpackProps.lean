import Verif.Bb.UnpackModel
import Verif.Meta.WksProps
import Verif.Meta.PatchSelect
import Verif.Wic.BootProps
/-!
# Unpacking sources: C204, C205, C206
-/

namespace Bb.Unpack

open Py

/-! ## Files -/

theorem lookup_tree {src r : List Str} : ∀ {fs : Fs}, (tree fs src).lookup r = fs.lookup (src ++ r)
  | [] => rfl
  | (k, v) :: fs => by
    unfold tree
    rw [List.filterMap_cons, List.lookup_cons]
    have ih := lookup_tree (src := src) (r := r) (fs := fs)
    unfold tree at ih
    by_cases h : src.isPrefixOf k = true
    · obtain ⟨t, rfl⟩ := List.isPrefixOf_iff_prefix.1 h
      have e : ((src ++ r) == (src ++ t)) = (r == t) := by
        rw [Bool.eq_iff_iff, beq_iff_eq, beq_iff_eq]
        exact Iff.intro List.append_cancel_left (fun h => by rw [h])
      dsimp only
      rw [if_pos h, e]
      dsimp only
      rw [List.lookup_cons, List.drop_left, ih]
    · have e : ((src ++ r) == k) = false := by
        rw [beq_eq_false_iff_ne]
        rintro rfl
        exact h (List.isPrefixOf_iff_prefix.2 ⟨r, rfl⟩)
      dsimp only
      rw [if_neg h, e]
      dsimp only
      rw [ih]

theorem lookup_placed {dir q : List Str} : ∀ {l : List (List Str × Str)},
    (l.map fun e => (dir ++ e.1, e.2)).lookup q =
      if dir.isPrefixOf q then l.lookup (q.drop dir.length) else none
  | [] => by
    rw [List.map_nil]
    split <;> rfl
  | (k, v) :: l => by
    rw [List.map_cons, List.lookup_cons, lookup_placed]
    by_cases h : dir.isPrefixOf q = true
    · obtain ⟨t, rfl⟩ := List.isPrefixOf_iff_prefix.1 h
      have e : ((dir ++ t) == (dir ++ k)) = (t == k) := by
        rw [Bool.eq_iff_iff, beq_iff_eq, beq_iff_eq]
        exact Iff.intro List.append_cancel_left (fun h => by rw [h])
      dsimp only
      rw [if_pos h, if_pos h, List.drop_left, List.lookup_cons, e]
    · have e : (q == (dir ++ k)) = false := by
        rw [beq_eq_false_iff_ne]
        rintro rfl
        exact h (List.isPrefixOf_iff_prefix.2 ⟨k, rfl⟩)
      dsimp only
      rw [if_neg h, if_neg h, e]

theorem lookup_put {fs fs' : Fs} {dir : List Str} {l : List (List Str × Str)} (h : put fs dir l = some fs') :
    (∀ r, fs'.lookup (dir ++ r) = (l.lookup r).or (fs.lookup (dir ++ r))) ∧
    ∀ q, ¬ dir <+: q → fs'.lookup q = fs.lookup q := by
  unfold put at h
  split at h
  · cases h
  · cases h
    constructor
    · intro r
      have hp : dir.isPrefixOf (dir ++ r) = true := List.isPrefixOf_iff_prefix.2 ⟨r, rfl⟩
      rw [List.lookup_append, lookup_placed, if_pos hp, List.drop_left]
    · intro q hq
      have hp : ¬ dir.isPrefixOf q = true := fun h => hq (List.isPrefixOf_iff_prefix.1 h)
      rw [List.lookup_append, lookup_placed, if_neg hp]
      rfl

theorem tree_put {fs fs' : Fs} {dir src : List Str} {l : List (List Str × Str)} (h : put fs dir l = some fs')
    (h1 : ¬ dir <+: src) (h2 : ¬ src <+: dir) : tree fs' src = tree fs src := by
  unfold put at h
  split at h
  · cases h
  · cases h
    unfold tree
    rw [List.filterMap_append, List.filterMap_map]
    have : l.filterMap ((fun e : List Str × Str => if src.isPrefixOf e.1 then some (e.1.drop src.length, e.2) else none) ∘
        fun e => (dir ++ e.1, e.2)) = [] := by
      refine List.filterMap_eq_nil_iff.2 fun e _ => ?_
      dsimp only [Function.comp]
      rw [if_neg]
      intro hp
      have hp := List.isPrefixOf_iff_prefix.1 hp
      rcases List.prefix_or_prefix_of_prefix hp (List.prefix_append dir e.1) with h | h
      · exact h2 h
      · exact h1 h
    rw [this, List.nil_append]

/-! ## Texts of paths -/

theorem join_comps {ws cs : List Str} (hw : ∀ c ∈ ws, Clean c) (hne : ws ≠ []) (hc : ∀ c ∈ cs, Clean c) (hcn : cs ≠ []) :
    pathJoin (render ws) (join ['/'] cs) = render (ws ++ cs) := by
  rw [(Isar.Wic.Boot.join_place hw hne ⟨cs, hcn, hc, rfl⟩).1, render_append hne hcn]

theorem normComps_dot {ws : List Str} {b : Str} (hw : ∀ c ∈ ws, Clean c) (hne : ws ≠ []) (hb : Clean b) :
    normComps (pathJoin (pathJoin (render ws) ['.']) b) = ws ++ [b] := by
  have e1 : pathJoin (render ws) ['.'] = render ws ++ '/' :: ['.'] := by
    have := Meta.Wks.join_render hw hne (b := ['.']) (by decide)
    rw [this, render_snoc]
    unfold dirText; rw [if_neg hne]
  have e2 : pathJoin (render ws ++ '/' :: ['.']) b = render ws ++ '/' :: (['.'] ++ '/' :: b) := by
    unfold pathJoin
    rw [if_neg, if_neg, List.append_assoc]
    · rfl
    · rintro (h | h)
      · exact nomatch h
      · rw [List.getLast?_append] at h
        exact absurd (show some '.' = some '/' from h) (by decide)
    · intro h
      obtain ⟨t, rfl⟩ := isabs_iff.1 h
      exact hb.2.2.2 List.mem_cons_self
  rw [e1, e2, normComps_append rfl, splitOn_append, splitOn_clean _ _ (by decide), splitOn_clean _ _ hb.2.2.2, normComps_render hw]
  show normStep true (normStep true ws dot) b = _
  rw [normStep_dot, normStep_clean hb]

theorem normComps_dir {ws cs : List Str} {b : Str} (hw : ∀ c ∈ ws, Clean c) (hne : ws ≠ []) (hc : ∀ c ∈ cs, Clean c)
    (hcn : cs ≠ []) (hb : Clean b) :
    normComps (pathJoin (pathJoin (render ws) (join ['/'] cs ++ ['/'])) b) = ws ++ cs ++ [b] := by
  have hab : isabs b ≠ true := fun h => by
    obtain ⟨t, rfl⟩ := isabs_iff.1 h
    exact hb.2.2.2 List.mem_cons_self
  have hne' : join ['/'] cs ≠ [] := fun e => by
    obtain ⟨c, cs, rfl⟩ := List.exists_cons_of_ne_nil hcn
    have hl := (hc c List.mem_cons_self).1
    cases cs with
    | nil => exact hl e
    | cons d cs =>
      have e2 : join ['/'] (c :: d :: cs) = c ++ '/' :: join ['/'] (d :: cs) := by simp [join]
      rw [e2] at e
      exact hl (List.append_eq_nil_iff.1 e).1
  have e1 : pathJoin (render ws) (join ['/'] cs ++ ['/']) = render (ws ++ cs) ++ ['/'] := by
    unfold pathJoin
    rw [if_neg, if_neg, render_append hne hcn, List.append_assoc]
    · rfl
    · rintro (h | h)
      · exact nomatch h
      · exact Isar.Wic.Boot.render_last hw hne h
    · intro h
      obtain ⟨t, ht⟩ := isabs_iff.1 h
      obtain ⟨x, y, e⟩ := List.exists_cons_of_ne_nil hne'
      have := Isar.Wic.Boot.join_head hc hcn
      rw [e] at ht this
      rw [show x = '/' from (List.cons.inj ht).1] at this
      cases this
  have e2 : pathJoin (render (ws ++ cs) ++ ['/']) b = render (ws ++ cs) ++ '/' :: b := by
    unfold pathJoin
    rw [if_neg hab, if_pos (.inr (List.getLast?_concat)), List.append_assoc]
    rfl
  have hall : ∀ c ∈ ws ++ cs, Clean c := fun c h => (List.mem_append.1 h).elim (hw c) (hc c)
  rw [e1, e2, normComps_append rfl, splitOn_clean _ _ hb.2.2.2, normComps_render hall]
  show normStep true (ws ++ cs) b = _
  rw [normStep_clean hb]

theorem join_last {cs : List Str} (hc : ∀ c ∈ cs, Clean c) (hne : cs ≠ []) : (join ['/'] cs).getLast? ≠ some '/' := by
  have h := Isar.Wic.Boot.render_last hc hne
  unfold render at h
  intro e
  rw [List.getLast?_cons, e] at h
  exact h rfl

theorem rstripSlash_join {cs : List Str} (hc : ∀ c ∈ cs, Clean c) (hne : cs ≠ []) :
    rstripSlash (join ['/'] cs) = join ['/'] cs := by
  have h := join_last hc hne
  unfold rstripSlash
  rw [← List.head?_reverse] at h
  cases e : (join ['/'] cs).reverse with
  | nil => rw [List.reverse_eq_nil_iff.1 e]; rfl
  | cons x t =>
    rw [e] at h
    rw [List.dropWhile_cons_of_neg, ← e, List.reverse_reverse]
    intro hx
    exact h (by rw [beq_iff_eq.1 hx]; rfl)

theorem dropSlash_join {cs : List Str} (hc : ∀ c ∈ cs, Clean c) (hne : cs ≠ []) :
    (join ['/'] cs).dropWhile (· == '/') = join ['/'] cs := by
  have h := Isar.Wic.Boot.join_head hc hne
  cases e : join ['/'] cs with
  | nil => rfl
  | cons x t =>
    rw [e] at h
    rw [List.dropWhile_cons_of_neg]
    intro hx
    rw [beq_iff_eq.1 hx] at h
    cases h

theorem beforeSlash_split {a b : Str} (hb : '/' ∉ b) : beforeSlash (a ++ '/' :: b) = a := by
  unfold beforeSlash
  have e1 : (a ++ '/' :: b).reverse = b.reverse ++ '/' :: a.reverse := by
    rw [List.reverse_append, List.reverse_cons, List.append_assoc]; rfl
  have e2 : ∀ c ∈ b.reverse, (c != '/') = true := fun c hc => by
    rw [bne_iff_ne]
    exact fun e => hb (e ▸ List.mem_reverse.1 hc)
  rw [e1, dropWhile_append_stop e2 (by decide), List.reverse_cons, List.reverse_reverse, List.dropLast_concat]

/-- Where a file with a relative path of names is copied to. -/
theorem copied_to {ws ps : List Str} {b : Str} {ud : Ud} (hw : ∀ c ∈ ws, Clean c) (hne : ws ≠ []) (hp : ∀ c ∈ ps ++ [b], Clean c)
    (hf : ud.isFile = true) (hpath : ud.path = join ['/'] (ps ++ [b])) :
    normComps (pathJoin (pathJoin (render ws) (copyDir ud)) b) = ws ++ (ps ++ [b]) := by
  have hne2 : ps ++ [b] ≠ [] := fun h => nomatch (List.append_eq_nil_iff.1 h).2
  have hb := hp b (List.mem_append_right _ List.mem_cons_self)
  have e : copyDir ud = if (join ['/'] (ps ++ [b])).contains '/' then beforeSlash (join ['/'] (ps ++ [b])) ++ ['/'] else ['.'] := by
    unfold copyDir
    rw [hf, hpath, rstripSlash_join hp hne2, dropSlash_join hp hne2, Bool.true_and]
  rw [e]
  by_cases hps : ps = []
  · subst hps
    have hno : (join ['/'] ([] ++ [b])).contains '/' ≠ true := fun h => hb.2.2.2 (List.contains_iff_mem.1 h)
    rw [if_neg hno]
    exact normComps_dot hw hne hb
  · have ej : join ['/'] (ps ++ [b]) = join ['/'] ps ++ '/' :: b := join_snoc ps b hps
    rw [ej, if_pos (List.contains_iff_mem.2 (List.mem_append_right _ List.mem_cons_self)), beforeSlash_split hb.2.2.2,
      normComps_dir hw hne (fun c hc => hp c (List.mem_append_left _ hc)) hps hb, List.append_assoc]

/-! ## C205: how a file is unpacked -/

/-- What is done with a file with a suffix. -/
def suffixes : List (Str × Kind) :=
  [(".tar".toList, .tar []),
   (".tar.gz".toList, .tar "gzip".toList), (".tgz".toList, .tar "gzip".toList), (".tar.Z".toList, .tar "gzip".toList),
   (".tar.bz2".toList, .tar "bzip2".toList), (".tbz2".toList, .tar "bzip2".toList), (".tbz".toList, .tar "bzip2".toList),
   (".tar.xz".toList, .tar "xz".toList), (".txz".toList, .tar "xz".toList),
   (".tar.lz".toList, .tar "lzip".toList),
   (".tar.zst".toList, .tar "zstd".toList), (".tzst".toList, .tar "zstd".toList),
   (".tar.7z".toList, .tar "7z".toList),
   (".gz".toList, .decompress "gzip".toList), (".Z".toList, .decompress "gzip".toList), (".z".toList, .decompress "gzip".toList),
   (".bz2".toList, .decompress "bzip2".toList), (".xz".toList, .decompress "xz".toList),
   (".lz".toList, .decompress "lzip".toList), (".zst".toList, .decompress "zstd".toList),
   (".7z".toList, .seven), (".zip".toList, .zip), (".jar".toList, .zip),
   (".rpm".toList, .rpm), (".srpm".toList, .rpm), (".deb".toList, .deb), (".ipk".toList, .deb)]

/-- The longest of these suffixes decides. -/
def Longest (file : Str) (k : Kind) : Prop :=
  ∃ s, (s, k) ∈ suffixes ∧ (∃ t, file = t ++ s) ∧ ∀ e ∈ suffixes, (∃ t, file = t ++ e.1) → e.1.length ≤ s.length

theorem kinds_suffixes : ∀ e, e ∈ kinds ↔ e ∈ suffixes := by
  have h1 : ∀ e ∈ kinds, e ∈ suffixes := by decide +kernel
  have h2 : ∀ e ∈ suffixes, e ∈ kinds := by decide +kernel
  exact fun e => ⟨h1 e, h2 e⟩

theorem suffix_of_longer {a b s t : Str} (h : a ++ s = b ++ t) (hl : s.length ≤ t.length) : ∃ x, t = x ++ s := by
  rcases List.append_eq_append_iff.1 h with ⟨x, h1, h2⟩ | ⟨x, h1, h2⟩
  · have := congrArg List.length h2
    rw [List.length_append] at this
    have hx : x = [] := List.eq_nil_of_length_eq_zero (by omega)
    subst hx
    exact ⟨[], h2.symm⟩
  · exact ⟨x, h2⟩

theorem kinds_order : kinds.Pairwise fun a b => endsWith b.1 a.1 = false := by decide +kernel

theorem suffixes_inj : ∀ a ∈ suffixes, ∀ b ∈ suffixes, a.1 = b.1 → a.2 = b.2 := by decide +kernel

theorem suffixes_ne : ∀ a ∈ suffixes, a.1 ≠ [] := by decide +kernel

/-- C205: the longest suffix that is known decides how a file is unpacked; others are copied. -/
theorem by_suffix {file : Str} {k : Kind} : kindOf file = some k ↔ Longest file k := by
  have key : ∀ {k}, kindOf file = some k → Longest file k := by
    intro k h
    unfold kindOf at h
    obtain ⟨e, he, rfl⟩ := Option.map_eq_some_iff.1 h
    obtain ⟨h1, pre, post, hk, hpre⟩ := List.find?_eq_some_iff_append.1 he
    obtain ⟨t, ht⟩ := endsWith_iff.1 h1
    have hmem : e ∈ kinds := hk ▸ List.mem_append_right _ List.mem_cons_self
    refine ⟨e.1, (kinds_suffixes _).1 hmem, ⟨t, ht⟩, fun x hx ⟨u, hu⟩ => Classical.byContradiction fun hl => ?_⟩
    have hx' := (kinds_suffixes _).2 hx
    rw [hk] at hx'
    obtain ⟨y, hy⟩ := suffix_of_longer (ht.symm.trans hu) (by omega)
    rcases List.mem_append.1 hx' with hx' | hx'
    · have := hpre x hx'
      rw [endsWith_iff.2 ⟨u, hu⟩] at this
      cases this
    · rcases List.mem_cons.1 hx' with rfl | hx'
      · exact hl (Nat.le_refl _)
      · have ho := kinds_order
        rw [hk] at ho
        have := (List.pairwise_cons.1 (List.pairwise_append.1 ho).2.1).1 x hx'
        rw [endsWith_iff.2 ⟨y, hy⟩] at this
        cases this
  refine ⟨key, fun ⟨s, hs, ⟨t, ht⟩, hmax⟩ => ?_⟩
  cases h : kindOf file with
  | none =>
    unfold kindOf at h
    have := List.find?_eq_none.1 (Option.map_eq_none_iff.1 h) _ ((kinds_suffixes _).2 hs)
    exact absurd (endsWith_iff.2 ⟨t, ht⟩) this
  | some k' =>
    obtain ⟨s', hs', ⟨t', ht'⟩, hmax'⟩ := key h
    have h1 : s'.length ≤ s.length := hmax _ hs' ⟨t', ht'⟩
    have h2 : s.length ≤ s'.length := hmax' _ hs ⟨t, ht⟩
    have e : s = s' := (List.append_inj' (ht.symm.trans ht') (Nat.le_antisymm h2 h1)).2
    have := suffixes_inj _ hs _ hs' e
    rw [show k = k' from this]

/-- C205: without a known suffix a file is copied. -/
theorem no_suffix {file : Str} (h : ∀ e ∈ suffixes, ∀ t, file ≠ t ++ e.1) : kindOf file = none := by
  cases hk : kindOf file with
  | none => rfl
  | some k =>
    obtain ⟨s, hs, ⟨t, ht⟩, -⟩ := by_suffix.1 hk
    exact absurd ht (h _ hs t)

/-! ## C204: local files -/

/-- A local file or directory of SRC_URI: the names of its path, and those of `subdir`. -/
structure Src where
  path : List Str
  subdir : Option (List Str)
  parm : Str → Option Str

/-- Its path in the URL. -/
def Src.text (s : Src) : Str := join ['/'] s.path

/-- Names, none of them `.` or `..`. -/
def Names (l : List Str) : Prop := l ≠ [] ∧ ∀ c ∈ l, Clean c

/-- Not to be unpacked: `unpack` says so, or its suffix is not known. -/
def Copied (path : Str) (parm : Str → Option Str) : Prop :=
  (∃ v, parm "unpack".toList = some v ∧ v ∈ ["0".toList, "n".toList, "no".toList, "false".toList]) ∨
  (parm "unpack".toList = none ∧ ∀ e ∈ suffixes, ∀ t, path ≠ t ++ e.1)

structure Src.Ok (s : Src) : Prop where
  names : Names s.path
  sub : ∀ d, s.subdir = some d → Names d
  parm : s.parm "subdir".toList = s.subdir.map (join ['/'])
  copied : Copied s.text s.parm

/-- Where it is to be. -/
def Src.place (s : Src) (ws : List Str) : List Str := ws ++ s.subdir.getD [] ++ s.path

/-- Something is there. -/
def Exists (fs : Fs) (p : List Str) : Prop := ∃ e ∈ fs, p <+: e.1

/-- The first of the directories where it is. -/
def First (fs : Fs) (dirs : List (List Str)) (s : Src) (d : List Str) : Prop :=
  ∃ pre post, dirs = pre ++ d :: post ∧ Exists fs (d ++ s.path) ∧ ∀ x ∈ pre, ¬ Exists fs (x ++ s.path)

theorem tree_ne {fs : Fs} {p : List Str} : tree fs p ≠ [] ↔ Exists fs p := by
  constructor
  · intro h
    obtain ⟨x, hx⟩ := List.exists_mem_of_ne_nil _ h
    obtain ⟨e, he, hs⟩ := List.mem_filterMap.1 hx
    by_cases hp : p.isPrefixOf e.1 = true
    · exact ⟨e, he, List.isPrefixOf_iff_prefix.1 hp⟩
    · rw [if_neg hp] at hs; cases hs
  · rintro ⟨e, he, hp⟩ hn
    have : (e.1.drop p.length, e.2) ∈ tree fs p :=
      List.mem_filterMap.2 ⟨e, he, if_pos (List.isPrefixOf_iff_prefix.2 hp)⟩
    rw [hn] at this; cases this

theorem there_render {fs : Fs} {p : List Str} (hp : ∀ c ∈ p, Clean c) : there fs (render p) = true ↔ Exists fs p := by
  unfold there
  rw [normComps_render hp, decide_eq_true_iff, tree_ne]

theorem searched_first {fs : Fs} {ps : List Str} (hp : Names ps) {dirs : List (List Str)} (hd : ∀ d ∈ dirs, Names d)
    {d : List Str} {pre post : List (List Str)} (e : dirs = pre ++ d :: post) (h1 : Exists fs (d ++ ps))
    (h2 : ∀ x ∈ pre, ¬ Exists fs (x ++ ps)) : searched fs (dirs.map render) (join ['/'] ps) = render (d ++ ps) := by
  subst e
  induction pre with
  | nil =>
    have hdn := hd d List.mem_cons_self
    have hj := join_comps hdn.2 hdn.1 hp.2 hp.1
    have hall : ∀ c ∈ d ++ ps, Clean c := fun c hc => (List.mem_append.1 hc).elim (hdn.2 c) (hp.2 c)
    cases post with
    | nil => exact hj
    | cons y post =>
      show (if there fs (pathJoin (render d) (join ['/'] ps)) then pathJoin (render d) (join ['/'] ps) else _) = _
      rw [hj, if_pos ((there_render hall).2 h1)]
  | cons x pre ih =>
    have hxn := hd x List.mem_cons_self
    have hj := join_comps hxn.2 hxn.1 hp.2 hp.1
    have hall : ∀ c ∈ x ++ ps, Clean c := fun c hc => (List.mem_append.1 hc).elim (hxn.2 c) (hp.2 c)
    have ih := ih (fun y hy => h2 y (List.mem_cons_of_mem _ hy)) fun y hy => hd y (List.mem_cons_of_mem _ hy)
    have hcons : ∀ (a : Str) (l : List Str) (p : Str), l ≠ [] →
        searched fs (a :: l) p = if there fs (pathJoin a p) then pathJoin a p else searched fs l p := by
      intro a l p hl
      cases l with
      | nil => exact absurd rfl hl
      | cons _ _ => rfl
    rw [List.cons_append, List.map_cons, hcons _ _ _ (by simp), hj, if_neg fun h => h2 x List.mem_cons_self ((there_render hall).1 h)]
    exact ih

theorem copied_plan {w : World} {ud : Ud} {rootdir dir : Str} (hk : Copied ud.file ud.parm)
    (hd : unpackDir w.realpath ud rootdir = .ok dir) : plan w ud rootdir = .ok (dir, copy w.same ud dir) := by
  unfold plan
  rcases hk with ⟨v, hv, hm⟩ | ⟨hv, hs⟩
  · have hb : boolParm (ud.parm "unpack".toList) true = .ok false := by
      rw [hv]
      simp only [List.mem_cons, List.not_mem_nil, or_false] at hm
      rcases hm with rfl | rfl | rfl | rfl <;> rfl
    rw [hb]
    dsimp only
    have hc : command w.listing ud rootdir false = .ok none := rfl
    rw [hc, hd]
  · have hb : boolParm (ud.parm "unpack".toList) true = .ok true := by rw [hv]; rfl
    rw [hb]
    dsimp only
    have hc : command w.listing ud rootdir true = .ok none := by
      unfold command
      rw [if_pos rfl, no_suffix hs]
    rw [hc, hd]

theorem unpackDir_src {realpath : Str → Str} {ud : Ud} {ws : List Str} (hw : Names ws) {sub : Option (List Str)}
    (hsub : ∀ d, sub = some d → Names d) (hp : ud.parm "subdir".toList = sub.map (join ['/'])) :
    unpackDir realpath ud (render ws) = .ok (render (ws ++ sub.getD [])) := by
  unfold unpackDir
  rw [hp]
  cases sub with
  | none => show Except.ok (render ws) = .ok (render (ws ++ [])); rw [List.append_nil]
  | some d =>
    have hd := hsub d rfl
    show (if isabs (join ['/'] d) then _ else Except.ok (pathJoin (render ws) (join ['/'] d))) = .ok (render (ws ++ d))
    rw [if_neg (by rw [Isar.Wic.Boot.join_head hd.2 hd.1]; exact Bool.false_ne_true), join_comps hw.2 hw.1 hd.2 hd.1]

theorem suffix_render {d ps : List Str} (hd : d ≠ []) (hp : ps ≠ []) : ∃ t, render (d ++ ps) = t ++ join ['/'] ps := by
  rw [render_append hd hp]
  exact ⟨render d ++ ['/'], by rw [List.append_assoc]; rfl⟩

theorem suffix_nodir : ∀ e ∈ suffixes, '/' ∉ e.1 := by decide +kernel

/-- A known suffix is one of the path. -/
theorem copied_file {d ps : List Str} (hd : d ≠ []) (hp : Names ps) {parm : Str → Option Str} (h : Copied (join ['/'] ps) parm) :
    Copied (render (d ++ ps)) parm := by
  rcases h with h | ⟨h1, h2⟩
  · exact .inl h
  · refine .inr ⟨h1, fun e he t ht => ?_⟩
    rw [render_append hd hp.1] at ht
    rcases List.append_eq_append_iff.1 ht with ⟨x, hx1, hx2⟩ | ⟨x, hx1, hx2⟩
    · cases x with
      | nil =>
        have hx2 : '/' :: join ['/'] ps = e.1 := hx2
        exact suffix_nodir e he (hx2 ▸ List.mem_cons_self)
      | cons y x =>
        have hh := List.cons.inj hx2
        exact h2 e he x hh.2
    · exact suffix_nodir e he (by rw [hx2]; exact List.mem_append_right _ List.mem_cons_self)

/-- What comes of copying. -/
def placed (fs : Fs) (dir : List Str) (l : List (List Str × Str)) : Fs × Bool :=
  match put fs dir l with
  | none => (fs, false)
  | some fs' => (fs', true)

theorem unpackOne_at {w : World} {ws : List Str} {dirs : List (List Str)} {fs : Fs} {s : Src} {d : List Str}
    (hw : Names ws) (hdn : Names d) (hs : s.Ok) (hsame : ∀ a b, w.same a b = false)
    (hfile : localPath fs (dirs.map render) s.text = render (d ++ s.path)) (hout : ¬ ws <+: d ++ s.path) :
    unpackOne w (render ws) fs (localUd fs (dirs.map render) s.text s.parm) =
      if tree fs (d ++ s.path) = [] then (fs, false) else placed fs (s.place ws) (tree fs (d ++ s.path)) := by
  have hall : ∀ c ∈ d ++ s.path, Clean c := fun c hc => (List.mem_append.1 hc).elim (hdn.2 c) (hs.names.2 c)
  obtain ⟨ini, b, hb⟩ : ∃ ini b, s.path = ini ++ [b] :=
    ⟨_, _, (List.dropLast_concat_getLast hs.names.1).symm⟩
  have hbc : Clean b := hs.names.2 b (hb ▸ List.mem_append_right _ List.mem_cons_self)
  have hbase : basename (render (d ++ s.path)) = b := by
    rw [hb, ← List.append_assoc]; exact basename_render hbc.2.2.2
  have hsubc : ∀ c ∈ ws ++ s.subdir.getD [], Clean c := by
    intro c hc
    rcases List.mem_append.1 hc with hc | hc
    · exact hw.2 c hc
    · cases hsd : s.subdir with
      | none => rw [hsd] at hc; cases hc
      | some x => rw [hsd] at hc; exact (hs.sub x hsd).2 c hc
  have hsubn : ws ++ s.subdir.getD [] ≠ [] := fun h => hw.1 (List.append_eq_nil_iff.1 h).1
  have hplan : plan w (localUd fs (dirs.map render) s.text s.parm) (render ws) =
      .ok (render (ws ++ s.subdir.getD []), some (.cp (render (d ++ s.path)) (copyDir (localUd fs (dirs.map render) s.text s.parm)))) := by
    rw [copied_plan (by
      show Copied (localPath fs (dirs.map render) s.text) s.parm
      rw [hfile]; exact copied_file hdn.1 hs.names hs.copied) (unpackDir_src hw hs.sub hs.parm)]
    unfold copy
    dsimp only
    have hfile' : (localUd fs (dirs.map render) s.text s.parm).file = render (d ++ s.path) := hfile
    rw [hfile', hbase, Meta.Wks.join_render hsubc hsubn hbc.2.2.2, if_pos]
    refine ⟨fun he => hout ?_, hsame _ _⟩
    have := render_injective hall (fun c hc => (List.mem_append.1 hc).elim (hsubc c) fun h => by rw [List.mem_singleton.1 h]; exact hbc) he
    rw [this, List.append_assoc]
    exact List.prefix_append _ _
  unfold unpackOne
  rw [hplan]
  show runCp fs (render (ws ++ s.subdir.getD [])) (render (d ++ s.path)) _ = _
  unfold runCp
  rw [normComps_render hall, hbase, copied_to hsubc hsubn (by rw [← hb]; exact hs.names.2) rfl (by
    show s.text = _
    unfold Src.text; rw [hb]), ← hb]
  cases ht : tree fs (d ++ s.path) with
  | nil => rw [if_pos rfl]
  | cons x l => rw [if_neg (List.cons_ne_nil _ _)]; rfl

theorem localPath_relative {fs : Fs} {dirs : List Str} {s : Src} (hs : s.Ok) : localPath fs dirs s.text = searched fs dirs s.text := by
  unfold localPath
  rw [if_neg (by unfold Src.text; rw [Isar.Wic.Boot.join_head hs.names.2 hs.names.1]; exact Bool.false_ne_true)]

/-- One local file: all of it is copied to its place. -/
theorem unpackOne_local {w : World} {ws : List Str} {dirs : List (List Str)} {fs : Fs} {s : Src} {d : List Str}
    (hw : Names ws) (hd : ∀ d ∈ dirs, Names d) (hs : s.Ok) (hsame : ∀ a b, w.same a b = false) (hf : First fs dirs s d)
    (hout : ¬ ws <+: d ++ s.path) :
    unpackOne w (render ws) fs (localUd fs (dirs.map render) s.text s.parm) = placed fs (s.place ws) (tree fs (d ++ s.path)) := by
  obtain ⟨pre, post, e, h1, h2⟩ := hf
  rw [unpackOne_at hw (hd d (e ▸ List.mem_append_right _ List.mem_cons_self)) hs hsame
    ((localPath_relative hs).trans (searched_first hs.names hd e h1 h2)) hout, if_neg (tree_ne.2 h1)]

/-- None of the sources is above or below the work directory, wherever it may be found. -/
def Apart (ws : List Str) (dirs : List (List Str)) (l : List Src) : Prop :=
  ∀ d ∈ dirs, ∀ s ∈ l, ¬ ws <+: d ++ s.path ∧ ¬ d ++ s.path <+: ws

theorem ws_place (ws : List Str) (s : Src) : ws <+: s.place ws :=
  ⟨s.subdir.getD [] ++ s.path, by unfold Src.place; rw [List.append_assoc]⟩

theorem apart_place {ws x : List Str} {s : Src} (h1 : ¬ ws <+: x) (h2 : ¬ x <+: ws) : ¬ s.place ws <+: x ∧ ¬ x <+: s.place ws :=
  ⟨fun h => h1 ((ws_place ws s).trans h), fun h => (List.prefix_or_prefix_of_prefix h (ws_place ws s)).elim h2 h1⟩

theorem exists_put {fs fs' : Fs} {ws x : List Str} {s : Src} {l : List (List Str × Str)} (h : put fs (s.place ws) l = some fs')
    (h1 : ¬ ws <+: x) (h2 : ¬ x <+: ws) : Exists fs' x ↔ Exists fs x := by
  obtain ⟨a, b⟩ := apart_place (s := s) h1 h2
  rw [← tree_ne, ← tree_ne, tree_put h a b]

theorem first_put {fs fs' : Fs} {ws : List Str} {dirs : List (List Str)} {s t : Src} {d : List Str} {l : List (List Str × Str)}
    (h : put fs (s.place ws) l = some fs') (ha : ∀ d ∈ dirs, ¬ ws <+: d ++ t.path ∧ ¬ d ++ t.path <+: ws) :
    First fs' dirs t d ↔ First fs dirs t d := by
  constructor
  · rintro ⟨pre, post, e, h1, h2⟩
    have hd := ha d (e ▸ List.mem_append_right _ List.mem_cons_self)
    exact ⟨pre, post, e, (exists_put h hd.1 hd.2).1 h1, fun x hx hn => by
      have hx' := ha x (e ▸ List.mem_append_left _ hx)
      exact h2 x hx ((exists_put h hx'.1 hx'.2).2 hn)⟩
  · rintro ⟨pre, post, e, h1, h2⟩
    have hd := ha d (e ▸ List.mem_append_right _ List.mem_cons_self)
    exact ⟨pre, post, e, (exists_put h hd.1 hd.2).2 h1, fun x hx hn => by
      have hx' := ha x (e ▸ List.mem_append_left _ hx)
      exact h2 x hx ((exists_put h hx'.1 hx'.2).1 hn)⟩

theorem first_unique {fs : Fs} {dirs : List (List Str)} {s : Src} {d d' : List Str} (h : First fs dirs s d) (h' : First fs dirs s d') :
    d = d' := by
  obtain ⟨pre, post, e, h1, h2⟩ := h
  obtain ⟨pre', post', e', h1', h2'⟩ := h'
  rcases List.append_eq_append_iff.1 (e.symm.trans e') with ⟨x, hx1, hx2⟩ | ⟨x, hx1, hx2⟩
  · cases x with
    | nil => exact (List.cons.inj hx2).1
    | cons y x =>
      rw [← (List.cons.inj hx2).1] at hx1
      exact absurd h1 (h2' d (by rw [hx1]; exact List.mem_append_right _ List.mem_cons_self))
  · cases x with
    | nil => exact (List.cons.inj hx2).1.symm
    | cons y x =>
      rw [← (List.cons.inj hx2).1] at hx1
      exact absurd h1' (h2 d' (by rw [hx1]; exact List.mem_append_right _ List.mem_cons_self))

theorem first_or {fs : Fs} {s : Src} : ∀ (dirs : List (List Str)), (∃ d, First fs dirs s d) ∨ ∀ d ∈ dirs, ¬ Exists fs (d ++ s.path)
  | [] => .inr fun _ h => nomatch h
  | x :: dirs => by
    by_cases hx : Exists fs (x ++ s.path)
    · exact .inl ⟨x, [], dirs, rfl, hx, fun _ h => nomatch h⟩
    · rcases first_or (fs := fs) (s := s) dirs with ⟨d, pre, post, e, h1, h2⟩ | h
      · refine .inl ⟨d, x :: pre, post, by rw [e]; rfl, h1, fun y hy => ?_⟩
        rcases List.mem_cons.1 hy with rfl | hy
        · exact hx
        · exact h2 y hy
      · refine .inr fun y hy => ?_
        rcases List.mem_cons.1 hy with rfl | hy
        · exact hx
        · exact h y hy

theorem searched_none {fs : Fs} {ps : List Str} (hp : Names ps) : ∀ {dirs : List (List Str)}, (∀ d ∈ dirs, Names d) → dirs ≠ [] →
    ∃ d ∈ dirs, searched fs (dirs.map render) (join ['/'] ps) = render (d ++ ps)
  | [], _, h => absurd rfl h
  | [d], hd, _ => by
    have hdn := hd d List.mem_cons_self
    exact ⟨d, List.mem_cons_self, join_comps hdn.2 hdn.1 hp.2 hp.1⟩
  | d :: y :: l, hd, _ => by
    have hdn := hd d List.mem_cons_self
    obtain ⟨x, hx, e⟩ := searched_none (fs := fs) hp (dirs := y :: l) (fun z hz => hd z (List.mem_cons_of_mem _ hz)) (List.cons_ne_nil _ _)
    show ∃ z ∈ _, (if there fs (pathJoin (render d) (join ['/'] ps)) then pathJoin (render d) (join ['/'] ps) else
      searched fs ((y :: l).map render) (join ['/'] ps)) = _
    by_cases ht : there fs (pathJoin (render d) (join ['/'] ps)) = true
    · rw [if_pos ht]
      exact ⟨d, List.mem_cons_self, join_comps hdn.2 hdn.1 hp.2 hp.1⟩
    · rw [if_neg ht]
      exact ⟨x, List.mem_cons_of_mem _ hx, e⟩

theorem unpackOne_missing {w : World} {ws : List Str} {dirs : List (List Str)} {fs : Fs} {s : Src}
    (hw : Names ws) (hd : ∀ d ∈ dirs, Names d) (hne : dirs ≠ []) (hs : s.Ok) (hsame : ∀ a b, w.same a b = false)
    (hout : ∀ d ∈ dirs, ¬ ws <+: d ++ s.path) (h : ∀ d ∈ dirs, ¬ Exists fs (d ++ s.path)) :
    unpackOne w (render ws) fs (localUd fs (dirs.map render) s.text s.parm) = (fs, false) := by
  obtain ⟨d, hdm, e⟩ := searched_none (fs := fs) hs.names hd hne
  rw [unpackOne_at hw (hd d hdm) hs hsame ((localPath_relative hs).trans e) (hout d hdm), if_pos]
  exact Classical.byContradiction fun hn => h d hdm (tree_ne.1 hn)

/-- The list of URLs. -/
def urls (l : List Src) : List (Str × (Str → Option Str)) := l.map fun s => (s.text, s.parm)

theorem unpackLocal_cons {w : World} {root : Str} {filespath : List Str} {fs : Fs} {s : Src} {l : List Src} :
    unpackLocal w root filespath fs (urls (s :: l)) =
      match unpackOne w root fs (localUd fs filespath s.text s.parm) with
      | (fs1, true) => unpackLocal w root filespath fs1 (urls l)
      | (fs1, false) => (fs1, false) := rfl

/-- None of two places is above the other. -/
def Disjoint (ws : List Str) (l : List Src) : Prop :=
  l.Pairwise fun s t => ¬ s.place ws <+: t.place ws ∧ ¬ t.place ws <+: s.place ws

theorem Apart.tail {ws : List Str} {dirs : List (List Str)} {s : Src} {l : List Src} (h : Apart ws dirs (s :: l)) : Apart ws dirs l :=
  fun d hd t ht => h d hd t (List.mem_cons_of_mem _ ht)

/-- C204: after unpacking each local file, and all files of each local directory, are in the work directory below the path
of the URL and have the content of the first one that is found; nothing else is changed. -/
theorem local_partial {w : World} {ws : List Str} {dirs : List (List Str)} (hw : Names ws) (hd : ∀ d ∈ dirs, Names d)
    (hne : dirs ≠ []) (hsame : ∀ a b, w.same a b = false) : ∀ {l : List Src} {fs fs' : Fs}, (∀ s ∈ l, s.Ok) → Apart ws dirs l →
    Disjoint ws l → unpackLocal w (render ws) (dirs.map render) fs (urls l) = (fs', true) →
    (∀ s ∈ l, ∃ d, First fs dirs s d ∧
      ∀ r, fs'.lookup (s.place ws ++ r) = (fs.lookup (d ++ s.path ++ r)).or (fs.lookup (s.place ws ++ r))) ∧
    ∀ q, (∀ s ∈ l, ¬ s.place ws <+: q) → fs'.lookup q = fs.lookup q
  | [], fs, fs', _, _, _, h => by
    cases h
    exact ⟨(fun _ h => nomatch h), fun _ _ => rfl⟩
  | s :: l, fs, fs', hs, hap, hdis, h => by
    rw [unpackLocal_cons] at h
    have hap0 : ∀ d ∈ dirs, ¬ ws <+: d ++ s.path ∧ ¬ d ++ s.path <+: ws := fun d hdm => hap d hdm s List.mem_cons_self
    rcases first_or (fs := fs) (s := s) dirs with ⟨d, hf⟩ | hno
    · have hdm : d ∈ dirs := by
        obtain ⟨pre, post, e, -, -⟩ := hf
        rw [e]; exact List.mem_append_right _ List.mem_cons_self
      rw [unpackOne_local hw hd (hs s List.mem_cons_self) hsame hf (hap0 d hdm).1] at h
      unfold placed at h
      cases hp : put fs (s.place ws) (tree fs (d ++ s.path)) with
      | none => rw [hp] at h; cases h
      | some fs1 =>
        rw [hp] at h
        obtain ⟨hd1, hd2⟩ := List.pairwise_cons.1 hdis
        obtain ⟨i1, i2⟩ := local_partial hw hd hne hsame (fun t ht => hs t (List.mem_cons_of_mem _ ht)) hap.tail hd2 h
        obtain ⟨p1, p2⟩ := lookup_put hp
        refine ⟨fun t ht => ?_, fun q hq => ?_⟩
        · rcases List.mem_cons.1 ht with rfl | ht
          · refine ⟨d, hf, fun r => ?_⟩
            rw [i2, p1, lookup_tree]
            intro u hu hpre
            rcases List.prefix_or_prefix_of_prefix hpre (List.prefix_append _ r) with h | h
            · exact (hd1 u hu).2 h
            · exact (hd1 u hu).1 h
          · obtain ⟨d', hf', hr⟩ := i1 t ht
            have hapt : ∀ d ∈ dirs, ¬ ws <+: d ++ t.path ∧ ¬ d ++ t.path <+: ws := fun d hdm => hap d hdm t (List.mem_cons_of_mem _ ht)
            have hf0 := (first_put hp hapt).1 hf'
            have hdm' : d' ∈ dirs := by
              obtain ⟨pre, post, e, -, -⟩ := hf0
              rw [e]; exact List.mem_append_right _ List.mem_cons_self
            refine ⟨d', hf0, fun r => ?_⟩
            rw [hr r, p2, p2]
            · intro hpre
              rcases List.prefix_or_prefix_of_prefix hpre (List.prefix_append _ r) with h | h
              · exact (hd1 t ht).1 h
              · exact (hd1 t ht).2 h
            · intro hpre
              rcases List.prefix_or_prefix_of_prefix hpre (List.prefix_append _ r) with h | h
              · exact (apart_place (s := s) (hapt d' hdm').1 (hapt d' hdm').2).1 h
              · exact (apart_place (s := s) (hapt d' hdm').1 (hapt d' hdm').2).2 h
        · rw [i2 q fun t ht => hq t (List.mem_cons_of_mem _ ht), p2 q (hq s List.mem_cons_self)]
    · rw [unpackOne_missing hw hd hne (hs s List.mem_cons_self) hsame (fun d hdm => (hap0 d hdm).1) hno] at h
      cases h

/-- Nothing is where the work directory should be, nothing above, and in it are only files of these places. -/
def Fresh (ws : List Str) (fs : Fs) (done : List Src) : Prop :=
  ∀ e ∈ fs, (¬ ws <+: e.1 ∧ ¬ e.1 <+: ws) ∨ ∃ t ∈ done, t.place ws <+: e.1

theorem put_fresh {ws : List Str} {fs : Fs} {done : List Src} {s : Src} {l : List (List Str × Str)} (h : Fresh ws fs done)
    (hd : ∀ t ∈ done, ¬ t.place ws <+: s.place ws ∧ ¬ s.place ws <+: t.place ws) :
    ∃ fs', put fs (s.place ws) l = some fs' ∧ Fresh ws fs' (s :: done) := by
  have hno : ¬ (l.any fun e => inWay fs (s.place ws ++ e.1)) = true := by
    intro ha
    obtain ⟨x, -, hx⟩ := List.any_eq_true.1 ha
    unfold inWay at hx
    obtain ⟨e, he, hx⟩ := List.any_eq_true.1 hx
    rw [Bool.and_eq_true, Bool.or_eq_true, List.isPrefixOf_iff_prefix, List.isPrefixOf_iff_prefix] at hx
    have hpl : s.place ws <+: s.place ws ++ x.1 := List.prefix_append _ _
    rcases h e he with ⟨h1, h2⟩ | ⟨t, ht, hte⟩
    · rcases hx.2 with hp | hp
      · rcases List.prefix_or_prefix_of_prefix hp ((ws_place ws s).trans hpl) with h | h
        · exact h2 h
        · exact h1 h
      · exact h1 (((ws_place ws s).trans hpl).trans hp)
    · have : t.place ws <+: s.place ws ∨ s.place ws <+: t.place ws := by
        rcases hx.2 with hp | hp
        · exact List.prefix_or_prefix_of_prefix (hte.trans hp) hpl
        · exact List.prefix_or_prefix_of_prefix hte (hpl.trans hp)
      exact this.elim (hd t ht).1 (hd t ht).2
  unfold put
  rw [if_neg hno]
  refine ⟨_, rfl, fun e he => ?_⟩
  rcases List.mem_append.1 he with he | he
  · obtain ⟨x, -, rfl⟩ := List.mem_map.1 he
    exact .inr ⟨s, List.mem_cons_self, List.prefix_append _ _⟩
  · rcases h e he with h | ⟨t, ht, hte⟩
    · exact .inl h
    · exact .inr ⟨t, List.mem_cons_of_mem _ ht, hte⟩

theorem local_go {w : World} {ws : List Str} {dirs : List (List Str)} (hw : Names ws) (hd : ∀ d ∈ dirs, Names d)
    (hsame : ∀ a b, w.same a b = false) : ∀ {l done : List Src} {fs : Fs}, (∀ s ∈ l, s.Ok) → Apart ws dirs l →
    Disjoint ws l → (∀ s ∈ l, ∀ t ∈ done, ¬ t.place ws <+: s.place ws ∧ ¬ s.place ws <+: t.place ws) → Fresh ws fs done →
    (∀ s ∈ l, ∃ d ∈ dirs, Exists fs (d ++ s.path)) →
    ∃ fs', unpackLocal w (render ws) (dirs.map render) fs (urls l) = (fs', true)
  | [], done, fs, _, _, _, _, _, _ => ⟨fs, rfl⟩
  | s :: l, done, fs, hs, hap, hdis, hdone, hfr, hex => by
    have hap0 : ∀ d ∈ dirs, ¬ ws <+: d ++ s.path ∧ ¬ d ++ s.path <+: ws := fun d hdm => hap d hdm s List.mem_cons_self
    obtain ⟨d, hf⟩ : ∃ d, First fs dirs s d := by
      rcases first_or (fs := fs) (s := s) dirs with h | h
      · exact h
      · obtain ⟨d, hdm, he⟩ := hex s List.mem_cons_self
        exact absurd he (h d hdm)
    have hdm : d ∈ dirs := by
      obtain ⟨pre, post, e, -, -⟩ := hf
      rw [e]; exact List.mem_append_right _ List.mem_cons_self
    obtain ⟨fs1, hp, hfr1⟩ := put_fresh (l := tree fs (d ++ s.path)) hfr fun t ht => hdone s List.mem_cons_self t ht
    rw [unpackLocal_cons, unpackOne_local hw hd (hs s List.mem_cons_self) hsame hf (hap0 d hdm).1]
    unfold placed
    rw [hp]
    obtain ⟨hd1, hd2⟩ := List.pairwise_cons.1 hdis
    refine local_go hw hd hsame (done := s :: done) (fun t ht => hs t (List.mem_cons_of_mem _ ht)) hap.tail hd2 (fun t ht u hu => ?_) hfr1
      fun t ht => ?_
    · rcases List.mem_cons.1 hu with rfl | hu
      · exact hd1 t ht
      · exact hdone t (List.mem_cons_of_mem _ ht) u hu
    · obtain ⟨x, hx, he⟩ := hex t (List.mem_cons_of_mem _ ht)
      have := hap x hx t (List.mem_cons_of_mem _ ht)
      exact ⟨x, hx, (exists_put hp this.1 this.2).2 he⟩

/-- C204: in a new work directory all local files can be unpacked if each of them is in one of the directories, and only then. -/
theorem local_succeeds {w : World} {ws : List Str} {dirs : List (List Str)} (hw : Names ws) (hd : ∀ d ∈ dirs, Names d)
    (hne : dirs ≠ []) (hsame : ∀ a b, w.same a b = false) {l : List Src} {fs : Fs} (hs : ∀ s ∈ l, s.Ok) (hap : Apart ws dirs l)
    (hdis : Disjoint ws l) (hfresh : ∀ e ∈ fs, ¬ ws <+: e.1 ∧ ¬ e.1 <+: ws) :
    (unpackLocal w (render ws) (dirs.map render) fs (urls l)).2 = true ↔ ∀ s ∈ l, ∃ d ∈ dirs, Exists fs (d ++ s.path) := by
  constructor
  · intro h s hsm
    obtain ⟨d, ⟨pre, post, e, h1, -⟩, -⟩ := (local_partial hw hd hne hsame hs hap hdis (fs' := _) (Prod.ext rfl h)).1 s hsm
    exact ⟨d, e ▸ List.mem_append_right _ List.mem_cons_self, h1⟩
  · intro h
    obtain ⟨fs', e⟩ := local_go hw hd hsame (done := []) hs hap hdis (fun _ _ _ h => nomatch h) (fun e he => .inl (hfresh e he)) h
    rw [e]

end Bb.Unpack
