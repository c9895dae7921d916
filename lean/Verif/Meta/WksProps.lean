import Verif.Meta.WksModel
import Verif.Meta.PathsProps
/-!
# Properties of the description of a disk image
-/

namespace Meta.Wks

open Py

/-! ## C197: which file -/

/-- Where a file may be, first to last. -/
def places (bbpath : List Str) (corebase : Option Str) (name : Str) : List Str :=
  let dirs := match corebase with
    | some c => bbpath ++ [c]
    | none => bbpath
  dirs.map (fun d => d ++ "/wic/".toList ++ name) ++
    dirs.map (fun d => d ++ "/scripts/lib/wic/canned-wks/".toList ++ name)

/-- `p` is the first one in a list that is there. -/
def FirstThere (there : Str → Bool) (l : List Str) (p : Str) : Prop :=
  ∃ pre post, l = pre ++ p :: post ∧ there p = true ∧ ∀ q ∈ pre, there q = false

theorem which_first (there : Str → Bool) (f p : Str) : ∀ ps : List Str,
    which there ps f = some p ↔ FirstThere there (ps.map (pathJoin · f)) p
  | [] => by
    constructor
    · intro h; cases h
    · rintro ⟨pre, post, e, -, -⟩
      cases pre <;> cases e
  | q :: ps => by
    unfold which
    by_cases hq : there (pathJoin q f) = true
    · rw [if_pos hq]
      constructor
      · intro h; cases h; exact ⟨[], _, rfl, hq, fun _ h => nomatch h⟩
      · rintro ⟨pre, post, e, hp, hn⟩
        cases pre with
        | nil => cases e; rfl
        | cons x pre =>
          have e1 := (List.cons.inj e).1
          rw [hn _ (e1 ▸ List.mem_cons_self)] at hq; cases hq
    · rw [if_neg hq, which_first there f p ps]
      have hq' : there (pathJoin q f) = false := by simpa using hq
      constructor
      · rintro ⟨pre, post, e, hp, hn⟩
        refine ⟨pathJoin q f :: pre, post, by rw [List.map_cons, e]; rfl, hp, fun x hx => ?_⟩
        rcases List.mem_cons.1 hx with rfl | hx
        · exact hq'
        · exact hn x hx
      · rintro ⟨pre, post, e, hp, hn⟩
        cases pre with
        | nil => cases e; rw [hp] at hq'; cases hq'
        | cons x pre =>
          exact ⟨pre, post, (List.cons.inj e).2, hp, fun x hx => hn x (List.mem_cons_of_mem _ hx)⟩

theorem which_none (there : Str → Bool) (f : Str) : ∀ ps : List Str,
    which there ps f = none ↔ ∀ q ∈ ps.map (pathJoin · f), there q = false
  | [] => Iff.intro (fun _ _ h => nomatch h) (fun _ => rfl)
  | q :: ps => by
    unfold which
    by_cases hq : there (pathJoin q f) = true
    · rw [if_pos hq]
      constructor
      · intro h; cases h
      · intro h; rw [h _ List.mem_cons_self] at hq; cases hq
    · rw [if_neg hq, which_none there f ps, List.map_cons, List.forall_mem_cons]
      constructor
      · intro h; exact ⟨by simpa using hq, h⟩
      · intro h; exact h.2

theorem join_plain {d s f : Str} (hf : isabs f = false) (hs : s ≠ []) (hl : s.getLast? ≠ some '/') :
    pathJoin (d ++ s) f = d ++ (s ++ ['/']) ++ f := by
  unfold pathJoin
  rw [if_neg (by rw [hf]; exact Bool.false_ne_true), if_neg]
  · simp
  · rintro (h | h)
    · exact hs (List.append_eq_nil_iff.1 h).2
    · rw [List.getLast?_append] at h
      cases hx : s.getLast? with
      | none => exact hs (List.getLast?_eq_none_iff.1 hx)
      | some x => rw [hx] at h; exact hl (hx.trans h)

theorem searched {bbpath : List Str} {corebase : Option Str} {f : Str} (hf : isabs f = false) :
    (searchPath bbpath corebase).map (pathJoin · f) = places bbpath corebase f := by
  have e : (match corebase with | some c => bbpath ++ [c] | none => bbpath) = bbpath ++ corebase.toList := by
    cases corebase
    · exact (List.append_nil _).symm
    · rfl
  unfold searchPath places
  dsimp only
  rw [e, List.map_append, List.map_map, List.map_map]
  congr 1
  · refine List.map_congr_left fun d _ => ?_
    exact join_plain hf (by decide) (by decide)
  · refine List.map_congr_left fun d _ => ?_
    exact join_plain hf (by decide) (by decide)

/-- The name that is looked for: with the suffix, if there is none. -/
def Looked (f name : Str) : Prop :=
  ((∃ s, f = s ++ ".wks".toList) ∨ (∃ s, f = s ++ ".wks.in".toList)) ∧ name = f ∨
  ¬ ((∃ s, f = s ++ ".wks".toList) ∨ (∃ s, f = s ++ ".wks.in".toList)) ∧ name = f ++ ".wks".toList

theorem looked (f : Str) : Looked f (withSuffix f) := by
  unfold withSuffix Looked
  by_cases h : (endsWith f ".wks".toList || endsWith f ".wks.in".toList) = true
  · rw [if_pos h]
    rw [Bool.or_eq_true, endsWith_iff, endsWith_iff] at h
    exact .inl ⟨h, rfl⟩
  · rw [if_neg h]
    rw [Bool.or_eq_true, endsWith_iff, endsWith_iff] at h
    exact .inr ⟨h, rfl⟩

theorem looked_unique {f a b : Str} (ha : Looked f a) (hb : Looked f b) : a = b := by
  rcases ha with ⟨h1, rfl⟩ | ⟨h1, rfl⟩ <;> rcases hb with ⟨h2, rfl⟩ | ⟨h2, rfl⟩
  · rfl
  · exact absurd h1 h2
  · exact absurd h2 h1
  · rfl

theorem suffix_isabs {f : Str} (h : f ≠ []) : isabs (withSuffix f) = startsWith f "/".toList := by
  cases f with
  | nil => exact absurd rfl h
  | cons c f =>
    have e : ∃ r, withSuffix (c :: f) = c :: r := by
      unfold withSuffix
      split
      · exact ⟨_, rfl⟩
      · exact ⟨_, rfl⟩
    obtain ⟨r, e⟩ := e
    rw [e, Bool.eq_iff_iff, isabs_iff, startsWith_iff]
    constructor
    · rintro ⟨t, ht⟩; cases ht; exact ⟨f, rfl⟩
    · rintro ⟨t, ht⟩; cases ht; exact ⟨r, rfl⟩

/-- C197: of a relative name the first file found is used, of all directories and first in their `wic`. -/
theorem relative {there : Str → Bool} {bbpath : List Str} {corebase : Option Str} {f name p : Str} (hn : f ≠ [])
    (hr : ∀ t, f ≠ '/' :: t) (hl : Looked f name) :
    wksFile there bbpath corebase f = some p ↔ FirstThere there (places bbpath corebase name) p := by
  cases looked_unique (looked f) hl
  have hs : startsWith f "/".toList ≠ true := fun e => by
    obtain ⟨t, ht⟩ := startsWith_iff.1 e; exact hr t ht
  unfold wksFile
  rw [if_neg hn, if_neg hs, which_first, searched]
  rw [suffix_isabs hn]; simpa using hs

/-- C197: there is no image without a description: if it is nowhere, the build ends. -/
theorem relative_none {there : Str → Bool} {bbpath : List Str} {corebase : Option Str} {f name : Str} (hn : f ≠ [])
    (hr : ∀ t, f ≠ '/' :: t) (hl : Looked f name) :
    wksFile there bbpath corebase f = none ↔ ∀ q ∈ places bbpath corebase name, there q = false := by
  cases looked_unique (looked f) hl
  have hs : startsWith f "/".toList ≠ true := fun e => by
    obtain ⟨t, ht⟩ := startsWith_iff.1 e; exact hr t ht
  unfold wksFile
  rw [if_neg hn, if_neg hs, which_none, searched]
  rw [suffix_isabs hn]; simpa using hs

/-- C197: an absolute name is used as it is. -/
theorem absolute {there : Str → Bool} {bbpath : List Str} {corebase : Option Str} {t name p : Str}
    (hl : Looked ('/' :: t) name) :
    wksFile there bbpath corebase ('/' :: t) = some p ↔ p = name ∧ there p = true := by
  cases looked_unique (looked _) hl
  unfold wksFile
  have hst : startsWith ('/' :: t) "/".toList = true := startsWith_iff.2 ⟨t, rfl⟩
  rw [if_neg (fun e => nomatch e), if_pos hst]
  by_cases h : there (withSuffix ('/' :: t)) = true
  · rw [if_pos h]
    constructor
    · intro e; cases e; exact ⟨rfl, h⟩
    · rintro ⟨rfl, -⟩; rfl
  · rw [if_neg h]
    constructor
    · intro e; cases e
    · rintro ⟨rfl, e⟩; exact absurd e h

/-- Two directories, the file is in the second `wic` and in both canned ones. -/
example : Looked "sd".toList "sd.wks".toList ∧
    wksFile (fun p => [("/b/wic/sd.wks".toList), ("/a/scripts/lib/wic/canned-wks/sd.wks".toList)].contains p)
      ["/a".toList, "/b".toList] (some "/c".toList) "sd".toList = some "/b/wic/sd.wks".toList := by
  refine ⟨looked "sd".toList, by decide⟩

/-! ### The file of a template -/

theorem splitext_in {ds : List Str} {b : Str} (hb : '/' ∉ b) (hs : b.any (· ≠ '.') = true) :
    splitextRoot (render (ds ++ [b ++ ".in".toList])) = render (ds ++ [b]) := by
  have hb' : '/' ∉ b ++ ".in".toList := by
    intro h
    rcases List.mem_append.mp h with h' | h'
    · exact hb h'
    · exact absurd h' (by decide)
  unfold splitextRoot
  rw [basename_render hb', headPart_render hb']
  have hpre : ((b ++ ".in".toList).reverse.dropWhile (· ≠ '.')).reverse.dropLast = b := by
    have e1 : (b ++ ".in".toList).reverse = ['n', 'i'] ++ '.' :: b.reverse := by
      rw [List.reverse_append]; rfl
    rw [e1, dropWhile_append_stop (by decide) (by decide), List.reverse_cons, List.reverse_reverse,
      List.dropLast_concat]
  have hdot : (b ++ ".in".toList).contains '.' = true := by
    rw [List.contains_iff_mem]
    exact List.mem_append_right _ (by decide)
  dsimp only
  rw [hpre, hdot, Bool.true_and, if_pos hs, render_snoc, List.append_assoc]; rfl

theorem join_render {ws : List Str} {b : Str} (hw : ∀ c ∈ ws, Clean c) (hne : ws ≠ []) (hb : '/' ∉ b) :
    pathJoin (render ws) b = render (ws ++ [b]) := by
  unfold pathJoin
  have ha : isabs b ≠ true := fun h => by
    obtain ⟨t, ht⟩ := isabs_iff.1 h
    exact hb (ht ▸ List.mem_cons_self)
  rw [if_neg ha, if_neg, render_snoc]
  · unfold dirText; rw [if_neg hne]
  · rintro (h | h)
    · exact nomatch h
    · obtain ⟨ini, l, e⟩ : ∃ ini l, ws = ini ++ [l] :=
        ⟨ws.dropLast, ws.getLast hne, (List.dropLast_concat_getLast hne).symm⟩
      have hl := hw l (e ▸ List.mem_append_right _ List.mem_cons_self)
      rw [e, render_snoc, List.getLast?_append, List.getLast?_cons] at h
      cases hx : l.getLast? with
      | none => exact hl.1 (List.getLast?_eq_none_iff.1 hx)
      | some x =>
        rw [hx] at h
        have : x = '/' := by simpa using h
        exact hl.2.2.2 (this ▸ List.mem_of_getLast? hx)

theorem norm_name {b : Str} (hb : Clean b) : normpath b = b := by
  have ha : isabs b = false := by
    rw [Bool.eq_false_iff]; intro h
    obtain ⟨t, ht⟩ := isabs_iff.1 h
    exact hb.2.2.2 (ht ▸ List.mem_cons_self)
  have hi : initSlashes b = 0 := by
    obtain ⟨x, y, rfl⟩ := List.exists_cons_of_ne_nil hb.1
    have hx : x ≠ '/' := fun e => hb.2.2.2 (e ▸ List.mem_cons_self)
    unfold initSlashes
    split
    · rename_i heq; exact absurd (List.cons.inj heq).1 hx
    · rename_i heq; exact absurd (List.cons.inj heq).1 hx
    · rename_i heq; exact absurd (List.cons.inj heq).1 hx
    · rfl
  have hc : normComps b = [b] := by
    unfold normComps
    rw [splitOn_clean _ _ hb.2.2.2, List.foldl_cons, List.foldl_nil, normStep_clean hb]
    rfl
  unfold normpath
  rw [hi, hc]
  show (if ([] ++ b : Str) = [] then dot else [] ++ b) = b
  rw [List.nil_append, if_neg hb.1]

/-- C197: what wic reads is the file made of the template that was found. -/
theorem read_is_made {ws ds : List Str} {s : Str} (hw : ∀ c ∈ ws, Clean c) (hne : ws ≠ []) (hs : '/' ∉ s) :
    fullPath (render ws) (render (ds ++ [s ++ ".wks.in".toList])) =
      Isar.Paths.templateOut (Isar.Paths.templatePath (render ws) (templateFile (render (ds ++ [s ++ ".wks.in".toList])))) ∧
    fullPath (render ws) (render (ds ++ [s ++ ".wks.in".toList])) = render (ws ++ [s ++ ".wks".toList]) := by
  have e0 : s ++ ".wks.in".toList = (s ++ ".wks".toList) ++ ".in".toList := by rw [List.append_assoc]; rfl
  have hb : '/' ∉ s ++ ".wks".toList := by
    intro h
    rcases List.mem_append.mp h with h' | h'
    · exact hs h'
    · exact absurd h' (by decide)
  have hany : (s ++ ".wks".toList).any (· ≠ '.') = true := by
    rw [List.any_append]
    have : (".wks".toList).any (· ≠ '.') = true := by decide
    rw [this, Bool.or_true]
  have e1 := splitext_in (ds := ds) hb hany
  rw [← e0] at e1
  have hfull : fullPath (render ws) (render (ds ++ [s ++ ".wks.in".toList])) = render (ws ++ [s ++ ".wks".toList]) := by
    unfold fullPath
    rw [e1, if_pos, basename_render hb]
    · exact join_render hw hne hb
    · rw [e0, render_snoc, render_snoc]
      show ((dirText ds ++ '/' :: (s ++ ".wks".toList ++ ".in".toList))).drop _ = _
      have : dirText ds ++ '/' :: (s ++ ".wks".toList ++ ".in".toList) = (dirText ds ++ '/' :: (s ++ ".wks".toList)) ++ ".in".toList := by
        rw [List.append_assoc (dirText ds)]; rfl
      rw [this, List.drop_left]
  refine ⟨?_, hfull⟩
  rw [hfull]
  have ht : templateFile (render (ds ++ [s ++ ".wks.in".toList])) = s ++ ".wks.tmpl".toList := by
    unfold templateFile
    rw [e1, basename_render hb, List.append_assoc]; rfl
  have hclean : Clean (s ++ ".wks.tmpl".toList) := by
    refine ⟨?_, ?_, ?_, ?_⟩
    · intro e; have := congrArg List.length e; simp at this
    · intro e; have := congrArg List.length e; simp [dot] at this
    · intro e; have := congrArg List.length e; simp [dotdot] at this
    · intro h
      rcases List.mem_append.mp h with h' | h'
      · exact hs h'
      · exact absurd h' (by decide)
  have hp : Isar.Paths.templatePath (render ws) (s ++ ".wks.tmpl".toList) = render (ws ++ [s ++ ".wks.tmpl".toList]) := by
    unfold Isar.Paths.templatePath
    rw [norm_name hclean]
    dsimp only
    rw [if_neg, join_render hw hne hclean.2.2.2, normpath_render]
    · intro c hc
      rcases List.mem_append.1 hc with hc | hc
      · exact hw c hc
      · rw [List.mem_singleton.1 hc]; exact hclean
    · intro h
      obtain ⟨t, ht⟩ := isabs_iff.1 h
      exact hclean.2.2.2 (ht ▸ List.mem_cons_self)
  rw [ht, hp]
  unfold Isar.Paths.templateOut
  have e2 : s ++ ".wks.tmpl".toList = (s ++ ".wks".toList) ++ ".tmpl".toList := by rw [List.append_assoc]; rfl
  rw [if_pos, e2, Isar.Paths.splitextRoot_tmpl hb, if_pos hany]
  rw [endsWith_iff, e2, render_snoc]
  exact ⟨dirText ws ++ '/' :: (s ++ ".wks".toList), by rw [List.append_assoc (dirText ws)]; rfl⟩

/-- The hypotheses are met. -/
example : fullPath "/tmp/work".toList "/layer/wic/sd.wks.in".toList = "/tmp/work/sd.wks".toList ∧
    (∀ c ∈ ["tmp".toList, "work".toList], Clean c) := by decide

/-! ## C198: the template -/

/-- A template: text without a dollar, and references to variables. -/
inductive Piece where
  | text (s : Str)
  | ref (name : Str)

/-- A name that a shell knows: letters, digits and `_`, and no digit at the front. -/
def ShellName (n : Str) : Prop :=
  ∃ c r, n = c :: r ∧ (c.isAlpha ∨ c = '_') ∧ ∀ x ∈ r, x.isAlphanum ∨ x = '_'

/-- What makes up a piece. -/
def Piece.Ok : Piece → Prop
  | .text s => '$' ∉ s
  | .ref n => ShellName n

/-- As it is written. -/
def Piece.written : Piece → Str
  | .text s => s
  | .ref n => "${".toList ++ n ++ "}".toList

/-- What is to come of it. -/
def Piece.meant (value : Str → Str) : Piece → Str
  | .text s => s
  | .ref n => value n

/-- The value of a variable; nothing if it is not set. -/
def valueOf (get : Str → Option Str) (n : Str) : Str := (get n).getD []

theorem idStart_iff (c : Char) : idStart c = true ↔ c.isAlpha ∨ c = '_' := by
  simp [idStart]
theorem idChar_iff (c : Char) : idChar c = true ↔ c.isAlphanum ∨ c = '_' := by
  simp [idChar]

theorem ident_name {n r : Str} (hn : ShellName n) : ident (n ++ '}' :: r) = (n, '}' :: r) := by
  obtain ⟨c, t, rfl, hc, ht⟩ := hn
  show (if idStart c then (c :: (t ++ '}' :: r).takeWhile idChar, (t ++ '}' :: r).dropWhile idChar)
    else ([], c :: (t ++ '}' :: r))) = _
  rw [if_pos ((idStart_iff c).2 hc), takeWhile_append_stop (fun x hx => (idChar_iff x).2 (ht x hx)) (by decide),
    dropWhile_append_stop (fun x hx => (idChar_iff x).2 (ht x hx)) (by decide)]

theorem nameChar_of {c : Char} (h : c.isAlphanum ∨ c = '_') : nameChar c = true := by
  unfold nameChar
  have key : ∀ x ∈ ['{', '}', '@', '\n', '\t', ' ', ':'], c ≠ x := by
    intro x hx e
    subst e
    revert h
    revert hx
    simp only [List.mem_cons, List.not_mem_nil, or_false]
    rintro (rfl | rfl | rfl | rfl | rfl | rfl | rfl) <;> decide
  rw [Bool.not_eq_true', Bool.eq_false_iff]
  intro e
  exact key c (List.contains_iff_mem.1 e) rfl

theorem shell_nameChar {n : Str} (hn : ShellName n) : ∀ x ∈ n, nameChar x = true := by
  obtain ⟨c, t, rfl, hc, ht⟩ := hn
  intro x hx
  rcases List.mem_cons.1 hx with rfl | hx
  · refine nameChar_of (hc.imp_left fun h => ?_)
    unfold Char.isAlphanum
    rw [h]; rfl
  · exact nameChar_of (ht x hx)

theorem findVars_text {k : Nat} {r : Str} : ∀ {s : Str}, '$' ∉ s → findVars (s.length + k) (s ++ r) = findVars k r
  | [], _ => by simp
  | c :: s, h => by
    have hc : c ≠ '$' := fun e => h (e ▸ List.mem_cons_self)
    have e : findVars ((c :: s).length + k) (c :: s ++ r) = findVars (s.length + k) (s ++ r) := by
      rw [show (c :: s).length + k = (s.length + k) + 1 by simp; omega, List.cons_append]
      conv => lhs; unfold findVars
      split
      · rename_i heq; cases heq
      · rename_i heq; cases heq
      · rename_i heq; exact absurd (List.cons.inj heq).1 hc
      · rename_i h1 h2; cases h1; cases h2; rfl
    rw [e, findVars_text fun h' => h (List.mem_cons_of_mem _ h')]

theorem findVars_ref {k : Nat} {n r : Str} (hn : ShellName n) :
    findVars (k + 1) ("${".toList ++ n ++ "}".toList ++ r) = n :: findVars k r := by
  have e : "${".toList ++ n ++ "}".toList ++ r = '$' :: '{' :: (n ++ '}' :: r) := by
    simp
  rw [e]
  show (match (n ++ '}' :: r).takeWhile nameChar, (n ++ '}' :: r).dropWhile nameChar with
    | c :: n, '}' :: r => (c :: n) :: findVars k r
    | _, _ => findVars k ('{' :: (n ++ '}' :: r))) = _
  rw [takeWhile_append_stop (shell_nameChar hn) (by decide), dropWhile_append_stop (shell_nameChar hn) (by decide)]
  obtain ⟨c, t, rfl, -, -⟩ := hn
  rfl

/-- A template as a text. -/
def written (ps : List Piece) : Str := (ps.map Piece.written).flatten

theorem written_cons (p : Piece) (ps : List Piece) : written (p :: ps) = p.written ++ written ps := rfl

/-- All references are found. -/
theorem found_all {n : Str} : ∀ {ps : List Piece} {k : Nat}, (∀ p ∈ ps, p.Ok) → (written ps).length < k →
    Piece.ref n ∈ ps → n ∈ findVars k (written ps)
  | [], _, _, _, h => nomatch h
  | .text s :: ps, k, hok, hk, h => by
    have hs : '$' ∉ s := hok _ List.mem_cons_self
    rw [written_cons] at hk ⊢
    have hl : (Piece.text s).written = s := rfl
    rw [hl, List.length_append] at hk
    rw [hl]
    obtain ⟨j, rfl⟩ : ∃ j, k = s.length + j := ⟨k - s.length, by omega⟩
    rw [findVars_text hs]
    refine found_all (fun p hp => hok p (List.mem_cons_of_mem _ hp)) (by omega) ?_
    rcases List.mem_cons.1 h with h | h
    · cases h
    · exact h
  | .ref m :: ps, k, hok, hk, h => by
    have hm : ShellName m := hok _ List.mem_cons_self
    rw [written_cons] at hk ⊢
    have hl : (Piece.ref m).written = "${".toList ++ m ++ "}".toList := rfl
    rw [hl, List.length_append, List.length_append, List.length_append] at hk
    rw [hl]
    have h2 : ("${".toList).length = 2 := rfl
    obtain ⟨j, rfl⟩ : ∃ j, k = j + 1 := ⟨k - 1, by omega⟩
    rw [findVars_ref hm]
    rcases List.mem_cons.1 h with h | h
    · cases h; exact List.mem_cons_self
    · exact List.mem_cons_of_mem _ (found_all (fun p hp => hok p (List.mem_cons_of_mem _ hp)) (by omega) h)

theorem subst_text {names : List Str} {env : Str → Option Str} {k : Nat} {r : Str} : ∀ {s : Str}, '$' ∉ s →
    substGo names env (s.length + k) (s ++ r) = s ++ substGo names env k r
  | [], _ => by simp
  | c :: s, h => by
    have hc : c ≠ '$' := fun e => h (e ▸ List.mem_cons_self)
    have e : substGo names env ((c :: s).length + k) (c :: s ++ r) = c :: substGo names env (s.length + k) (s ++ r) := by
      rw [show (c :: s).length + k = (s.length + k) + 1 by simp; omega, List.cons_append]
      conv => lhs; unfold substGo
      split
      · rename_i heq; cases heq
      · rename_i heq; cases heq
      · rename_i heq; exact absurd (List.cons.inj heq).1 hc
      · rename_i heq; exact absurd (List.cons.inj heq).1 hc
      · rename_i h1 h2; cases h1; cases h2; rfl
    rw [e, subst_text fun h' => h (List.mem_cons_of_mem _ h')]; rfl

theorem subst_ref {names : List Str} {env : Str → Option Str} {k : Nat} {n r : Str} (hn : ShellName n)
    (hin : n ∈ names) :
    substGo names env (k + 1) ("${".toList ++ n ++ "}".toList ++ r) = (env n).getD [] ++ substGo names env k r := by
  have e : "${".toList ++ n ++ "}".toList ++ r = '$' :: '{' :: (n ++ '}' :: r) := by
    simp
  rw [e]
  show (match ident (n ++ '}' :: r) with
    | (n, '}' :: r) =>
      if n ∈ names then (env n).getD [] ++ substGo names env k r
      else "${".toList ++ n ++ substGo names env k ('}' :: r)
    | (n, r) => "${".toList ++ n ++ substGo names env k r) = _
  rw [ident_name hn]
  exact if_pos hin

theorem substGo_pieces {names : List Str} {env : Str → Option Str} : ∀ {ps : List Piece} {k : Nat}, (∀ p ∈ ps, p.Ok) →
    (∀ n, Piece.ref n ∈ ps → n ∈ names) → (written ps).length < k →
    substGo names env k (written ps) = (ps.map (Piece.meant fun n => (env n).getD [])).flatten
  | [], k, _, _, hk => by
    obtain ⟨j, rfl⟩ : ∃ j, k = j + 1 := ⟨k - 1, by omega⟩
    rfl
  | .text s :: ps, k, hok, hin, hk => by
    have hs : '$' ∉ s := hok _ List.mem_cons_self
    rw [written_cons] at hk ⊢
    have hl : (Piece.text s).written = s := rfl
    rw [hl, List.length_append] at hk
    rw [hl]
    obtain ⟨j, rfl⟩ : ∃ j, k = s.length + j := ⟨k - s.length, by omega⟩
    rw [subst_text hs, substGo_pieces (fun p hp => hok p (List.mem_cons_of_mem _ hp))
      (fun n hn => hin n (List.mem_cons_of_mem _ hn)) (by omega)]
    rfl
  | .ref m :: ps, k, hok, hin, hk => by
    have hm : ShellName m := hok _ List.mem_cons_self
    rw [written_cons] at hk ⊢
    have hl : (Piece.ref m).written = "${".toList ++ m ++ "}".toList := rfl
    rw [hl, List.length_append, List.length_append, List.length_append] at hk
    rw [hl]
    have h2 : ("${".toList).length = 2 := rfl
    obtain ⟨j, rfl⟩ : ∃ j, k = j + 1 := ⟨k - 1, by omega⟩
    rw [subst_ref hm (hin m List.mem_cons_self), substGo_pieces (fun p hp => hok p (List.mem_cons_of_mem _ hp))
      (fun n hn => hin n (List.mem_cons_of_mem _ hn)) (by omega)]
    rfl

/-- C198: in the result each reference is the value of its variable, and all else is as in the template, if the
names are names for a shell, and a variable that has no value is not in the environment. -/
theorem template_partial {environ get : Str → Option Str} {tvars : List Str} {ps : List Piece} (hok : ∀ p ∈ ps, p.Ok)
    (hout : ∀ n, Piece.ref n ∈ ps → valueOf get n = [] → environ n = none) :
    transform environ get tvars (written ps) = (ps.map (Piece.meant (valueOf get))).flatten := by
  unfold transform subst
  dsimp only
  have hin : ∀ n, Piece.ref n ∈ ps → n ∈ tvars ++ findVars ((written ps).length + 1) (written ps) := fun n hn =>
    List.mem_append_right _ (found_all hok (Nat.lt_succ_self _) hn)
  rw [substGo_pieces hok hin (Nat.lt_succ_self _)]
  congr 1
  refine List.map_congr_left fun p hp => ?_
  cases p with
  | text s => rfl
  | ref n =>
    show (envOf environ _ get n).getD [] = valueOf get n
    unfold envOf
    rw [if_pos (hin n hp)]
    have h0 := hout n hp
    unfold valueOf at h0 ⊢
    cases hg : get n with
    | none => rw [hg] at h0; show (environ n).getD [] = []; rw [h0 rfl]; rfl
    | some v =>
      cases v with
      | nil => rw [hg] at h0; show (environ n).getD [] = []; rw [h0 rfl]; rfl
      | cons c v => rfl

/-- The hypotheses are met, with a value that looks like a reference. -/
example : transform (fun n => if n = "HOME".toList then some "/root".toList else none)
    (fun n => if n = "A".toList then some "x${B}".toList else none) ["PN".toList]
    "part ${A} -${B}-".toList = "part x${B} --".toList := by decide +kernel

/-- C198: a variable without a value gets the one that the environment of the build has. -/
theorem from_outside :
    transform (fun n => if n = "HOME".toList then some "/root".toList else none) (fun _ => none) []
      "--label ${HOME}".toList = "--label /root".toList := by decide +kernel

/-- C198: a name that is none for a shell stays in the text, though the variable has a value. -/
theorem not_for_shell :
    transform (fun _ => none) (fun n => if n = "A-B".toList then some "x".toList else none) []
      "--label ${A-B}".toList = "--label ${A-B}".toList := by decide +kernel

/-- C198: a dollar without braces is a reference too, if the same name is among the variables. -/
theorem without_braces :
    transform (fun _ => none) (fun n => if n = "PN".toList then some "x".toList else none) ["PN".toList]
      "price $PN".toList = "price x".toList := by decide +kernel

/-! ## C196: the variables for wic -/

/-- A name of a variable as wic reads it. -/
def Key (k : Str) : Prop := k ≠ [] ∧ ∀ c ∈ k, c.isAlphanum ∨ c ∈ ['-', '_', '+', '.', '/', '~']

/-- A value of one line, without quotes at its ends. -/
def Line (v : Str) : Prop := '\n' ∉ v ∧ '\r' ∉ v ∧ v.head? ≠ some '"' ∧ v.getLast? ≠ some '"'

/-- What is to be read for a variable: its value without the white space around it, if it is in the list and not
empty. -/
def meantEnv (get : Str → Option Str) (vars : List Str) (v : Str) : Option Str :=
  if v ∈ vars then
    match get v with
    | none => none
    | some x => if x = [] then none else some (strip x)
  else none

theorem keyChar_iff (c : Char) : keyChar c = true ↔ c.isAlphanum ∨ c ∈ ['-', '_', '+', '.', '/', '~'] := by
  unfold keyChar
  rw [Bool.or_eq_true, List.contains_iff_mem]
  rfl

theorem stripQuotes_quoted {v : Str} (h1 : v.head? ≠ some '"') (h2 : v.getLast? ≠ some '"') :
    stripQuotes ('"' :: v ++ ['"']) = v := by
  unfold stripQuotes
  have e1 : ('"' :: v ++ ['"']).dropWhile (· == '"') = (v ++ ['"']).dropWhile (· == '"') := rfl
  rw [e1]
  cases v with
  | nil => rfl
  | cons c v =>
    have hc : (c == '"') = false := by
      rw [beq_eq_false_iff_ne]; intro e; exact h1 (by rw [e]; rfl)
    have e2 : (c :: v ++ ['"']).dropWhile (· == '"') = c :: v ++ ['"'] := by
      rw [List.cons_append, List.dropWhile_cons, hc]; rfl
    rw [e2]
    obtain ⟨ini, l, e⟩ : ∃ ini l, c :: v = ini ++ [l] :=
      ⟨(c :: v).dropLast, (c :: v).getLast (by simp), (List.dropLast_concat_getLast _).symm⟩
    rw [e] at h2 ⊢
    have hl : (l == '"') = false := by
      rw [beq_eq_false_iff_ne]; intro e; exact h2 (by rw [e, List.getLast?_concat])
    rw [List.reverse_append, List.reverse_append]
    show (('"' :: l :: ini.reverse).dropWhile (· == '"')).reverse = _
    rw [List.dropWhile_cons]
    show ((l :: ini.reverse).dropWhile (· == '"')).reverse = _
    rw [List.dropWhile_cons, hl]
    show (l :: ini.reverse).reverse = _
    rw [List.reverse_cons, List.reverse_reverse]

theorem parse_written {k v : Str} (hk : Key k) (hv : Line v) :
    parseLine (k ++ "=\"".toList ++ v ++ ['"']) = some (k, v) := by
  have e : k ++ "=\"".toList ++ v ++ ['"'] = k ++ '=' :: ('"' :: v ++ ['"']) := by simp
  unfold parseLine
  rw [e, takeWhile_append_stop (fun x hx => (keyChar_iff x).2 (hk.2 x hx)) (by decide),
    dropWhile_append_stop (fun x hx => (keyChar_iff x).2 (hk.2 x hx)) (by decide)]
  obtain ⟨c, r, rfl⟩ := List.exists_cons_of_ne_nil hk.1
  show some (c :: r, stripQuotes ('"' :: v ++ ['"'])) = _
  rw [stripQuotes_quoted hv.2.2.1 hv.2.2.2]

theorem newline_id {s : Str} (h : '\r' ∉ s) : s.map newline = s := by
  have : s.map newline = s.map id := List.map_congr_left fun c hc => by
    have hne : c ≠ '\r' := fun e => h (e ▸ hc)
    show (if c = '\r' then '\n' else c) = c
    rw [if_neg hne]
  rw [this, List.map_id]

theorem key_clean {k : Str} (hk : Key k) : '\n' ∉ k ∧ '\r' ∉ k := by
  constructor <;> intro h <;> exact absurd (hk.2 _ h) (by decide)

/-- Reading on, from what there is. -/
def readFrom (d : Dict Str) (s : Str) : Dict Str := (splitOn '\n' (s.map newline)).foldl addLine d

theorem read_line {d : Dict Str} {k v r : Str} (hk : Key k) (hv : Line v) :
    readFrom d (k ++ "=\"".toList ++ v ++ "\"\n".toList ++ r) = readFrom (Dict.set d k v) r := by
  have e : k ++ "=\"".toList ++ v ++ "\"\n".toList ++ r = (k ++ "=\"".toList ++ v ++ ['"']) ++ '\n' :: r := by simp
  have hkc := key_clean hk
  have hm : ∀ c, c ∉ k → c ∉ v → c ∉ "=\"".toList → c ∉ ['"'] → c ∉ k ++ "=\"".toList ++ v ++ ['"'] := by
    intro c h1 h2 h3 h4 h
    rcases List.mem_append.1 h with h | h
    · rcases List.mem_append.1 h with h | h
      · rcases List.mem_append.1 h with h | h
        · exact h1 h
        · exact h3 h
      · exact h2 h
    · exact h4 h
  unfold readFrom
  rw [e, List.map_append, newline_id (hm _ hkc.2 hv.2.1 (by decide) (by decide)), List.map_cons]
  have hn : newline '\n' = '\n' := by decide
  rw [hn, splitOn_append, splitOn_clean _ _ (hm _ hkc.1 hv.1 (by decide) (by decide)), List.foldl_append]
  congr 1
  show addLine d (k ++ "=\"".toList ++ v ++ ['"']) = _
  unfold addLine
  rw [parse_written hk hv]

theorem read_vars {get : Str → Option Str} (v : Str) : ∀ {vars : List Str} {d : Dict Str}, (∀ k ∈ vars, Key k) →
    (∀ k ∈ vars, ∀ x, get k = some x → Line (strip x)) →
    (readFrom d (writeEnv get vars)).lookup v =
      match meantEnv get vars v with
      | some x => some x
      | none => d.lookup v
  | [], d, _, _ => by
    have : meantEnv get [] v = none := rfl
    rw [this]; rfl
  | k :: vars, d, hk, hl => by
    have ih := fun d' => read_vars (get := get) v (vars := vars) (d := d') (fun k h => hk k (List.mem_cons_of_mem _ h))
      (fun k h => hl k (List.mem_cons_of_mem _ h))
    have hcons : writeEnv get (k :: vars) = envLine get k ++ writeEnv get vars := rfl
    have hne : k ≠ v → meantEnv get (k :: vars) v = meantEnv get vars v := by
      intro h
      unfold meantEnv
      by_cases hm : v ∈ vars
      · rw [if_pos hm, if_pos (List.mem_cons_of_mem _ hm)]
      · rw [if_neg hm, if_neg]
        intro h'
        rcases List.mem_cons.1 h' with h' | h'
        · exact h h'.symm
        · exact hm h'
    by_cases hg : ∃ c x, get k = some (c :: x)
    · obtain ⟨c, x, hg⟩ := hg
      have el : envLine get k = k ++ "=\"".toList ++ strip (c :: x) ++ "\"\n".toList := by
        unfold envLine; rw [hg]
      rw [hcons, el, read_line (hk k List.mem_cons_self) (hl k List.mem_cons_self _ hg), ih, Dict.lookup_set]
      by_cases hv : k = v
      · subst hv
        have h1 : meantEnv get (k :: vars) k = some (strip (c :: x)) := by
          unfold meantEnv
          rw [if_pos List.mem_cons_self, hg]
          show (if c :: x = [] then none else some (strip (c :: x))) = _
          rw [if_neg (by simp)]
        rw [h1]
        by_cases hm : k ∈ vars
        · have h2 : meantEnv get vars k = some (strip (c :: x)) := by
            unfold meantEnv
            rw [if_pos hm, hg]
            show (if c :: x = [] then none else some (strip (c :: x))) = _
            rw [if_neg (by simp)]
          rw [h2]
        · have h2 : meantEnv get vars k = none := if_neg hm
          rw [h2]
          simp
      · rw [hne hv]
        have hv' : v ≠ k := fun e => hv e.symm
        simp only [hv', if_false]
    · have el : envLine get k = [] := by
        unfold envLine
        split
        · rename_i h; exact absurd ⟨_, _, h⟩ hg
        · rfl
      rw [hcons, el, List.nil_append, ih]
      by_cases hv : k = v
      · subst hv
        have hnone : ∀ l, meantEnv get l k = none := by
          intro l
          unfold meantEnv
          split
          · cases hgk : get k with
            | none => rfl
            | some y =>
              cases y with
              | nil => rfl
              | cons c x => exact absurd ⟨c, x, hgk⟩ hg
          · rfl
        rw [hnone, hnone]
      · rw [hne hv]

/-- C196: each variable is read as it was written; one that is not in the list or has no value is not there. -/
theorem env_partial {get : Str → Option Str} {vars : List Str} (hk : ∀ k ∈ vars, Key k)
    (hl : ∀ k ∈ vars, ∀ x, get k = some x → Line (strip x)) (v : Str) :
    (readEnv (writeEnv get vars)).lookup v = meantEnv get vars v := by
  have := read_vars (get := get) v (d := []) hk hl
  rw [show readEnv (writeEnv get vars) = readFrom [] (writeEnv get vars) from rfl, this]
  cases meantEnv get vars v <;> rfl

/-- The hypotheses are met: a value with quotes and `=` in it, an empty one and white space around one. -/
example : [["A", "B", "C", "D"].map fun v => (readEnv (writeEnv (fun n => if n = "A".toList then some " a=\"b\" c ".toList
      else if n = "B".toList then some [] else if n = "C".toList then some "C=1".toList else none)
      ["A".toList, "B".toList, "C".toList])).lookup v.toList] =
    [[some "a=\"b\" c".toList, none, some "C=1".toList, none]] := by decide +kernel

/-- C196: a value that ends with a quote loses it. -/
theorem quote_lost :
    (readEnv (writeEnv (fun _ => some "a \"b\"".toList) ["A".toList])).lookup "A".toList = some "a \"b".toList := by
  decide +kernel

/-- C196: of a value of two lines the first is read, and the second may be another variable. -/
theorem second_line :
    [(readEnv (writeEnv (fun n => if n = "A".toList then some "x\nB=y".toList else none) ["A".toList, "B".toList])).lookup "A".toList,
     (readEnv (writeEnv (fun n => if n = "A".toList then some "x\nB=y".toList else none) ["A".toList, "B".toList])).lookup "B".toList] =
    [some "x".toList, some "y".toList] := by decide +kernel

/-! ### Asking again -/

/-- What is kept is what is in the files. -/
def Right (file : Str → Option Str) (kept : Kept) : Prop :=
  ∀ i d, (some i, d) ∈ kept → ∃ s, file i = some s ∧ d = readEnv s

theorem mem_of_lookup {α β : Type} [BEq α] [LawfulBEq α] {l : List (α × β)} {a : α} {b : β} (h : l.lookup a = some b) :
    (a, b) ∈ l := by
  induction l with
  | nil => cases h
  | cons e l ih =>
    obtain ⟨x, y⟩ := e
    rw [List.lookup_cons] at h
    split at h
    · rename_i hx; cases h; rw [eq_of_beq hx]; exact List.mem_cons_self
    · exact List.mem_cons_of_mem _ (ih h)

/-- The image that is asked about: the one given, or the default. -/
def imageOf (deflt : Str) : Option Str → Str
  | some i => if i = [] then deflt else i
  | none => deflt

/-- What is to be answered: what is in the file of the image. -/
def answer (file : Str → Option Str) (deflt : Str) (var : Str) (image : Option Str) : Option Str :=
  match file (imageOf deflt image) with
  | none => none
  | some s => (readEnv s).lookup var

theorem image_eq (deflt : Str) (image : Option Str) :
    asked deflt image = imageOf deflt image := by
  cases image with
  | none => rfl
  | some i => cases i <;> rfl

theorem ask_right {file : Str → Option Str} {deflt : Str} {kept : Kept} (var : Str) (image : Option Str) (cache : Bool)
    (h : Right file kept) :
    (getVar file deflt kept var image cache).1 = answer file deflt var image ∧
    Right file (getVar file deflt kept var image cache).2 := by
  unfold getVar answer
  dsimp only
  rw [image_eq]
  cases hk : kept.lookup (some (imageOf deflt image)) with
  | some d =>
    obtain ⟨s, hs, rfl⟩ := h _ _ (mem_of_lookup hk)
    refine ⟨by rw [hs], ?_⟩
    dsimp only
    split
    · exact h
    · exact fun i d hm => h i d (List.mem_filter.1 hm).1
  | none =>
    cases hf : file (imageOf deflt image) with
    | none => exact ⟨rfl, h⟩
    | some s =>
      have h1 : Right file ((some (imageOf deflt image), readEnv s) :: kept) := by
        intro i d hm
        rcases List.mem_cons.1 hm with hm | hm
        · cases hm; exact ⟨s, hf, rfl⟩
        · exact h i d hm
      have h2 : ∀ (p : Prop) [Decidable p], Right file (if p then (none, readEnv s) :: (some (imageOf deflt image), readEnv s) :: kept
          else (some (imageOf deflt image), readEnv s) :: kept) := by
        intro p _
        split
        · intro i d hm
          rcases List.mem_cons.1 hm with hm | hm
          · cases hm
          · exact h1 i d hm
        · exact h1
      refine ⟨rfl, ?_⟩
      dsimp only
      split
      · exact h2 _
      · exact fun i d hm => h2 _ i d (List.mem_filter.1 hm).1

/-- C196: whatever was asked before, each answer is what is in the file of the image that is asked about, or of the
default one. -/
theorem answers {file : Str → Option Str} {deflt : Str} : ∀ {qs : List (Str × Option Str × Bool)} {kept : Kept},
    Right file kept → asks file deflt kept qs = qs.map fun q => answer file deflt q.1 q.2.1
  | [], _, _ => rfl
  | q :: qs, kept, h => by
    have := ask_right (deflt := deflt) q.1 q.2.1 q.2.2 h
    unfold asks
    rw [this.1, answers this.2]; rfl

/-- The hypothesis is met at the start. -/
example (file : Str → Option Str) : Right file [] := fun _ _ h => nomatch h

/-- Two images, with and without keeping. -/
example : asks (fun i => if i = "a".toList then some "X=\"1\"\n".toList else if i = "b".toList then some "X=\"2\"\n".toList else none)
    "a".toList [] [("X".toList, none, true), ("X".toList, some "b".toList, false), ("X".toList, some "c".toList, true),
      ("X".toList, some "b".toList, true), ("Y".toList, none, true)] =
    [some "1".toList, some "2".toList, none, some "2".toList, none] := by decide +kernel

end Meta.Wks
