import Verif.Meta.AptSpec
/-! # Lemmas about apt sources -/

namespace Isar.Apt
open Py Spec

theorem nonWs_of {c : Char} (h : isWs c = false) : nonWs c = true := by simp [nonWs, h]

theorem lstrip_ws {w : Str} (hw : ∀ c ∈ w, isWs c = true) (s : Str) :
    lstrip (w ++ s) = lstrip s := by
  unfold lstrip
  exact List.dropWhile_append_of_pos hw

theorem lstrip_cons {c : Char} (h : isWs c = false) (s : Str) : lstrip (c :: s) = c :: s := by
  unfold lstrip
  rw [List.dropWhile_cons]
  simp [h]

theorem lstrip_sp (s : Str) : lstrip (' ' :: s) = lstrip s := by
  unfold lstrip
  rw [List.dropWhile_cons]
  rfl

theorem isWord_cons {w : Str} (h : IsWord w) : ∃ c cs, w = c :: cs ∧ isWs c = false := by
  obtain ⟨hne, hw⟩ := h
  cases w with
  | nil => exact absurd rfl hne
  | cons c cs => exact ⟨c, cs, rfl, hw c List.mem_cons_self⟩

theorem lstrip_word {w : Str} (h : IsWord w) (s : Str) : lstrip (w ++ s) = w ++ s := by
  obtain ⟨c, cs, rfl, hc⟩ := isWord_cons h
  exact lstrip_cons hc _

theorem rstrip_ws {w : Str} (hw : ∀ c ∈ w, isWs c = true) (s : Str) :
    rstrip (s ++ w) = rstrip s := by
  unfold rstrip
  rw [List.reverse_append]
  congr 1
  exact List.dropWhile_append_of_pos (fun c hc => hw c (List.mem_reverse.1 hc))

theorem rstrip_concat {c : Char} (h : isWs c = false) (s : Str) : rstrip (s ++ [c]) = s ++ [c] := by
  unfold rstrip
  rw [List.reverse_append, List.reverse_singleton, List.singleton_append, List.dropWhile_cons]
  simp [h]

theorem rstrip_word {w : Str} (h : IsWord w) (s : Str) : rstrip (s ++ w) = s ++ w := by
  obtain ⟨hne, hw⟩ := h
  obtain ⟨t, c, rfl⟩ : ∃ t c, w = t ++ [c] :=
    ⟨w.dropLast, w.getLast hne, (List.dropLast_concat_getLast hne).symm⟩
  rw [← List.append_assoc]
  exact rstrip_concat (hw c (List.mem_append.2 (Or.inr List.mem_cons_self))) _

theorem strip_words {a b : Str} (ha : IsWord a) (hb : IsWord b) (s w w' : Str)
    (hw : ∀ c ∈ w, isWs c = true) (hw' : ∀ c ∈ w', isWs c = true) :
    strip (w ++ (a ++ (s ++ b)) ++ w') = a ++ (s ++ b) := by
  unfold strip
  rw [List.append_assoc, lstrip_ws hw, List.append_assoc, lstrip_word ha]
  rw [← List.append_assoc, rstrip_ws hw', ← List.append_assoc]
  exact rstrip_word hb _

theorem takeWhile_word {w : Str} (h : ∀ c ∈ w, isWs c = false) {c : Char} (hc : isWs c = true)
    (s : Str) : (w ++ c :: s).takeWhile nonWs = w := by
  rw [List.takeWhile_append_of_pos fun x hx => nonWs_of (h x hx), List.takeWhile_cons]
  simp [nonWs, hc]

theorem dropWhile_word {w : Str} (h : ∀ c ∈ w, isWs c = false) {c : Char} (hc : isWs c = true)
    (s : Str) : (w ++ c :: s).dropWhile nonWs = c :: s := by
  rw [List.dropWhile_append_of_pos fun x hx => nonWs_of (h x hx), List.dropWhile_cons]
  simp [nonWs, hc]

theorem isWs_sp : isWs ' ' = true := by decide

theorem split1_word {w : Str} (h : IsWord w) (s : Str) :
    split1 (w ++ ' ' :: s) = some (w, lstrip s) := by
  unfold split1
  rw [dropWhile_word h.2 isWs_sp]
  simp only [takeWhile_word h.2 isWs_sp, lstrip_sp]

theorem isOpt_option {o : Str} (h : Option' o) : isOpt o = true := by
  obtain ⟨k, v, ⟨hk, _⟩, ⟨hv, _⟩, rfl⟩ := h
  unfold isOpt
  cases k with
  | nil => exact absurd rfl hk
  | cons c k =>
    rw [List.cons_append, List.tail_cons, List.dropLast_append_of_ne_nil (by simp)]
    cases v with
    | nil => exact absurd rfl hv
    | cons d v => simp [List.dropLast]

theorem isOpt_option' {o : Str} (h : Option' o) : isOpt (o ++ [']']) = true := by
  obtain ⟨k, v, hk, hv, rfl⟩ := h
  refine isOpt_option ⟨k, v ++ [']'], hk, ?_, by simp⟩
  refine ⟨by simp, fun c hc => ?_⟩
  rcases List.mem_append.1 hc with hc | hc
  · exact hv.2 c hc
  · rw [List.mem_singleton] at hc; subst hc; decide

theorem option_isWord {o : Str} (h : Option' o) : IsWord o := by
  obtain ⟨k, v, hk, hv, rfl⟩ := h
  refine ⟨by simp, fun c hc => ?_⟩
  rcases List.mem_append.1 hc with hc | hc
  · exact hk.2 c hc
  · rcases List.mem_cons.1 hc with rfl | hc
    · decide
    · exact hv.2 c hc

theorem isWord_concat {o : Str} (h : IsWord o) : IsWord (o ++ [']']) := by
  refine ⟨by simp, fun c hc => ?_⟩
  rcases List.mem_append.1 hc with hc | hc
  · exact h.2 c hc
  · rw [List.mem_singleton] at hc; subst hc; decide

/-- What comes behind the location: does not begin with `]` (after whitespace). -/
def TailOk (u : Str) : Prop := (lstrip u).head? ≠ some ']'

theorem closeA_none {r rest : Str} (h : (lstrip rest).head? ≠ some ']') : closeA r rest = none := by
  unfold closeA
  split
  · rename_i t ht
    rw [ht] at h
    exact absurd rfl h
  · rfl

theorem closeAfter_source {src u : Str} (hl : src.getLast? ≠ some ']') (hu : TailOk u) :
    closeAfter src (' ' :: u) = none := by
  unfold closeAfter
  rw [closeA_none (by rw [lstrip_sp]; exact hu)]
  unfold closeB
  simp [hl]

theorem location_head {src u : Str} (hs : Location src) : (src ++ u).head? = src.head? := by
  obtain ⟨c, cs, rfl, hc⟩ := isWord_cons hs.1
  rfl

theorem closeAfter_close {o src u : Str} (ho : Option' o) (hs : Location src) :
    closeAfter (o ++ [']']) (' ' :: (src ++ ' ' :: u)) = some (src ++ ' ' :: u) := by
  unfold closeAfter
  rw [closeA_none (by rw [lstrip_sp, lstrip_word hs.1, location_head hs]; exact hs.2.2.1)]
  unfold closeB
  rw [lstrip_sp, lstrip_word hs.1, if_pos]
  · rfl
  · simp [isOpt_option ho, wsHead, isWs_sp]

theorem optMatch_none {src u : Str} (hs : Location src) : optMatch (src ++ ' ' :: u) = none := by
  obtain ⟨c, cs, rfl, hc⟩ := isWord_cons hs.1
  unfold optMatch
  split
  · rename_i s h
    rw [List.cons_append] at h
    have := (List.cons.inj h).1
    subst this
    exact absurd rfl hs.2.1
  · rfl

theorem optMatch_one {o src u : Str} (ho : Option' o) (hs : Location src) (hu : TailOk u) :
    optMatch ('[' :: o ++ [']'] ++ ' ' :: (src ++ ' ' :: u)) = some (src ++ ' ' :: u) := by
  have hw := isWord_concat (option_isWord ho)
  have e : '[' :: o ++ [']'] ++ ' ' :: (src ++ ' ' :: u)
      = '[' :: ((o ++ [']']) ++ ' ' :: (src ++ ' ' :: u)) := by simp
  rw [e]
  unfold optMatch
  simp only [lstrip_word hw, takeWhile_word hw.2 isWs_sp, dropWhile_word hw.2 isWs_sp,
    isOpt_option' ho, wsHead, isWs_sp, Bool.and_self, if_true, lstrip_sp, lstrip_word hs.1,
    takeWhile_word hs.1.2 isWs_sp, dropWhile_word hs.1.2 isWs_sp,
    closeAfter_source hs.2.2.2 hu, closeAfter_close ho hs, Option.none_or]

theorem optMatch_two {o o' src u : Str} (ho : Option' o) (ho' : Option' o') (hs : Location src) :
    optMatch ('[' :: o ++ ' ' :: o' ++ [']'] ++ ' ' :: (src ++ ' ' :: u))
      = some (src ++ ' ' :: u) := by
  have hw := option_isWord ho
  have hw' := isWord_concat (option_isWord ho')
  have e : '[' :: o ++ ' ' :: o' ++ [']'] ++ ' ' :: (src ++ ' ' :: u)
      = '[' :: (o ++ ' ' :: ((o' ++ [']']) ++ ' ' :: (src ++ ' ' :: u))) := by simp
  rw [e]
  unfold optMatch
  simp only [lstrip_word hw, takeWhile_word hw.2 isWs_sp, dropWhile_word hw.2 isWs_sp,
    isOpt_option ho, wsHead, isWs_sp, Bool.and_self, if_true, lstrip_sp, lstrip_word hw',
    takeWhile_word hw'.2 isWs_sp, dropWhile_word hw'.2 isWs_sp, closeAfter_close ho' hs, Option.some_or]

theorem take_sub (a b : Str) : (a ++ b).take ((a ++ b).length - b.length) = a := by
  rw [List.length_append, Nat.add_sub_cancel, List.take_left]

theorem strip_bracket (m : Str) : strip ('[' :: m ++ [']'] ++ [' ']) = '[' :: m ++ [']'] := by
  have := strip_words (a := ['[']) (b := [']']) ⟨by simp, by decide⟩ ⟨by simp, by decide⟩ m []
    [' '] (by simp) (by decide)
  simpa using this

/-- Words joined by spaces begin and end with a word. -/
theorem words_ends {s : Str} (h : Words s) : ∃ t w, IsWord w ∧ s = t ++ w := by
  obtain ⟨ws, hne, hws, rfl⟩ := h
  induction ws with
  | nil => exact absurd rfl hne
  | cons a ws ih =>
    cases ws with
    | nil => exact ⟨[], a, hws a List.mem_cons_self, rfl⟩
    | cons b ws =>
      obtain ⟨t, w, hw, h⟩ := ih (by simp) fun w hw => hws w (List.mem_cons_of_mem _ hw)
      refine ⟨a ++ " ".toList ++ t, w, hw, ?_⟩
      rw [join, h]
      simp

theorem words_head {s : Str} (h : Words s) : ∃ c t, isWs c = false ∧ s = c :: t := by
  obtain ⟨ws, hne, hws, rfl⟩ := h
  cases ws with
  | nil => exact absurd rfl hne
  | cons a ws =>
    obtain ⟨c, cs, rfl, hc⟩ := isWord_cons (hws a List.mem_cons_self)
    cases ws with
    | nil => exact ⟨c, cs, hc, rfl⟩
    | cons b ws => exact ⟨c, _, hc, rfl⟩

theorem words_join_self {s : Str} (h : Words s) : join " ".toList (words s) = s := by
  obtain ⟨ws, _, hws, rfl⟩ := h
  have : words (join " ".toList ws) = ws := words_join_sp ws hws
  rw [this]

theorem render_eq (e : Entry) : render e =
    e.type ++ ' ' :: (e.options ++ ' ' :: (e.source ++ ' ' :: (e.suite ++ ' ' :: e.components))) := by
  unfold render
  simp [join]

theorem isWord_deb : IsWord "deb".toList := ⟨by decide, by decide⟩
theorem isWord_debsrc : IsWord "deb-src".toList := ⟨by decide, by decide⟩

/-- Reading a written entry gives the entry back. -/
theorem parse_render {e : Entry} (h : Wf e) (w w' : Str) (hw : ∀ c ∈ w, isWs c = true)
    (hw' : ∀ c ∈ w', isWs c = true) : parseLine (w ++ render e ++ w') = some (some e) := by
  obtain ⟨type, options, source, suite, components⟩ := e
  obtain ⟨htype, hopt, hsrc, hsuite, hcomp⟩ := h
  simp only at htype hopt hsrc hsuite hcomp
  have htw : IsWord type := by rcases htype with rfl | rfl; exact isWord_deb; exact isWord_debsrc
  obtain ⟨ct, cw, hcw, hct⟩ := words_ends hcomp
  -- the stripped line
  have hstrip : strip (w ++ render ⟨type, options, source, suite, components⟩ ++ w')
      = type ++ ' ' :: (options ++ ' ' :: (source ++ ' ' :: (suite ++ ' ' :: components))) := by
    rw [render_eq]
    simp only [hct]
    have := strip_words htw hcw
      (' ' :: (options ++ ' ' :: (source ++ ' ' :: (suite ++ ' ' :: ct)))) w w' hw hw'
    simpa using this
  -- what follows the location
  have htail : TailOk (suite ++ ' ' :: components) := by
    unfold TailOk
    rcases hsuite with ⟨hs, _, h2⟩ | ⟨rfl, h2⟩
    · rw [lstrip_word hs]
      obtain ⟨c, cs, rfl, _⟩ := isWord_cons hs
      exact h2
    · rw [List.nil_append, lstrip_sp]
      obtain ⟨c, t, hc, rfl⟩ := words_head hcomp
      rw [lstrip_cons hc]
      simp only [List.head?_cons, Option.some.injEq] at h2 ⊢
      subst h2; decide
  have hu := htail
  generalize hU : suite ++ ' ' :: components = u at *
  -- the options
  have hoptm : takeOptions (lstrip (options ++ ' ' :: (source ++ ' ' :: u)))
      = (options, source ++ ' ' :: u) := by
    unfold takeOptions
    rcases hopt with rfl | ⟨o, ho, rfl⟩ | ⟨o, o', ho, ho', rfl⟩
    · rw [List.nil_append, lstrip_sp, lstrip_word hsrc.1, optMatch_none hsrc]
    · have e0 : lstrip ('[' :: o ++ [']'] ++ ' ' :: (source ++ ' ' :: u))
          = '[' :: o ++ [']'] ++ ' ' :: (source ++ ' ' :: u) := lstrip_cons (by decide) _
      rw [e0, optMatch_one ho hsrc hu]
      have e1 : '[' :: o ++ [']'] ++ ' ' :: (source ++ ' ' :: u)
          = ('[' :: o ++ [']'] ++ [' ']) ++ (source ++ ' ' :: u) := by simp
      simp only [e1, take_sub, strip_bracket]
    · have e0 : lstrip ('[' :: o ++ ' ' :: o' ++ [']'] ++ ' ' :: (source ++ ' ' :: u))
          = '[' :: o ++ ' ' :: o' ++ [']'] ++ ' ' :: (source ++ ' ' :: u) :=
        lstrip_cons (by decide) _
      rw [e0, optMatch_two ho ho' hsrc]
      have e1 : '[' :: o ++ ' ' :: o' ++ [']'] ++ ' ' :: (source ++ ' ' :: u)
          = ('[' :: (o ++ ' ' :: o') ++ [']'] ++ [' ']) ++ (source ++ ' ' :: u) := by simp
      have e2 : '[' :: o ++ ' ' :: o' ++ [']'] = '[' :: (o ++ ' ' :: o') ++ [']'] := by simp
      rw [e1, e2]
      simp only [take_sub, strip_bracket]
  have hnot : ¬ (type ++ ' ' :: (options ++ ' ' :: (source ++ ' ' :: u)) = [] ∨
      startsWith (type ++ ' ' :: (options ++ ' ' :: (source ++ ' ' :: u))) "#".toList = true) := by
    rintro (h | h)
    · exact htw.1 (List.append_eq_nil_iff.1 h).1
    · rw [startsWith_iff] at h
      obtain ⟨t, h⟩ := h
      rcases htype with rfl | rfl
      · exact absurd (List.cons.inj h).1 (by decide)
      · exact absurd (List.cons.inj h).1 (by decide)
  have htt : ¬ (type ≠ "deb".toList ∧ type ≠ "deb-src".toList) := by
    rintro ⟨h1, h2⟩
    rcases htype with h | h
    · exact h1 h
    · exact h2 h
  unfold parseLine
  simp only [hstrip, hnot, if_false]
  rw [split1_word htw]
  simp only [Option.bind_eq_bind, Option.bind_some, htt, if_false]
  rw [hoptm]
  simp only []
  rw [split1_word hsrc.1]
  simp only [Option.bind_some]
  subst hU
  rcases hsuite with ⟨hs, h1, _⟩ | ⟨rfl, h2⟩
  · have hl : lstrip (suite ++ ' ' :: components) = suite ++ ' ' :: components := lstrip_word hs _
    have hns : startsWith (suite ++ ' ' :: components) "/".toList = false := by
      cases hh : startsWith (suite ++ ' ' :: components) "/".toList with
      | false => rfl
      | true =>
        obtain ⟨t, ht⟩ := startsWith_iff.1 hh
        obtain ⟨c, cs, rfl, _⟩ := isWord_cons hs
        have := (List.cons.inj ht).1
        subst this
        exact absurd rfl h1
    rw [hl, hns]
    simp only [Bool.false_eq_true, if_false]
    rw [split1_word hs]
    simp only [Option.bind_some]
    obtain ⟨c, t, hc, hcc⟩ := words_head hcomp
    have : lstrip components = components := by rw [hcc]; exact lstrip_cons hc _
    rw [this, words_join_self hcomp]
  · obtain ⟨c, t, hc, hcc⟩ := words_head hcomp
    have hl : lstrip ([] ++ ' ' :: components) = components := by
      rw [List.nil_append, lstrip_sp, hcc]; exact lstrip_cons hc _
    have hsl : startsWith components "/".toList = true := by
      rw [hcc] at h2 ⊢
      simp only [List.head?_cons, Option.some.injEq] at h2
      subst h2
      exact startsWith_iff.2 ⟨t, rfl⟩
    rw [hl, hsl]
    simp only [if_true]
    rw [words_join_self hcomp]

/-! ## Whole files -/

theorem dropWhile_nil {p : Char → Bool} {l : Str} : l.dropWhile p = [] ↔ ∀ c ∈ l, p c = true := by
  induction l with
  | nil => simp
  | cons a l ih =>
    rw [List.dropWhile_cons]
    by_cases h : p a = true
    · simp only [h, if_true, ih, List.mem_cons, forall_eq_or_imp, true_and]
    · simp [h]

theorem strip_append_ws (l w : Str) (hw : ∀ c ∈ w, isWs c = true) : strip (l ++ w) = strip l := by
  unfold strip
  by_cases h : lstrip l = []
  · have hall : ∀ c ∈ l, isWs c = true := by
      unfold lstrip at h
      exact fun c hc => (dropWhile_nil.1 h) c hc
    rw [lstrip_ws hall, h]
    have : lstrip w = [] := by
      unfold lstrip; exact dropWhile_nil.2 hw
    rw [this]
  · have : lstrip (l ++ w) = lstrip l ++ w := by
      unfold lstrip at h ⊢
      rw [List.dropWhile_append]
      simp [h]
    rw [this, rstrip_ws hw]

theorem parse_append_ws (l w : Str) (hw : ∀ c ∈ w, isWs c = true) :
    parseLine (l ++ w) = parseLine l := by
  unfold parseLine
  rw [strip_append_ws l w hw]

theorem isWs_nl : ∀ c ∈ ['\n'], isWs c = true := by decide

theorem parse_empty : parseLine [] = some none := by decide

theorem allSome_append {α β} (f : α → Option β) (a b : List α) :
    allSome f (a ++ b) = (allSome f a).bind fun x => (allSome f b).map fun y => x ++ y := by
  induction a with
  | nil => simp [allSome]
  | cons x a ih =>
    simp only [List.cons_append, allSome, ih]
    cases f x with
    | none => rfl
    | some v =>
      cases allSome f a with
      | none => rfl
      | some as =>
        cases allSome f b <;> rfl

theorem entries_append (a b : Str) : entries (a ++ '\n' :: b) =
    (entries a).bind fun x => (entries b).map fun y => x ++ y := by
  unfold entries
  rw [splitOn_append, allSome_append]
  cases allSome parseLine (splitOn '\n' a) with
  | none => rfl
  | some x =>
    cases allSome parseLine (splitOn '\n' b) with
    | none => rfl
    | some y => simp

theorem entries_line {l : Str} (h : '\n' ∉ l) :
    entries l = (parseLine l).map fun o => o.toList := by
  unfold entries
  rw [splitOn_clean _ _ h]
  simp only [allSome]
  cases parseLine l with
  | none => rfl
  | some o => cases o <;> rfl

theorem entries_nil : entries [] = some [] := by decide

theorem entries_nl (b : Str) : entries ('\n' :: b) = entries b := by
  have := entries_append [] b
  rw [List.nil_append, entries_nil] at this
  rw [this]
  simp

/-- A line as it comes from a file: no line end inside. -/
def IsLine (l : Str) : Prop := ∃ p, '\n' ∉ p ∧ (l = p ∨ l = p ++ ['\n'])

theorem fileLines_go_isLine (ps : List Str) (h : ∀ p ∈ ps, '\n' ∉ p) :
    ∀ l ∈ fileLines.go ps, IsLine l := by
  induction ps with
  | nil => intro l hl; simp [fileLines.go] at hl
  | cons p ps ih =>
    cases ps with
    | nil =>
      intro l hl
      simp only [fileLines.go] at hl
      split at hl
      · simp at hl
      · rw [List.mem_singleton] at hl
        exact ⟨p, h p List.mem_cons_self, Or.inl hl⟩
    | cons q ps =>
      intro l hl
      simp only [fileLines.go, List.mem_cons] at hl
      rcases hl with rfl | hl
      · exact ⟨p, h p List.mem_cons_self, Or.inr rfl⟩
      · exact ih (fun p hp => h p (List.mem_cons_of_mem _ hp)) l (by simpa using hl)

theorem fileLines_isLine (t : Str) : ∀ l ∈ fileLines t, IsLine l :=
  fileLines_go_isLine _ fun _ hp => splitOn_pieces hp

theorem fileLines_go_entries (ps : List Str) :
    (allSome parseLine (fileLines.go ps)).map (fun l => l.filterMap id) =
      (allSome parseLine ps).map (fun l => l.filterMap id) := by
  induction ps with
  | nil => rfl
  | cons p ps ih =>
    cases ps with
    | nil =>
      simp only [fileLines.go]
      split
      · rename_i hp
        subst hp
        decide
      · rfl
    | cons q ps =>
      simp only [fileLines.go]
      rw [allSome, allSome, parse_append_ws p _ isWs_nl]
      cases parseLine p with
      | none => rfl
      | some o =>
        simp only
        cases h1 : allSome parseLine (fileLines.go (q :: ps)) with
        | none =>
          rw [h1] at ih
          cases h2 : allSome parseLine (q :: ps) with
          | none => rfl
          | some y => rw [h2] at ih; cases ih
        | some x =>
          rw [h1] at ih
          cases h2 : allSome parseLine (q :: ps) with
          | none => rw [h2] at ih; cases ih
          | some y =>
            rw [h2] at ih
            simp only [Option.map_some, Option.some.injEq] at ih
            simp only [Option.map_some, List.filterMap_cons, ih]

/-- Reading a file line by line gives its entries. -/
theorem fileLines_entries (t : Str) :
    (allSome parseLine (fileLines t)).map (fun l => l.filterMap id) = entries t :=
  fileLines_go_entries _

theorem word_no_nl {w : Str} (h : ∀ c ∈ w, isWs c = false) : '\n' ∉ w := by
  intro hc
  exact absurd (h _ hc) (by decide)

theorem words_no_nl {s : Str} (h : Words s) : '\n' ∉ s := by
  obtain ⟨ws, hne, hws, rfl⟩ := h
  clear hne
  induction ws with
  | nil => simp [join]
  | cons a ws ih =>
    cases ws with
    | nil => exact word_no_nl (hws a List.mem_cons_self).2
    | cons b ws =>
      rw [join]
      have h1 := word_no_nl (hws a List.mem_cons_self).2
      have h2 := ih fun w hw => hws w (List.mem_cons_of_mem _ hw)
      intro hc
      rcases List.mem_append.1 hc with hc | hc
      · rcases List.mem_append.1 hc with hc | hc
        · exact h1 hc
        · exact absurd hc (by decide)
      · exact h2 hc

theorem render_no_nl {e : Entry} (h : Wf e) : '\n' ∉ render e := by
  rw [render_eq]
  obtain ⟨htype, hopt, hsrc, hsuite, hcomp⟩ := h
  have h1 : '\n' ∉ e.type := by rcases htype with h | h <;> rw [h] <;> decide
  have h2 : '\n' ∉ e.options := by
    rcases hopt with h | ⟨o, ho, h⟩ | ⟨o, o', ho, ho', h⟩ <;> rw [h]
    · simp
    · have := word_no_nl (option_isWord ho).2
      simp [this]
    · have := word_no_nl (option_isWord ho).2
      have := word_no_nl (option_isWord ho').2
      simp [*]
  have h3 := word_no_nl hsrc.1.2
  have h4 : '\n' ∉ e.suite := by
    rcases hsuite with ⟨h, _⟩ | ⟨h, _⟩
    · exact word_no_nl h.2
    · rw [h]; simp
  have h5 := words_no_nl hcomp
  simp [*]

/-- One line of the output. -/
theorem outLine_entries {re : Regex} {c : Conf} {l o : Str} (hl : IsLine l)
    (h : outLine re c l = some o) (hwf : ∀ e, parseLine l = some (some e) → Wf (mirror re c e))
    (rest : Str) :
    ∃ q, parseLine l = some q ∧
      entries (o ++ rest) = (entries rest).map fun y => (q.toList.map (mirror re c)) ++ y := by
  unfold outLine at h
  cases hp : parseLine l with
  | none => rw [hp] at h; cases h
  | some q =>
    refine ⟨q, rfl, ?_⟩
    rw [hp] at h
    cases q with
    | none =>
      simp only [Option.map_some, Option.some.injEq] at h
      subst h
      obtain ⟨p, hpn, hlp⟩ := hl
      have hpp : parseLine p = some none := by
        rcases hlp with rfl | rfl
        · exact hp
        · rw [parse_append_ws p _ isWs_nl] at hp; exact hp
      have e1 : l ++ ['\n'] ++ rest = p ++ '\n' :: rest ∨ l ++ ['\n'] ++ rest
          = p ++ '\n' :: '\n' :: rest := by
        rcases hlp with rfl | rfl
        · exact Or.inl (by simp)
        · exact Or.inr (by simp)
      rcases e1 with e1 | e1
      · rw [e1, entries_append, entries_line hpn, hpp]
        simp
      · rw [e1, entries_append, entries_line hpn, hpp, entries_nl]
        simp
    | some e =>
      simp only [Option.map_some, Option.some.injEq] at h
      subst h
      have hw := hwf e hp
      have e1 : render (mirror re c e) ++ ['\n'] ++ rest
          = render (mirror re c e) ++ '\n' :: rest := by simp
      rw [e1, entries_append, entries_line (render_no_nl hw)]
      have := parse_render hw [] [] (by simp) (by simp)
      rw [List.nil_append, List.append_nil] at this
      rw [this]
      rfl

theorem outLines_entries {re : Regex} {c : Conf} {ls os : List Str} (hl : ∀ l ∈ ls, IsLine l)
    (h : allSome (outLine re c) ls = some os)
    (hwf : ∀ l ∈ ls, ∀ e, parseLine l = some (some e) → Wf (mirror re c e)) (rest : Str) :
    ∃ qs, allSome parseLine ls = some qs ∧
      entries (os.flatten ++ rest) =
        (entries rest).map fun y => ((qs.filterMap id).map (mirror re c)) ++ y := by
  induction ls generalizing os with
  | nil =>
    simp only [allSome, Option.some.injEq] at h
    subst h
    exact ⟨[], rfl, by simp⟩
  | cons l ls ih =>
    simp only [allSome] at h
    cases h1 : outLine re c l with
    | none => rw [h1] at h; cases h
    | some o =>
      rw [h1] at h
      simp only at h
      cases h2 : allSome (outLine re c) ls with
      | none => rw [h2] at h; cases h
      | some os' =>
        rw [h2] at h
        simp only [Option.some.injEq] at h
        subst h
        obtain ⟨qs, hq1, hq2⟩ := ih (fun l hl' => hl l (List.mem_cons_of_mem _ hl')) h2
          (fun l hl' => hwf l (List.mem_cons_of_mem _ hl'))
        obtain ⟨q, hp1, hp2⟩ := outLine_entries (hl l List.mem_cons_self) h1
          (hwf l List.mem_cons_self) (os'.flatten ++ rest)
        refine ⟨q :: qs, by simp only [allSome, hp1, hq1], ?_⟩
        rw [List.flatten_cons, List.append_assoc, hp2, hq2, Option.map_map]
        congr 1
        funext y
        cases q <;> simp

theorem mem_filterMap_id {qs : List (Option Entry)} {e : Entry} (h : some e ∈ qs) :
    e ∈ qs.filterMap id := List.mem_filterMap.2 ⟨_, h, rfl⟩

theorem allSome_mem {α β} {f : α → Option β} {l : List α} : ∀ {r : List β},
    allSome f l = some r → ∀ a ∈ l, ∃ b ∈ r, f a = some b := by
  induction l with
  | nil => intro r _ a ha; simp at ha
  | cons x l ih =>
    intro r h a ha
    simp only [allSome] at h
    cases h1 : f x with
    | none => rw [h1] at h; cases h
    | some v =>
      rw [h1] at h
      simp only at h
      cases h2 : allSome f l with
      | none => rw [h2] at h; cases h
      | some vs =>
        rw [h2] at h
        simp only [Option.some.injEq] at h
        subst h
        rcases List.mem_cons.1 ha with rfl | ha
        · exact ⟨v, List.mem_cons_self, h1⟩
        · obtain ⟨b, hb, hf⟩ := ih h2 a ha
          exact ⟨b, List.mem_cons_of_mem _ hb, hf⟩

theorem allSome_isSome {α β γ} {f : α → Option β} {g : α → Option γ} {l : List α}
    (hfg : ∀ a ∈ l, ∀ b, f a = some b → ∃ d, g a = some d) {r : List β}
    (h : allSome f l = some r) : ∃ s, allSome g l = some s := by
  induction l generalizing r with
  | nil => exact ⟨[], rfl⟩
  | cons x l ih =>
    simp only [allSome] at h
    cases h1 : f x with
    | none => rw [h1] at h; cases h
    | some v =>
      rw [h1] at h
      simp only at h
      cases h2 : allSome f l with
      | none => rw [h2] at h; cases h
      | some vs =>
        obtain ⟨s, hs⟩ := ih (fun a ha => hfg a (List.mem_cons_of_mem _ ha)) h2
        obtain ⟨d, hd⟩ := hfg x List.mem_cons_self v h1
        exact ⟨d :: s, by simp only [allSome, hd, hs]⟩

theorem outFile_entries {re : Regex} {c : Conf} {t o : Str} (h : outFile re c t = some o)
    (hwf : ∀ es, entries t = some es → ∀ e ∈ es, Wf (mirror re c e)) (rest : Str) :
    ∃ es, entries t = some es ∧
      entries (o ++ rest) = (entries rest).map fun y => es.map (mirror re c) ++ y := by
  unfold outFile at h
  cases h1 : allSome (outLine re c) (fileLines t) with
  | none => rw [h1] at h; cases h
  | some os =>
    rw [h1] at h
    simp only [Option.map_some, Option.some.injEq] at h
    subst h
    have hq : ∃ qs, allSome parseLine (fileLines t) = some qs := by
      refine allSome_isSome ?_ h1
      intro l _ o ho
      unfold outLine at ho
      cases hp : parseLine l with
      | none => rw [hp] at ho; cases ho
      | some q => exact ⟨q, rfl⟩
    obtain ⟨qs, hqs⟩ := hq
    have hent : entries t = some (qs.filterMap id) := by
      rw [← fileLines_entries, hqs]; rfl
    have hwf' : ∀ l ∈ fileLines t, ∀ e, parseLine l = some (some e) → Wf (mirror re c e) := by
      intro l hl e he
      obtain ⟨q, hq, hlq⟩ := allSome_mem hqs l hl
      rw [he] at hlq
      cases hlq
      exact hwf _ hent e (mem_filterMap_id hq)
    obtain ⟨qs', hq1, hq2⟩ := outLines_entries (fileLines_isLine t) h1 hwf' ('\n' :: rest)
    rw [hqs] at hq1
    cases hq1
    refine ⟨_, hent, ?_⟩
    rw [List.append_assoc, List.singleton_append, hq2, entries_nl]

theorem aggregate_entries {re : Regex} {c : Conf} {files : Str → Option Str} {names : List Str} :
    ∀ {out : Str}, aggregate re c files names = some out →
    (∀ n ∈ names, ∀ t es, files n = some t → entries t = some es → ∀ e ∈ es, Wf (mirror re c e)) →
    ∃ ess : List (List Entry), names.map (fun n => (files n).bind entries) = ess.map some ∧
      entries out = some (ess.flatten.map (mirror re c)) := by
  unfold aggregate
  induction names with
  | nil =>
    intro out h _
    simp only [allSome, Option.map_some, List.flatten_nil, Option.some.injEq] at h
    subst h
    exact ⟨[], rfl, entries_nil⟩
  | cons n names ih =>
    intro out h hwf
    simp only [allSome] at h
    cases h0 : files n with
    | none => rw [h0] at h; cases h
    | some t =>
      rw [h0] at h
      simp only [Option.bind_some] at h
      cases h1 : outFile re c t with
      | none => rw [h1] at h; cases h
      | some o =>
        rw [h1] at h
        simp only at h
        cases h2 : allSome (fun n => (files n).bind (outFile re c)) names with
        | none => rw [h2] at h; cases h
        | some os =>
          rw [h2] at h ih
          simp only [Option.map_some, Option.some.injEq, List.flatten_cons] at h
          subst h
          obtain ⟨ess, he1, he2⟩ := ih rfl fun m hm => hwf m (List.mem_cons_of_mem _ hm)
          obtain ⟨es, hs1, hs2⟩ := outFile_entries h1 (hwf n List.mem_cons_self t · h0) os.flatten
          refine ⟨es :: ess, ?_, ?_⟩
          · rw [List.map_cons, he1, h0, Option.bind_some, hs1, List.map_cons]
          · rw [hs2, he2]
            simp

/-! ## dedup -/

theorem dedup_foldl (l : List Str) : ∀ (pre acc : List Str), acc.Nodup →
    (∀ x, x ∈ acc ↔ x ∈ pre) → acc.Pairwise (fun x y => pre.idxOf x < pre.idxOf y) →
    let r := l.foldl (fun acc x => if x ∈ acc then acc else acc ++ [x]) acc
    r.Nodup ∧ (∀ x, x ∈ r ↔ x ∈ pre ++ l) ∧
      r.Pairwise (fun x y => (pre ++ l).idxOf x < (pre ++ l).idxOf y) := by
  induction l with
  | nil => intro pre acc h1 h2 h3; simpa using ⟨h1, h2, h3⟩
  | cons a l ih =>
    intro pre acc h1 h2 h3
    rw [List.foldl_cons]
    have e : pre ++ a :: l = (pre ++ [a]) ++ l := by simp
    rw [e]
    have hidx : ∀ x ∈ pre, (pre ++ [a]).idxOf x = pre.idxOf x := by
      intro x hx
      rw [List.idxOf_append, if_pos hx]
    by_cases ha : a ∈ acc
    · rw [if_pos ha]
      apply ih (pre ++ [a]) acc h1
      · intro x
        rw [List.mem_append, List.mem_singleton, h2]
        constructor
        · exact Or.inl
        · rintro (h | rfl)
          · exact h
          · exact (h2 _).1 ha
      · refine h3.imp_of_mem ?_
        intro x y hx hy hxy
        rw [hidx x ((h2 x).1 hx), hidx y ((h2 y).1 hy)]
        exact hxy
    · rw [if_neg ha]
      apply ih (pre ++ [a]) (acc ++ [a])
      · rw [List.nodup_append]
        refine ⟨h1, by simp, ?_⟩
        intro x hx b hb
        rw [List.mem_singleton] at hb
        subst hb
        rintro rfl
        exact ha hx
      · intro x
        simp only [List.mem_append, List.mem_singleton, h2]
      · rw [List.pairwise_append]
        refine ⟨?_, by simp, ?_⟩
        · refine h3.imp_of_mem ?_
          intro x y hx hy hxy
          rw [hidx x ((h2 x).1 hx), hidx y ((h2 y).1 hy)]
          exact hxy
        · intro x hx y hy
          rw [List.mem_singleton] at hy
          subst hy
          have hxp := (h2 x).1 hx
          rw [hidx x hxp]
          have hy : y ∉ pre := fun h => ha ((h2 y).2 h)
          rw [List.idxOf_append, if_neg hy]
          have := List.idxOf_lt_length_iff.2 hxp
          omega

theorem dedup_spec (l : List Str) : (dedup l).Nodup ∧ (∀ x, x ∈ dedup l ↔ x ∈ l) ∧
    (dedup l).Pairwise (fun x y => l.idxOf x < l.idxOf y) := by
  have := dedup_foldl l [] [] (by simp) (by simp) (by simp)
  simpa [dedup] using this

end Isar.Apt
