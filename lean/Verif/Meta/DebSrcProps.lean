import Verif.Meta.DebSrcModel
import Verif.Meta.DebSrcSpec
/-!
# Properties of the sources of packages: C122 and C123
-/

namespace Meta.DebSrc
open Py Spec

/-! ## The awk program -/

theorem words_two (a b : Str) (ha : IsWord a) (hb : IsWord b) : words (a ++ ' ' :: b) = [a, b] := by
  rw [words_append_ws a b ' ' (by decide), words_word ha, words_word hb]; rfl

theorem words_three (a b c : Str) (ha : IsWord a) (hb : IsWord b) (hc : IsWord c) :
    words (a ++ ' ' :: (b ++ ' ' :: c)) = [a, b, c] := by
  rw [words_append_ws a _ ' ' (by decide), words_two b c hb hc, words_word ha]; rfl

theorem prefix_false {l p q : Str} (h : startsWith l p = true) (hpq : startsWith p q = false) (hqp : startsWith q p = false) :
    startsWith l q = false := by
  obtain ⟨t, rfl⟩ := startsWith_iff.1 h
  cases hq : startsWith (p ++ t) q with
  | false => rfl
  | true =>
    obtain ⟨u, hu⟩ := startsWith_iff.1 hq
    rcases List.append_eq_append_iff.1 hu with ⟨x, hx, _⟩ | ⟨x, hx, _⟩
    · rw [startsWith_iff.2 ⟨x, hx⟩] at hqp; cases hqp
    · rw [startsWith_iff.2 ⟨x, hx⟩] at hpq; cases hpq

theorem sw (p t : Str) : startsWith (p ++ t) p = true := startsWith_iff.2 ⟨t, rfl⟩

theorem line_package (st : Awk) (n : Str) (hn : IsWord n) :
    awkLine st ("Package: ".toList ++ n) = { st with s := n, v := [] } := by
  have e : "Package: ".toList ++ n = "Package:".toList ++ ' ' :: n := rfl
  have h := sw "Package:".toList (' ' :: n)
  have hw : words ("Package:".toList ++ ' ' :: n) = ["Package:".toList, n] := words_two _ _ (by decide) hn
  rw [e]
  unfold awkLine ruleSize ruleSource ruleVersion rulePackage field
  rw [if_pos h, hw, prefix_false h (q := "Version:".toList) (by decide) (by decide),
    prefix_false h (q := "Source:".toList) (by decide) (by decide), prefix_false h (q := "Size:".toList) (by decide) (by decide)]
  rfl

theorem line_version (st : Awk) (n : Str) (hn : IsWord n) :
    awkLine st ("Version: ".toList ++ n) = if st.v = [] then { st with v := n } else st := by
  have e : "Version: ".toList ++ n = "Version:".toList ++ ' ' :: n := rfl
  have h := sw "Version:".toList (' ' :: n)
  have hw : words ("Version:".toList ++ ' ' :: n) = ["Version:".toList, n] := words_two _ _ (by decide) hn
  rw [e]
  unfold awkLine ruleSize ruleSource ruleVersion rulePackage field
  rw [h, hw, prefix_false h (q := "Package:".toList) (by decide) (by decide),
    prefix_false h (q := "Source:".toList) (by decide) (by decide), prefix_false h (q := "Size:".toList) (by decide) (by decide)]
  by_cases hv : st.v = []
  · rw [if_pos hv]
    rw [if_neg (by decide : ¬ (false = true)), if_neg (by decide : ¬ (false = true)), if_neg (by decide : ¬ (false = true)),
      if_pos ⟨rfl, hv⟩]; rfl
  · rw [if_neg hv]
    rw [if_neg (by decide : ¬ (false = true)), if_neg (by decide : ¬ (false = true)), if_neg (by decide : ¬ (false = true)),
      if_neg (fun h => hv h.2)]

theorem line_source (st : Awk) (n : Str) (hn : IsWord n) :
    awkLine st ("Source: ".toList ++ n) = { st with s := n } := by
  have e : "Source: ".toList ++ n = "Source:".toList ++ ' ' :: n := rfl
  have h := sw "Source:".toList (' ' :: n)
  have hw : words ("Source:".toList ++ ' ' :: n) = ["Source:".toList, n] := words_two _ _ (by decide) hn
  rw [e]
  unfold awkLine ruleSize ruleSource ruleVersion rulePackage field
  rw [h, hw, prefix_false h (q := "Package:".toList) (by decide) (by decide),
    prefix_false h (q := "Version:".toList) (by decide) (by decide), prefix_false h (q := "Size:".toList) (by decide) (by decide)]
  rw [if_neg (by decide : ¬ (false = true)), if_neg (by decide : ¬ (false = true)), if_pos rfl,
    if_neg (fun h : false = true ∧ st.v = [] => nomatch h.1)]
  rfl

theorem line_source_version (st : Awk) (n v : Str) (hn : IsWord n) (hv : IsWord v) :
    awkLine st ("Source: ".toList ++ n ++ " (".toList ++ v ++ ")".toList) = { st with s := n, v := v } := by
  have e : "Source: ".toList ++ n ++ " (".toList ++ v ++ ")".toList =
      "Source:".toList ++ ' ' :: (n ++ ' ' :: ('(' :: (v ++ [')']))) := by
    simp only [List.append_assoc]; rfl
  have h := sw "Source:".toList (' ' :: (n ++ ' ' :: ('(' :: (v ++ [')']))))
  have hb : IsWord ('(' :: (v ++ [')'])) := by
    refine ⟨nofun, fun c hc => ?_⟩
    rcases List.mem_cons.1 hc with rfl | hc
    · decide
    rcases List.mem_append.1 hc with hc | hc
    · exact hv.2 c hc
    · rw [List.mem_singleton.1 hc]; decide
  have hw := words_three "Source:".toList n _ (by decide) hn hb
  rw [e]
  unfold awkLine ruleSize ruleSource ruleVersion rulePackage field
  rw [h, hw, prefix_false h (q := "Package:".toList) (by decide) (by decide),
    prefix_false h (q := "Version:".toList) (by decide) (by decide), prefix_false h (q := "Size:".toList) (by decide) (by decide)]
  rw [if_neg (by decide : ¬ (false = true)), if_neg (by decide : ¬ (false = true)), if_pos rfl,
    if_neg (fun h : false = true ∧ st.v = [] => nomatch h.1)]
  have : ((['('] ++ v ++ [')'] : Str).drop 1).take ((['('] ++ v ++ [')'] : Str).length - 2) = v := by
    rw [List.append_assoc, List.singleton_append, List.drop_one, List.tail_cons, List.length_cons, List.length_append,
      List.length_singleton, show v.length + 1 + 1 - 2 = v.length from by omega, List.take_left]
  show Awk.mk n (if startsWith ('(' :: (v ++ [')'])) ['('] = true then _ else _) st.out = _
  rw [if_pos (startsWith_iff.2 ⟨v ++ [')'], rfl⟩ : startsWith ('(' :: (v ++ [')'])) ['('] = true)]
  exact congrArg (fun x => Awk.mk n x st.out) this

theorem line_size (st : Awk) (n : Str) :
    awkLine st ("Size: ".toList ++ n) = { st with out := st.out ++ [st.s ++ ' ' :: st.v] } := by
  have e : "Size: ".toList ++ n = "Size:".toList ++ ' ' :: n := rfl
  have h := sw "Size:".toList (' ' :: n)
  rw [e]
  unfold awkLine ruleSize ruleSource ruleVersion rulePackage
  rw [h, prefix_false h (q := "Package:".toList) (by decide) (by decide),
    prefix_false h (q := "Version:".toList) (by decide) (by decide), prefix_false h (q := "Source:".toList) (by decide) (by decide)]
  rw [if_neg (by decide : ¬ (false = true)), if_neg (by decide : ¬ (false = true)), if_pos rfl,
    if_neg (fun h : false = true ∧ st.v = [] => nomatch h.1)]

theorem line_other (st : Awk) (t : Str) (h : Unrelated t) : awkLine st t = st := by
  have hf : ∀ f, f = "Package:".toList ∨ f = "Version:".toList ∨ f = "Source:".toList ∨ f = "Size:".toList →
      startsWith t f = false := fun f hf => by
    cases hs : startsWith t f with
    | false => rfl
    | true => exact absurd (startsWith_iff.1 hs) (h f hf)
  unfold awkLine ruleSize ruleSource ruleVersion rulePackage
  rw [hf _ (Or.inl rfl), hf _ (Or.inr (Or.inl rfl)), hf _ (Or.inr (Or.inr (Or.inl rfl))),
    hf _ (Or.inr (Or.inr (Or.inr rfl)))]
  rw [if_neg (by decide : ¬ (false = true)), if_neg (by decide : ¬ (false = true)), if_neg (by decide : ¬ (false = true)),
    if_neg (fun h : false = true ∧ st.v = [] => nomatch h.1)]

theorem fold_other (ls : List Str) (h : ∀ t, t ∈ ls → Unrelated t) : ∀ st, ls.foldl awkLine st = st := by
  induction ls with
  | nil => intro st; rfl
  | cons t ls ih =>
    intro st
    rw [List.foldl_cons, line_other st t (h t List.mem_cons_self)]
    exact ih (fun u hu => h u (List.mem_cons_of_mem _ hu)) st

theorem fold_mid (mid : List Line) (h : ∀ t, Line.other t ∈ mid → Unrelated t) : ∀ st,
    (mid.map Line.text).foldl awkLine st = ((mid.filter Line.related).map Line.text).foldl awkLine st := by
  induction mid with
  | nil => intro st; rfl
  | cons l mid ih =>
    intro st
    have ih := ih fun t ht => h t (List.mem_cons_of_mem _ ht)
    cases l with
    | version v => exact ih _
    | source n v => exact ih _
    | other t =>
      rw [List.map_cons, List.foldl_cons, show Line.text (.other t) = t from rfl, line_other st t (h t List.mem_cons_self)]
      exact ih st

theorem fold_told (p : Package) {ls : List Str} (h : Describes p ls) (ms : List Line) (ht : p.told ms) (out : List Str) :
    (ms.map Line.text).foldl awkLine ⟨p.name, [], out⟩ = ⟨p.sourceOf.1, p.sourceOf.2, out⟩ := by
  have hv := h.word.2.1
  unfold Package.told at ht
  unfold Package.sourceOf
  cases hs : p.source with
  | none =>
    rw [hs] at ht
    replace ht : ms = [.version p.version] := ht
    subst ht
    show awkLine ⟨p.name, [], out⟩ ("Version: ".toList ++ p.version) = ⟨p.name, p.version, out⟩
    rw [line_version _ _ hv, if_pos rfl]
  | some sv =>
    obtain ⟨s, v⟩ := sv
    have hw := h.word.2.2 s v hs
    rw [hs] at ht
    replace ht : ms = [.version p.version, .source s v] ∨ ms = [.source s v, .version p.version] := ht
    rcases ht with rfl | rfl
    · cases v with
      | none =>
        show awkLine (awkLine ⟨p.name, [], out⟩ ("Version: ".toList ++ p.version)) ("Source: ".toList ++ s) =
          ⟨s, p.version, out⟩
        rw [line_version _ _ hv, if_pos rfl, line_source _ _ hw.1]
      | some v =>
        show awkLine (awkLine ⟨p.name, [], out⟩ ("Version: ".toList ++ p.version))
          ("Source: ".toList ++ s ++ " (".toList ++ v ++ ")".toList) = ⟨s, v, out⟩
        rw [line_version _ _ hv, if_pos rfl, line_source_version _ _ _ hw.1 (hw.2 v rfl)]
    · cases v with
      | none =>
        show awkLine (awkLine ⟨p.name, [], out⟩ ("Source: ".toList ++ s)) ("Version: ".toList ++ p.version) =
          ⟨s, p.version, out⟩
        rw [line_source _ _ hw.1, line_version _ _ hv, if_pos rfl]
      | some v =>
        show awkLine (awkLine ⟨p.name, [], out⟩ ("Source: ".toList ++ s ++ " (".toList ++ v ++ ")".toList))
          ("Version: ".toList ++ p.version) = ⟨s, v, out⟩
        rw [line_source_version _ _ _ hw.1 (hw.2 v rfl), line_version _ _ hv, if_neg (hw.2 v rfl).1]

/-- What the awk program does with the description of a package. -/
theorem fold_package (p : Package) (ls : List Str) (h : Describes p ls) (st : Awk) :
    (ls.foldl awkLine st).out = st.out ++ [p.sourceOf.1 ++ ' ' :: p.sourceOf.2] := by
  obtain ⟨mid, size, post, rfl, hm, ht, hp⟩ := h.lines
  rw [List.foldl_cons, line_package st _ h.word.1, List.foldl_append, fold_mid mid hm, List.foldl_cons, line_size,
    fold_other post hp]
  have := fold_told p h _ ht st.out
  rw [this]

/-- A list of packages, and the lines that describe them. -/
inductive DescribeAll : List Package → List Str → Prop
  | nil : DescribeAll [] []
  | cons {p ls ps rest} : Describes p ls → DescribeAll ps rest → DescribeAll (p :: ps) (ls ++ rest)

theorem fold_packages {ps : List Package} {ls : List Str} (h : DescribeAll ps ls) : ∀ st,
    (ls.foldl awkLine st).out = st.out ++ ps.map fun p => p.sourceOf.1 ++ ' ' :: p.sourceOf.2 := by
  induction h with
  | nil => intro st; simp
  | cons hp _ ih =>
    intro st
    rw [List.foldl_append, ih, fold_package _ _ hp]; simp

/-- **C122.**  The list of sources has exactly one line for the source of each package, with its version, and is
sorted. -/
theorem filter_exact (ps : List Package) (ls : List Str) (h : DescribeAll ps ls) :
    (∀ x, x ∈ filter ls ↔ ∃ p, p ∈ ps ∧ x = p.sourceOf.1 ++ ' ' :: p.sourceOf.2) ∧ (filter ls).Nodup ∧
      (filter ls).Pairwise StrLt := by
  refine ⟨fun x => ?_, sortSet_nodup _, sortSet_sorted _⟩
  unfold filter
  rw [mem_sortSet, fold_packages h, List.nil_append, List.mem_map]
  exact ⟨fun ⟨p, hp, e⟩ => ⟨p, hp, e.symm⟩, fun ⟨p, hp, e⟩ => ⟨p, hp, e.symm⟩⟩

/-- A rebuilt package, whose source has another version, and one whose source has its name. -/
example : filter ["Package: libx1".toList, "Architecture: amd64".toList, "Source: x (1:2-1)".toList,
    "Version: 1:2-1+b1".toList, "Description: Source".toList, " Source: none".toList, "Size: 7".toList, [],
    "Package: b".toList, "Version: 3".toList, "Package-List: y".toList, "Size: 9".toList] =
    ["b 3".toList, "x 1:2-1".toList] := by decide +kernel

/-- For `filter_exact`. -/
theorem describes_sample : Describes ⟨"libx1".toList, "2-1+b1".toList, some ("x".toList, some "2-1".toList)⟩
    ["Package: libx1".toList, "Source: x (2-1)".toList, "Tag: a".toList, "Version: 2-1+b1".toList, "Size: 7".toList, []] where
  word := ⟨by decide, by decide, fun s v h => by cases h; exact ⟨by decide, fun v h => by cases h; decide⟩⟩
  lines := by
    refine ⟨[.source "x".toList (some "2-1".toList), .other "Tag: a".toList, .version "2-1+b1".toList], ['7'], [[]],
      by decide, fun t ht => ?_, Or.inr rfl, fun t ht => ?_⟩
    · rcases List.mem_cons.1 ht with h | ht
      · cases h
      rcases List.mem_cons.1 ht with h | ht
      · injection h with h
        subst h
        rintro f (rfl | rfl | rfl | rfl) ⟨r, h⟩ <;> exact absurd (startsWith_iff.2 ⟨r, h⟩) (by decide)
      · rcases List.mem_cons.1 ht with h | ht
        · cases h
        · cases ht
    · rw [List.mem_singleton.1 ht]
      rintro f (rfl | rfl | rfl | rfl) ⟨r, h⟩ <;> cases h

/-- Against C122 without the order: if the size comes first, the line of the package is that of the one
before. -/
theorem size_first : filter ["Package: a".toList, "Version: 1".toList, "Size: 5".toList, "Package: b".toList,
    "Size: 6".toList, "Version: 2".toList, "Source: c".toList] = ["a 1".toList, "b ".toList] := by decide +kernel

/-! ## `comm` -/

theorem StrLt.trans {a b c : Str} (h1 : StrLt a b) (h2 : StrLt b c) : StrLt a c :=
  ⟨strLe_trans a b c h1.1 h2.1, fun e => by subst e; exact h1.2 (strLe_antisymm h1.1 h2.1)⟩

theorem mem_commIn {a : Str} {as : List Str} (ha : (a :: as).Pairwise StrLt) (next : List Str → List Str)
    (hn : ∀ bs, bs.Pairwise StrLt → ∀ x, x ∈ next bs ↔ x ∈ as ∧ x ∈ bs) : ∀ bs, bs.Pairwise StrLt → ∀ x,
    x ∈ commIn a next bs ↔ x ∈ a :: as ∧ x ∈ bs
  | [], _, x => by simp [commIn]
  | b :: bs, hb, x => by
    have ha' := (List.pairwise_cons.1 ha).1
    have hb' := (List.pairwise_cons.1 hb).1
    unfold commIn
    by_cases h : a = b
    · subst h
      rw [if_pos rfl, List.mem_cons, hn bs (List.pairwise_cons.1 hb).2, List.mem_cons, List.mem_cons]
      constructor
      · rintro (h | ⟨h1, h2⟩)
        · exact ⟨Or.inl h, Or.inl h⟩
        · exact ⟨Or.inr h1, Or.inr h2⟩
      · rintro ⟨h1 | h1, h2 | h2⟩
        · exact Or.inl h1
        · exact Or.inl h1
        · exact Or.inl h2
        · exact Or.inr ⟨h1, h2⟩
    · rw [if_neg h]
      by_cases hle : strLe a b = true
      · rw [if_pos hle, hn _ hb]
        constructor
        · exact fun ⟨h1, h2⟩ => ⟨List.mem_cons_of_mem _ h1, h2⟩
        · rintro ⟨h1, h2⟩
          refine ⟨(List.mem_cons.1 h1).resolve_left fun e => ?_, h2⟩
          subst e
          rcases List.mem_cons.1 h2 with e | h2
          · exact h e
          · exact (hb' x h2).2 (strLe_antisymm (hb' x h2).1 hle)
      · rw [if_neg hle, mem_commIn ha next hn bs (List.pairwise_cons.1 hb).2 x]
        have hba : strLe b a = true := by
          have := strLe_total a b
          rw [Bool.or_eq_true] at this
          exact this.resolve_left hle
        constructor
        · exact fun ⟨h1, h2⟩ => ⟨h1, List.mem_cons_of_mem _ h2⟩
        · rintro ⟨h1, h2⟩
          refine ⟨h1, (List.mem_cons.1 h2).resolve_left fun e => ?_⟩
          subst e
          rcases List.mem_cons.1 h1 with e | h1
          · exact h e.symm
          · exact (ha' x h1).2 (strLe_antisymm (ha' x h1).1 hba)

/-- `comm -12` gives the common lines of sorted files. -/
theorem mem_comm : ∀ (as : List Str), as.Pairwise StrLt → ∀ bs, bs.Pairwise StrLt → ∀ x,
    x ∈ comm as bs ↔ x ∈ as ∧ x ∈ bs
  | [], _, bs, _, x => by simp [comm]
  | _ :: as, ha, bs, hb, x => mem_commIn ha _ (mem_comm as (List.pairwise_cons.1 ha).2) bs hb x

theorem readPair_line (s v : Str) (hs : IsWord s) (hv : IsWord v) : readPair (s ++ ' ' :: v) = (s, v) := by
  unfold readPair
  rw [words_two s v hs hv]; rfl

theorem sourceOf_word {p : Package} {ls : List Str} (h : Describes p ls) :
    IsWord p.sourceOf.1 ∧ IsWord p.sourceOf.2 := by
  unfold Package.sourceOf
  cases hs : p.source with
  | none => exact ⟨h.word.1, h.word.2.1⟩
  | some sv =>
    obtain ⟨s, v⟩ := sv
    have hw := h.word.2.2 s v hs
    cases v with
    | none => exact ⟨hw.1, h.word.2.1⟩
    | some v => exact ⟨hw.1, hw.2 v rfl⟩

theorem describeAll_mem {ps : List Package} {ls : List Str} (h : DescribeAll ps ls) {p : Package} (hp : p ∈ ps) :
    ∃ l, Describes p l := by
  induction h with
  | nil => cases hp
  | cons hd _ ih =>
    rcases List.mem_cons.1 hp with rfl | hp
    · exact ⟨_, hd⟩
    · exact ih hp

/-- What the loop goes through: the sources of packages in both lists. -/
theorem mem_pairs {ws as : List Package} {wl al : List Str} (hw : DescribeAll ws wl) (ha : DescribeAll as al)
    (q : Str × Str) : q ∈ pairs (filter wl) (filter al) ↔
      (∃ p, p ∈ ws ∧ p.sourceOf = q) ∧ ∃ p, p ∈ as ∧ p.sourceOf = q := by
  have fw := filter_exact ws wl hw
  have fa := filter_exact as al ha
  unfold pairs
  rw [List.mem_map]
  constructor
  · rintro ⟨x, hx, rfl⟩
    have hx := (mem_comm _ fw.2.2 _ fa.2.2 x).1 hx
    obtain ⟨p, hp, rfl⟩ := (fw.1 x).1 hx.1
    obtain ⟨p', hp', e⟩ := (fa.1 _).1 hx.2
    obtain ⟨l, hl⟩ := describeAll_mem hw hp
    obtain ⟨l', hl'⟩ := describeAll_mem ha hp'
    have w := sourceOf_word hl
    have w' := sourceOf_word hl'
    refine ⟨⟨p, hp, (readPair_line _ _ w.1 w.2).symm⟩, p', hp', ?_⟩
    rw [e, readPair_line _ _ w'.1 w'.2]
  · rintro ⟨⟨p, hp, rfl⟩, p', hp', e⟩
    obtain ⟨l, hl⟩ := describeAll_mem hw hp
    have w := sourceOf_word hl
    refine ⟨p.sourceOf.1 ++ ' ' :: p.sourceOf.2, (mem_comm _ fw.2.2 _ fa.2.2 _).2
      ⟨(fw.1 _).2 ⟨p, hp, rfl⟩, (fa.1 _).2 ⟨p', hp', by rw [e]⟩⟩, readPair_line _ _ w.1 w.2⟩

/-! ## Downloads -/

theorem dsc_there (apt : Apt) (hok : ∀ p, (apt p).2 = true → dscName p ∈ (apt p).1) : ∀ (ps : List (Str × Str)) (fs : Files)
    (p : Str × Str), p ∈ ps → (p.1, dscName p) ∈ fs ++ arrive apt fs ps ∨ p ∈ failed apt fs ps
  | [], _, _, h => nomatch h
  | q :: ps, fs, p, h => by
    unfold arrive failed
    by_cases hq : (q.1, dscName q) ∈ fs
    · rw [if_pos hq, if_pos hq]
      rcases List.mem_cons.1 h with rfl | h
      · exact Or.inl (List.mem_append_left _ hq)
      · exact dsc_there apt hok ps fs p h
    · rw [if_neg hq, if_neg hq]
      rcases List.mem_cons.1 h with rfl | h
      · cases ha : (apt p).2 with
        | true =>
          exact Or.inl (List.mem_append_right _ (List.mem_append_left _ (List.mem_map.2 ⟨_, hok p ha, rfl⟩)))
        | false => exact Or.inr (List.mem_append_left _ List.mem_cons_self)
      · rcases dsc_there apt hok ps _ p h with h | h
        · rw [List.append_assoc] at h; exact Or.inl h
        · exact Or.inr (List.mem_append_right _ h)

/-- **C123.**  After `debsrc_download`, every source of a downloaded package that apt knows has its description
file, or there is a warning. -/
theorem sources_there (apt : Apt) (hok : ∀ p, (apt p).2 = true → dscName p ∈ (apt p).1) (ws as : List Package)
    (scan dump : List Str) (hw : DescribeAll ws scan) (ha : DescribeAll as dump) (fs fs' : Files)
    (warn : List (Str × Str)) (h : download apt dump scan fs = some (fs', warn)) (w a : Package) (hwm : w ∈ ws)
    (ham : a ∈ as) (he : a.sourceOf = w.sourceOf) :
    (w.sourceOf.1, dscName w.sourceOf) ∈ fs' ∨ w.sourceOf ∈ warn := by
  unfold download at h
  split at h
  · cases h
  · cases h
    exact dsc_there apt hok _ fs _ ((mem_pairs hw ha _).2 ⟨⟨w, hwm, rfl⟩, a, ham, he⟩)

/-- The name of the description file has no epoch. -/
example : dscName ("x".toList, "1:2.0~rc:1-3".toList) = "x_2.0~rc:1-3.dsc".toList ∧
    dscName ("x".toList, "2-1".toList) = "x_2-1.dsc".toList := by decide +kernel

/-- `debsrc_download` fails exactly if apt knows no package. -/
theorem download_fails (apt : Apt) (as : List Package) (dump scan : List Str) (ha : DescribeAll as dump) (fs : Files) :
    download apt dump scan fs = none ↔ as = [] := by
  have h : filter dump = [] ↔ as = [] := by
    constructor
    · intro h
      cases as with
      | nil => rfl
      | cons p as =>
        have := ((filter_exact _ _ ha).1 _).2 ⟨p, List.mem_cons_self, rfl⟩
        rw [h] at this
        cases this
    · rintro rfl
      cases hf : filter dump with
      | nil => rfl
      | cons x _ =>
        obtain ⟨p, hp, _⟩ := ((filter_exact _ _ ha).1 x).1 (by rw [hf]; exact List.mem_cons_self)
        cases hp
  unfold download
  constructor
  · intro hn
    by_cases hf : filter dump = []
    · exact h.1 hf
    · rw [if_neg hf] at hn; cases hn
  · intro e
    rw [if_pos (h.2 e)]

/-- A run, finished or stopped. -/
structure Run where
  apt : Apt
  dump : List Str
  scan : List Str
  stop : Option Nat

def Run.after (r : Run) (fs : Files) : Files :=
  match r.stop with
  | some n => stopped r.apt r.dump r.scan n fs
  | none => match download r.apt r.dump r.scan fs with
    | some (fs', _) => fs'
    | none => fs

/-- If the description file is there, so are the others of `parts`. -/
def Whole (parts : Str × Str → List Str) (fs : Files) : Prop :=
  ∀ p, (p.1, dscName p) ∈ fs → ∀ n, n ∈ parts p → (p.1, n) ∈ fs

/-- The description file of a source comes after its other files, and no other source has a file of that name in
the directory. -/
def DscLast (parts : Str × Str → List Str) (apt : Apt) : Prop :=
  ∀ p q n, p.1 = q.1 → dscName q ∈ (apt p).1.take n → ∀ m, m ∈ parts q → m ∈ (apt p).1.take n

theorem arrive_whole (parts : Str × Str → List Str) (apt : Apt) (hl : DscLast parts apt) : ∀ (ps : List (Str × Str))
    (fs : Files) (n : Nat), Whole parts fs → Whole parts (fs ++ (arrive apt fs ps).take n)
  | [], fs, n, h => by
    show Whole parts (fs ++ List.take n [])
    rw [List.take_nil, List.append_nil]; exact h
  | p :: ps, fs, n, h => by
    unfold arrive
    by_cases hp : (p.1, dscName p) ∈ fs
    · rw [if_pos hp]; exact arrive_whole parts apt hl ps fs n h
    · rw [if_neg hp, List.take_append, ← List.append_assoc]
      have step : ∀ k, Whole parts (fs ++ ((apt p).1.map fun m => (p.1, m)).take k) := by
        intro k q hq m hm
        rcases List.mem_append.1 hq with hq | hq
        · exact List.mem_append_left _ (h q hq m hm)
        · rw [← List.map_take] at hq ⊢
          obtain ⟨x, hx, e⟩ := List.mem_map.1 hq
          injection e with e1 e2
          subst e2
          have := hl p q k e1 hx m hm
          exact List.mem_append_right _ (List.mem_map.2 ⟨m, this, by rw [e1]⟩)
      by_cases hn : n ≤ ((apt p).1.map fun m => (p.1, m)).length
      · rw [show n - ((apt p).1.map fun m => (p.1, m)).length = 0 from by omega, List.take_zero, List.append_nil]
        exact step n
      · have full := step ((apt p).1.map fun m => (p.1, m)).length
        rw [List.take_length] at full
        rw [List.take_of_length_le (by omega)]
        exact arrive_whole parts apt hl ps _ _ full

theorem after_whole (parts : Str × Str → List Str) (r : Run) (hl : DscLast parts r.apt) (fs : Files)
    (h : Whole parts fs) : Whole parts (r.after fs) := by
  unfold Run.after
  cases r.stop with
  | some n => exact arrive_whole parts r.apt hl _ fs n h
  | none =>
    dsimp only
    unfold download
    by_cases hf : filter r.dump = []
    · rw [if_pos hf]; exact h
    · rw [if_neg hf]
      dsimp only
      have := arrive_whole parts r.apt hl (pairs (filter r.scan) (filter r.dump)) fs
        (arrive r.apt fs (pairs (filter r.scan) (filter r.dump))).length h
      rwa [List.take_length] at this

/-- **C123.**  After every history of runs, some of them stopped, and a run that is not: every source of a
downloaded package that apt knows is there with all its files, or there is a warning; if apt stores the
description file last. -/
theorem sources_whole_partial (parts : Str × Str → List Str) (runs : List Run)
    (hl : ∀ r, r ∈ runs → DscLast parts r.apt) (last : Run) (hlast : DscLast parts last.apt)
    (hok : ∀ p, (last.apt p).2 = true → dscName p ∈ (last.apt p).1) (ws as : List Package)
    (hw : DescribeAll ws last.scan) (ha : DescribeAll as last.dump) (fs' : Files) (warn : List (Str × Str))
    (h : download last.apt last.dump last.scan (runs.foldl (fun fs r => r.after fs) []) = some (fs', warn))
    (w a : Package) (hwm : w ∈ ws) (ham : a ∈ as) (he : a.sourceOf = w.sourceOf) :
    (∀ n, n ∈ parts w.sourceOf → (w.sourceOf.1, n) ∈ fs') ∨ w.sourceOf ∈ warn := by
  have hinv : ∀ (runs : List Run) (fs : Files), (∀ r, r ∈ runs → DscLast parts r.apt) → Whole parts fs →
      Whole parts (runs.foldl (fun fs r => r.after fs) fs) := by
    intro runs
    induction runs with
    | nil => intro fs _ h; exact h
    | cons r runs ih =>
      intro fs hl h
      exact ih _ (fun r hr => hl r (List.mem_cons_of_mem _ hr)) (after_whole parts r (hl r List.mem_cons_self) fs h)
  have h0 := hinv runs [] hl (fun p hp => nomatch hp)
  rcases sources_there last.apt hok ws as _ _ hw ha _ fs' warn h w a hwm ham he with hd | hd
  · refine Or.inl fun n hn => ?_
    have hall := after_whole parts { last with stop := none } hlast _ h0
    have e : Run.after { last with stop := none } (runs.foldl (fun fs r => r.after fs) []) = fs' := by
      rw [Run.after.eq_def]
      dsimp only
      rw [h]
    rw [e] at hall
    exact hall _ hd n hn
  · exact Or.inr hd

/-- A list with one package. -/
def one : List Str := ["Package: x".toList, "Version: 1".toList, "Size: 5".toList]

/-- Against C123: apt stores the description file first and is stopped; the next run finds it and does not
fetch the other file, without a warning. -/
theorem stopped_incomplete :
    download (fun p => ([dscName p, "x_1.tar.xz".toList], true)) one one
      (stopped (fun p => ([dscName p, "x_1.tar.xz".toList], true)) one one 1 []) =
      some ([("x".toList, "x_1.dsc".toList)], []) := by decide +kernel

/-- Against C123: the source of a package that apt does not know any more is not fetched, without a warning. -/
theorem unknown_silent :
    download (fun p => ([dscName p], true)) one ["Package: x".toList, "Version: 0".toList, "Size: 5".toList] [] =
      some ([], []) := by decide +kernel

/-- For `sources_whole_partial`: an order in which the description file is last, and a run that is stopped. -/
example : (stopped (fun p => (["x_1.tar.xz".toList, dscName p], true)) one one 1 []) =
      [("x".toList, "x_1.tar.xz".toList)] ∧
    download (fun p => (["x_1.tar.xz".toList, dscName p], true)) one one [("x".toList, "x_1.tar.xz".toList)] =
      some ([("x".toList, "x_1.tar.xz".toList), ("x".toList, "x_1.tar.xz".toList), ("x".toList, "x_1.dsc".toList)], []) := by
  decide +kernel

/-- For `sources_whole_partial`: apt with this order. -/
example : DscLast (fun _ => ["x_1.tar.xz".toList]) (fun p => (["x_1.tar.xz".toList, dscName p], true)) := by
  intro p q n _ hd m hm
  cases n with
  | zero => cases hd
  | succ n =>
    rw [List.mem_singleton.1 hm]
    exact List.mem_cons_self

end Meta.DebSrc
