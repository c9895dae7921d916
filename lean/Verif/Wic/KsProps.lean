import Verif.Wic.KsSpec
import Verif.Wic.KsLemmas
/-! # Properties of the kickstart parser -/

namespace Isar.Wic.Ks

open Py

/-! ## C10: sizes -/

theorem applySuffix_eq (b : Bool) (c : Char) (n : Int) :
    applySuffix b [c] n = (unitOf b c).map fun (u : Nat) => n * (u : Int) := by
  have e : ∀ x y : Char, ([x] = [y]) = (x = y) := fun x y => by simp
  unfold applySuffix unitOf
  simp only [e]
  by_cases hk : c = 'k' ∨ c = 'K'
  · have h1 : ¬ (b = true ∧ (c = 's' ∨ c = 'S')) := by
      rcases hk with rfl | rfl <;> simp
    rw [if_neg h1, if_pos hk, if_pos hk]
    cases b <;> simp
  · rw [if_neg hk, if_neg hk]
    by_cases hM : c = 'M'
    · subst hM
      cases b <;> simp <;> omega
    · rw [if_neg hM, if_neg hM]
      by_cases hG : c = 'G'
      · subst hG
        cases b <;> simp <;> omega
      · rw [if_neg hG, if_neg hG]
        by_cases hs : (c = 's' ∨ c = 'S') ∧ b = true
        · rw [if_pos ⟨hs.2, hs.1⟩, if_pos hs]
          simp
        · rw [if_neg (fun h => hs ⟨h.2, h.1⟩), if_neg hs]
          rfl

/-- C10: a number without suffix counts in the default unit, a number with suffix in the unit of
the suffix; an unknown suffix is an error. -/
theorem size_units (default : Char) (inBytes : Bool) (n : Nat) :
    sizetype [default] inBytes (dec n) = (unitOf inBytes default).map (fun u => ((n * u : Nat) : Int)) ∧
    ∀ c, c.isDigit = false → isWs c = false →
      sizetype [default] inBytes (dec n ++ [c]) =
        (unitOf inBytes c).map (fun u => ((n * u : Nat) : Int)) := by
  constructor
  · unfold sizetype
    rw [pyInt_dec]
    simp only [applySuffix_eq]
    rfl
  · intro c hd hw
    unfold sizetype
    rw [pyInt_dec_suffix n c hd hw]
    simp only [List.dropLast_concat, pyInt_dec]
    have : (dec n ++ [c]).drop ((dec n ++ [c]).length - 1) = [c] := by simp
    rw [this, applySuffix_eq]
    rfl

example : sizetype ['M'] false "16".toList = some 16384 ∧
    sizetype ['M'] false "16k".toList = some 16 ∧
    sizetype ['K'] true "3s".toList = some 1536 ∧ sizetype ['M'] false "3s".toList = none ∧
    sizetype ['M'] false "1.5G".toList = none := by decide

/-- C10: whatever is accepted is an integer literal times the unit of its suffix, or of the
default if the argument is an integer literal as a whole. -/
theorem size_accepted {default inBytes arg v} (h : sizetype [default] inBytes arg = some v) :
    (∃ n u, pyInt arg = some n ∧ unitOf inBytes default = some u ∧ v = n * u) ∨
    (∃ s c n u, arg = s ++ [c] ∧ pyInt arg = none ∧ pyInt s = some n ∧ unitOf inBytes c = some u ∧
      v = n * u) := by
  unfold sizetype at h
  split at h
  · next n hn =>
    rw [applySuffix_eq] at h
    cases hu : unitOf inBytes default with
    | none => rw [hu] at h; simp at h
    | some u =>
      rw [hu] at h
      simp only [Option.map_some, Option.some.injEq] at h
      exact Or.inl ⟨n, u, hn, rfl, h.symm⟩
  · next hn =>
    split at h
    · next n hn' =>
      rcases List.eq_nil_or_concat arg with rfl | ⟨s, c, rfl⟩
      · exact absurd hn' (by rw [show pyInt ([] : Str).dropLast = none by decide]; simp)
      · rw [List.concat_eq_append] at *
        simp only [List.dropLast_concat] at hn'
        have : (s ++ [c]).drop ((s ++ [c]).length - 1) = [c] := by simp
        rw [this, applySuffix_eq] at h
        cases hu : unitOf inBytes c with
        | none => rw [hu] at h; simp at h
        | some u =>
          rw [hu] at h
          simp only [Option.map_some, Option.some.injEq] at h
          exact Or.inr ⟨s, c, n, u, rfl, hn, hn', hu, h.symm⟩
    · simp at h

/-- C10: an accepted integer literal is, up to blanks around it, a sign and decimal digits with
single underscores between them, and its value is that of the digits. -/
theorem int_literal {s : Str} {v : Int} (h : pyInt s = some v) :
    ∃ sign ds, strip s = sign ++ ds ∧ (sign = [] ∨ sign = ['+'] ∨ sign = ['-']) ∧ ds ≠ [] ∧
      (∀ c ∈ ds, c.isDigit = true ∨ c = '_') ∧
      v = (if sign = ['-'] then -1 else 1) * (decVal (ds.filter (· ≠ '_')) : Int) := by
  have hne : ∀ n, ∀ ds, digitsVal false 0 ds = some n → ds ≠ [] := by
    rintro n _ h rfl
    simp [digitsVal] at h
  unfold pyInt at h
  split at h
  · next ds hs =>
    cases hd : digitsVal false 0 ds with
    | none => rw [hd] at h; simp at h
    | some n =>
      rw [hd] at h
      simp only [Option.map_some, Option.some.injEq] at h
      obtain ⟨h1, h2⟩ := digitsVal_sound ds _ _ _ hd
      refine ⟨['-'], ds, hs, by simp, hne _ _ hd, h2, ?_⟩
      rw [← h, h1, if_pos rfl]
      unfold decVal
      omega
  · next ds hs =>
    cases hd : digitsVal false 0 ds with
    | none => rw [hd] at h; simp at h
    | some n =>
      rw [hd] at h
      simp only [Option.map_some, Option.some.injEq] at h
      obtain ⟨h1, h2⟩ := digitsVal_sound ds _ _ _ hd
      refine ⟨['+'], ds, hs, by simp, hne _ _ hd, h2, ?_⟩
      rw [← h, h1, if_neg (by decide)]
      unfold decVal
      omega
  · cases hd : digitsVal false 0 (strip s) with
    | none => rw [hd] at h; simp at h
    | some n =>
      rw [hd] at h
      simp only [Option.map_some, Option.some.injEq] at h
      obtain ⟨h1, h2⟩ := digitsVal_sound _ _ _ _ hd
      refine ⟨[], strip s, rfl, by simp, hne _ _ hd, h2, ?_⟩
      rw [← h, h1, if_neg (by decide)]
      unfold decVal
      omega

example : pyInt " -1_000 ".toList = some (-1000) ∧ pyInt "1__0".toList = none := by decide

/-! ## C11: contradictory options -/

theorem upper_0X {s : Str} : startsWith (upper s) "0X".toList = true ↔
    ∃ x ds, s = '0' :: x :: ds ∧ (x = 'x' ∨ x = 'X') := by
  have hup : ∀ c : Char, c.toUpper = '0' → c = '0' := by
    intro c h
    unfold Char.toUpper at h
    split at h
    · next hc =>
      exfalso
      have := congrArg Char.val h
      simp at this
      grind
    · exact h
  have hux : ∀ c : Char, c.toUpper = 'X' ↔ (c = 'x' ∨ c = 'X') := by
    intro c
    constructor
    · intro h
      unfold Char.toUpper at h
      split at h
      · next hc =>
        left
        have := congrArg Char.val h
        simp at this
        apply Char.ext
        grind
      · right; exact h
    · rintro (rfl | rfl) <;> decide
  rw [startsWith_iff]
  constructor
  · rintro ⟨t, ht⟩
    match s, ht with
    | [], ht => cases ht
    | [a], ht => simp [upper] at ht
    | a :: b :: ds, ht =>
      simp only [upper, List.map_cons] at ht
      have h1 : a.toUpper = '0' := (List.cons.inj ht).1
      have h2 : b.toUpper = 'X' := (List.cons.inj (List.cons.inj ht).2).1
      exact ⟨b, ds, by rw [hup a h1], (hux b).1 h2⟩
  · rintro ⟨x, ds, rfl, hx⟩
    refine ⟨ds.map Char.toUpper, ?_⟩
    simp only [upper, List.map_cons, (hux x).2 hx]
    rfl

theorem fat_cond (s : Str) :
    ¬ (s ≠ [] ∧ (if startsWith (upper s) "0X".toList then s.length > 10 else s.length > 8)) ↔
    (s.length ≤ 8 ∨ ∃ x ds, s = '0' :: x :: ds ∧ (x = 'x' ∨ x = 'X') ∧ ds.length ≤ 8) := by
  by_cases h : startsWith (upper s) "0X".toList = true
  · obtain ⟨x, ds, rfl, hx⟩ := upper_0X.1 h
    rw [if_pos h]
    constructor
    · intro hn
      refine Or.inr ⟨x, ds, rfl, hx, ?_⟩
      apply Nat.le_of_not_lt
      intro hl
      exact hn ⟨by simp, by simp only [List.length_cons]; omega⟩
    · rintro (hl | ⟨x', ds', he, -, hl⟩) ⟨-, hg⟩
      · omega
      · have : ds = ds' := by
          simp only [List.cons.injEq, true_and] at he
          exact he.2
        subst this
        simp only [List.length_cons] at hg
        omega
  · rw [if_neg h]
    constructor
    · intro hn
      left
      apply Nat.le_of_not_lt
      intro hl
      refine hn ⟨?_, hl⟩
      rintro rfl
      simp at hl
    · rintro (hl | ⟨x, ds, he, hx, -⟩) ⟨-, hg⟩
      · omega
      · exact h (upper_0X.2 ⟨x, ds, he, hx⟩)

theorem checkPart_iff (a : List Str) (p q : Parsed) : checkPart a p = some q ↔
    PartOk p ∧ q = { p with
      overheadFactor := if p.fixedSize ≠ 0 ∨ "--overhead-factor".toList ∈ a then p.overheadFactor
        else some "1.3".toList
      extraSpace := if p.fixedSize ≠ 0 ∨ "--extra-space".toList ∈ a then p.extraSpace
        else some 10240 } := by
  unfold checkPart
  by_cases h1 : p.fstype = "squashfs".toList ∧ p.fsuuid ≠ []
  · rw [if_pos h1]
    simp only [reduceCtorEq, false_iff]
    rintro ⟨hk, -⟩
    exact h1.2 (hk.squashfs h1.1).1
  rw [if_neg h1]
  by_cases h2 : p.fstype = "squashfs".toList ∧ p.label ≠ []
  · rw [if_pos h2]
    simp only [reduceCtorEq, false_iff]
    rintro ⟨hk, -⟩
    exact h2.2 (hk.squashfs h2.1).2
  rw [if_neg h2]
  by_cases h3 : p.fstype = "erofs".toList ∧ p.label ≠ []
  · rw [if_pos h3]
    simp only [reduceCtorEq, false_iff]
    rintro ⟨hk, -⟩
    exact h3.2 (hk.erofs h3.1)
  rw [if_neg h3]
  by_cases h4 : (p.fstype = "msdos".toList ∨ p.fstype = "vfat".toList) ∧ p.fsuuid ≠ [] ∧
      (if startsWith (upper p.fsuuid) "0X".toList then p.fsuuid.length > 10
        else p.fsuuid.length > 8)
  · rw [if_pos h4]
    simp only [reduceCtorEq, false_iff]
    rintro ⟨hk, -⟩
    exact (fat_cond p.fsuuid).2 (hk.fat h4.1.symm) h4.2
  rw [if_neg h4]
  by_cases h5 : p.useLabel = true ∧ p.label = []
  · rw [if_pos h5]
    simp only [reduceCtorEq, false_iff]
    rintro ⟨hk, -⟩
    exact hk.label h5.1 h5.2
  rw [if_neg h5]
  have hok : (p.fixedSize ≠ 0 → p.overheadFactor = none ∧
      (p.extraSpace = none ∨ p.extraSpace = some 0)) → PartOk p := by
    intro hf
    refine ⟨fun h => ⟨?_, ?_⟩, fun h => ?_, fun h => ?_, fun h => ?_, hf⟩
    · exact Classical.byContradiction fun hn => h1 ⟨h, hn⟩
    · exact Classical.byContradiction fun hn => h2 ⟨h, hn⟩
    · exact Classical.byContradiction fun hn => h3 ⟨h, hn⟩
    · exact (fat_cond p.fsuuid).1 fun hn => h4 ⟨h.symm, hn⟩
    · exact fun hn => h5 ⟨h, hn⟩
  by_cases h6 : p.fixedSize ≠ 0
  · rw [if_pos h6, if_pos (Or.inl h6), if_pos (Or.inl h6)]
    split
    · next hb =>
      simp only [reduceCtorEq, false_iff]
      rintro ⟨hk, -⟩
      obtain ⟨ha, hb'⟩ := hk.fixed h6
      rw [ha] at hb
      rcases hb' with hb' | hb' <;> rw [hb'] at hb <;> simp at hb
    · next hb =>
      constructor
      · intro h
        simp only [Option.some.injEq] at h
        refine ⟨hok fun _ => ?_, h.symm⟩
        constructor
        · cases ho : p.overheadFactor with
          | none => rfl
          | some x => exact absurd (Or.inl (by rw [ho]; rfl)) hb
        · cases he : p.extraSpace with
          | none => exact Or.inl rfl
          | some x =>
            right
            by_cases hx : x = 0
            · rw [hx]
            · exact absurd (Or.inr (by rw [he]; exact hx)) hb
      · rintro ⟨-, rfl⟩
        rfl
  · have h6' : p.fixedSize = 0 := Classical.byContradiction h6
    rw [if_neg h6]
    have e : ∀ P : Prop, (p.fixedSize ≠ 0 ∨ P) = P := fun P => by simp [h6']
    simp only [e, Option.some.injEq]
    constructor
    · intro h
      exact ⟨hok (fun h => absurd h6' h), h.symm⟩
    · rintro ⟨-, rfl⟩
      rfl

/-- C11: a partition line is accepted exactly if its options do not contradict each other; what
is recorded then differs from what was given at most in the two options with defaults, and these
only if the size is not fixed. -/
theorem contradictions_rejected (a : List Str) (p : Parsed) :
    ((checkPart a p).isSome = true ↔ PartOk p) ∧
    ∀ q, checkPart a p = some q →
      { q with overheadFactor := p.overheadFactor, extraSpace := p.extraSpace } = p ∧
      (p.fixedSize ≠ 0 → q = p) := by
  constructor
  · constructor
    · intro h
      obtain ⟨q, hq⟩ := Option.isSome_iff_exists.1 h
      exact ((checkPart_iff a p q).1 hq).1
    · intro h
      exact Option.isSome_iff_exists.2 ⟨_, (checkPart_iff a p _).2 ⟨h, rfl⟩⟩
  · intro q hq
    obtain ⟨-, rfl⟩ := (checkPart_iff a p q).1 hq
    refine ⟨rfl, fun h => ?_⟩
    rw [if_pos (Or.inl h), if_pos (Or.inl h)]

example : PartOk { fstype := "vfat".toList, fsuuid := "0xDEADBEEF".toList } :=
  ⟨fun h => absurd h (by decide), fun h => absurd h (by decide),
    fun _ => Or.inr ⟨'x', "DEADBEEF".toList, by decide, by simp, by decide⟩,
    fun h => absurd h (by decide), fun h => absurd rfl h⟩

example : ¬ PartOk { fstype := "vfat".toList, fsuuid := "DEADBEEF1".toList } := by
  intro h
  rcases h.fat (Or.inl rfl) with h | ⟨x, ds, h, hx, -⟩
  · exact absurd h (by decide)
  · exact absurd (List.cons.inj h).1 (by decide)

/-- C11: `--size` and `--fixed-size` cannot be given together. -/
theorem size_conflict {okFloat ws p} (h : parsePart okFloat ws = some p) :
    p.size = 0 ∨ p.fixedSize = 0 := by
  unfold parsePart at h
  split at h
  · simp at h
  · next occs pos hs =>
    split at h
    · simp at h
    split at h
    · simp at h
    split at h
    · simp at h
    next hc =>
    simp only [Option.some.injEq] at h
    subst h
    simp only
    have key : ∀ o : Str, nonzeroUse occs o = false →
        ((lastVal occs o).bind (sizetype ['M'] false)).getD 0 = 0 := by
      intro o ho
      unfold nonzeroUse at ho
      rw [List.any_eq_false] at ho
      unfold lastVal
      cases hl : (occs.filter (fun x => decide (x.opt = o))).getLast? with
      | none => rfl
      | some x =>
        have hx := List.mem_of_getLast? hl
        rw [List.mem_filter] at hx
        have := ho x hx.1
        simp only [hx.2, Bool.true_and, decide_eq_true_eq] at this
        have : (x.vals.head?.bind (sizetype ['M'] false)) = some 0 :=
          Classical.byContradiction this
        simp [this]
    cases h1 : nonzeroUse occs "--size".toList
    · exact Or.inl (key _ h1)
    · cases h2 : nonzeroUse occs "--fixed-size".toList
      · exact Or.inr (key _ h2)
      · exact absurd ⟨h1, h2⟩ hc

/-- C10: negative sizes are not rejected. -/
theorem negative_size_accepted : sizetype ['M'] false "-5".toList = some (-5120) := by decide

example : parsePart (fun _ => true) ["--size".toList, "5".toList, "--fixed-size=6".toList] = none ∧
    (parsePart (fun _ => true) ["--size".toList, "5".toList]).isSome = true := by decide +kernel

/-! ## C12: defaults for overhead and extra space -/

/-- C12, for options that are written as a word of their own: if a partition line without
`--fixed-size` contains the word `--overhead-factor`, the value used is the last one given; if
the option is not used in any spelling, the default is used.  Likewise for `--extra-space`. -/
theorem explicit_honoured_partial {okFloat args p q}
    (hp : parsePart okFloat args = some p) (hq : checkPart ("part".toList :: args) p = some q)
    (hf : p.fixedSize = 0) :
    ("--overhead-factor".toList ∈ args → q.overheadFactor = lastVal p.occs "--overhead-factor".toList) ∧
    ((∀ x ∈ p.occs, x.opt ≠ "--overhead-factor".toList) → q.overheadFactor = some "1.3".toList) ∧
    ("--extra-space".toList ∈ args → q.extraSpace =
      (lastVal p.occs "--extra-space".toList).bind (sizetype ['M'] false)) ∧
    ((∀ x ∈ p.occs, x.opt ≠ "--extra-space".toList) → q.extraSpace = some 10240) := by
  obtain ⟨-, rfl⟩ := (checkPart_iff _ p q).1 hq
  have hne : ∀ o : Str, o.head? = some '-' → (o ∈ "part".toList :: args ↔ o ∈ args) := by
    intro o ho
    rw [List.mem_cons]
    constructor
    · rintro (rfl | h)
      · exact absurd ho (by decide)
      · exact h
    · exact Or.inr
  have hfz : ∀ P : Prop, (p.fixedSize ≠ 0 ∨ P) ↔ P := fun P => by simp [hf]
  unfold parsePart at hp
  split at hp
  · simp at hp
  next occs pos hs =>
  split at hp
  · simp at hp
  split at hp
  · simp at hp
  split at hp
  · simp at hp
  simp only [Option.some.injEq] at hp
  have ho : p.occs = occs := by rw [← hp]
  have h1 : p.overheadFactor = lastVal occs "--overhead-factor".toList := by rw [← hp]
  have h2 : p.extraSpace = (lastVal occs "--extra-space".toList).bind (sizetype ['M'] false) := by
    rw [← hp]
  rw [ho]
  simp only
  have r1 : resolve partOpts "--overhead-factor".toList =
      .opt "--overhead-factor".toList .one none := by decide +kernel
  have r2 : resolve partOpts "--extra-space".toList =
      .opt "--extra-space".toList .one none := by decide +kernel
  refine ⟨fun h => ?_, fun h => ?_, fun h => ?_, fun h => ?_⟩
  · rw [if_pos (Or.inr ((hne _ (by decide)).2 h)), h1]
  · rw [if_neg]
    rw [hfz, hne _ (by decide)]
    intro hm
    obtain ⟨x, hx, hxo⟩ := scan_records r1 _ _ _ _ hs hm
    exact h x hx hxo
  · rw [if_pos (Or.inr ((hne _ (by decide)).2 h)), h2]
  · rw [if_neg]
    rw [hfz, hne _ (by decide)]
    intro hm
    obtain ⟨x, hx, hxo⟩ := scan_records r2 _ _ _ _ hs hm
    exact h x hx hxo

/-- The words of a line and what becomes of them. -/
def parseWords (ws : List Str) : Option Parsed :=
  (parsePart (fun _ => true) ws).bind (checkPart ("part".toList :: ws))

example : (parseWords ["/".toList, "--overhead-factor".toList, "1.5".toList]).map
    (fun q => (q.overheadFactor, q.extraSpace)) = some (some "1.5".toList, some 10240) := by
  decide +kernel

/-- C12 fails for the spellings `--option=value` and for abbreviations: the given values are
accepted and then replaced by the defaults. -/
theorem explicit_ignored :
    (parseWords ["/".toList, "--overhead-factor=1.5".toList, "--extra-space=0".toList]).map
      (fun q => (q.overheadFactor, q.extraSpace)) = some (some "1.3".toList, some 10240) ∧
    (parseWords ["/".toList, "--overhead".toList, "1.5".toList]).map
      (fun q => q.overheadFactor) = some (some "1.3".toList) := by
  decide +kernel

/-! ## C13: expansion -/

theorem keyChar_iff {c : Char} : keyChar c = true ↔ c ∉ ['{', '}', '@', '\n', '\t', ' ', ':'] := by
  simp [keyChar, not_or, and_assoc]

theorem refAt_iff {line a k b : Str} : RefAt line a k b ↔
    line = a ++ '$' :: '{' :: (k ++ '}' :: b) ∧ k ≠ [] ∧ ∀ c ∈ k, keyChar c = true := by
  unfold RefAt
  simp only [keyChar_iff]
  simp

/-- C13: the result is reached by expanding first references; it contains a reference only if
the first one is to an unknown variable. -/
theorem expand_sound (env : Str → Option Str) : ∀ fuel line r,
    expandLine env fuel line = some r →
    ExpandSteps env line r ∧
      ∀ a k b, RefAt r a k b → (∀ a' k' b', RefAt r a' k' b' → a.length ≤ a'.length) →
        env k = none := by
  intro fuel
  induction fuel with
  | zero => intro line r h; simp [expandLine] at h
  | succ fuel ih =>
    intro line r h
    unfold expandLine at h
    split at h
    · next hs =>
      simp only [Option.some.injEq] at h
      subst h
      refine ⟨.refl _, fun a k b hr _ => ?_⟩
      rw [refAt_iff] at hr
      exact (searchRef_none hs a k b hr.1 hr.2.1 hr.2.2).elim
    · next a k b hs =>
      have href := searchRef_some hs
      have hfirst : ∀ a' k' b', RefAt line a' k' b' → a.length ≤ a'.length := by
        intro a' k' b' hr
        rw [refAt_iff] at hr
        exact searchRef_first hs a' k' b' hr.1 hr.2.1 hr.2.2
      split at h
      · next hk =>
        simp only [Option.some.injEq] at h
        subst h
        refine ⟨.refl _, fun a' k' b' hr hf => ?_⟩
        have hl : a.length = a'.length :=
          Nat.le_antisymm (hfirst _ _ _ hr) (hf _ _ _ (refAt_iff.2 href))
        rw [refAt_iff] at hr
        have he := href.1.symm.trans hr.1
        have he2 := (List.append_inj he hl).2
        have he := (List.cons.inj (List.cons.inj he2).2).2
        have hkk : k = k' := by
          have e1 := (dropWhile_app (r := b) href.2.2 (show keyChar '}' = false by decide)).2
          have e2 := (dropWhile_app (r := b') hr.2.2 (show keyChar '}' = false by decide)).2
          rw [← e1, ← e2, he]
        rw [← hkk]
        exact hk
      · next v hv =>
        obtain ⟨h1, h2⟩ := ih _ _ h
        exact ⟨.step ⟨a, k, b, v, refAt_iff.2 href, hfirst, hv, rfl⟩ h1, h2⟩

/-- C13: expansion ends if no value contains a `$`. -/
theorem expand_terminates (env : Str → Option Str) (h : ∀ k v, env k = some v → '$' ∉ v) :
    ∀ fuel line, line.count '$' < fuel → ∃ r, expandLine env fuel line = some r := by
  intro fuel
  induction fuel with
  | zero => intro line hl; omega
  | succ fuel ih =>
    intro line hl
    unfold expandLine
    split
    · exact ⟨_, rfl⟩
    · next a k b hs =>
      split
      · exact ⟨_, rfl⟩
      · next v hv =>
        apply ih
        have := (searchRef_some hs).1
        rw [this] at hl
        simp only [List.count_append, List.count_cons, beq_self_eq_true, if_true] at hl ⊢
        rw [List.count_eq_zero.2 (h k v hv)]
        omega

/-- C13: a line made of plain text and references to variables with plain values becomes the
text with the values in place of the references. -/
theorem expand_pieces (env : Str → Option Str) (ps : List Piece) : (∀ p ∈ ps, p.Plain env) →
    ∀ done : Str, '$' ∉ done → ∀ fuel, ps.length < fuel →
    expandLine env fuel (done ++ (ps.map Piece.source).flatten) =
      some (done ++ (ps.map (Piece.value env)).flatten) := by
  induction ps with
  | nil =>
    intro _ done hd fuel hf
    cases fuel with
    | zero => omega
    | succ fuel =>
      have : searchRef done = none := by
        have := searchRef_lit (s := []) hd
        simpa [searchRef] using this
      simp [expandLine, this]
  | cons p ps ih =>
    intro hp done hd fuel hf
    have hps := fun q hq => hp q (List.mem_cons_of_mem _ hq)
    have hpp := hp p (by simp)
    simp only [List.map_cons, List.flatten_cons]
    simp only [List.length_cons] at hf
    cases p with
    | text s =>
      have : '$' ∉ done ++ s := by
        rw [List.mem_append]
        rintro (h | h)
        · exact hd h
        · exact hpp h
      rw [← List.append_assoc, ← List.append_assoc]
      exact ih hps (done ++ s) this fuel (by omega)
    | ref k =>
      obtain ⟨hk, hc, v, hv, hvd⟩ := hpp
      cases fuel with
      | zero => omega
      | succ fuel =>
        have hkc : ∀ c ∈ k, keyChar c = true := fun c hcc => by
          rw [keyChar_iff]
          intro hm
          exact hc c hcc (by simp at hm ⊢; grind)
        have hs : searchRef (done ++ ((Piece.ref k).source ++ (ps.map Piece.source).flatten)) =
            some (done, k, (ps.map Piece.source).flatten) := by
          rw [searchRef_lit hd]
          have : (Piece.ref k).source ++ (ps.map Piece.source).flatten =
              '$' :: '{' :: (k ++ '}' :: (ps.map Piece.source).flatten) := by
            simp [Piece.source]
          rw [this, searchRef, matchRef_some.2 ⟨rfl, hk, hkc⟩]
          simp
        unfold expandLine
        rw [hs]
        simp only [hv]
        have hval : (Piece.ref k).value env = v := by simp [Piece.value, hv]
        rw [hval, ← List.append_assoc]
        apply ih hps
        · rw [List.mem_append]
          rintro (h | h)
          · exact hd h
          · exact hvd h
        · omega

example : expandLine (fun k => if k = "A".toList then some "x y".toList else none) 5
    "part ${A} --label ${A}z ${B}".toList = some "part x y --label x yz ${B}".toList := by
  decide +kernel

/-- C13 needs the assumption: a variable whose value refers to itself is expanded forever. -/
theorem expand_diverges (env : Str → Option Str) (h : env ['A'] = some "${A}".toList) :
    ∀ fuel, expandLine env fuel "${A}".toList = none := by
  intro fuel
  induction fuel with
  | zero => rfl
  | succ fuel ih =>
    unfold expandLine
    have : searchRef "${A}".toList = some ([], ['A'], []) := by decide
    rw [this]
    simp only [h]
    exact ih

/-! ## C14: sizes -/

theorem tdiv_ge {x : Int} {num den : Nat} (hx : 0 ≤ x) (hd : 0 < den) (h : den ≤ num) :
    x ≤ (x * num).tdiv den := by
  rw [Int.tdiv_eq_ediv_of_nonneg (Int.mul_nonneg hx (by omega))]
  rw [Int.le_ediv_iff_mul_le (by omega)]
  exact Int.mul_le_mul_of_nonneg_left (by omega) hx

/-- C14: without `--fixed-size` a root filesystem gets at least the size of its content plus the
extra space, and at least the requested size; with `--fixed-size` it gets exactly that size, and
that only if the content fits. -/
theorem rootfs_size_enough {size fixed extra : Int} {num den : Nat} {actual r : Int}
    (hd : 0 < den) (hov : den ≤ num) (ha : 0 ≤ actual)
    (h : rootfsSize size fixed extra num den actual = some r) :
    actual ≤ r ∧ (fixed = 0 → size ≤ r ∧ actual + extra ≤ r) ∧ (fixed ≠ 0 → r = fixed) := by
  unfold rootfsSize at h
  split at h
  · next hf =>
    split at h
    · simp at h
    · simp only [Option.some.injEq] at h
      subst h
      exact ⟨by omega, fun h => absurd h hf, fun _ => rfl⟩
  · next hf =>
    simp only [Option.some.injEq] at h
    have hb : 0 ≤ extraBlockCount size actual ∧ size ≤ actual + extraBlockCount size actual := by
      unfold extraBlockCount
      split
      · omega
      · split <;> omega
    generalize extraBlockCount size actual = e at h hb
    have hm : actual ≤ actual + (if e < extra then extra else e) ∧
        size ≤ actual + (if e < extra then extra else e) ∧
        actual + extra ≤ actual + (if e < extra then extra else e) := by
      split <;> omega
    have := tdiv_ge (num := num) (den := den)
      (show 0 ≤ actual + (if e < extra then extra else e) by omega) hd hov
    rw [h] at this
    exact ⟨by omega, fun _ => by omega, fun h => absurd h hf⟩

/-- C14: nothing is wasted: without `--fixed-size`, the size is exactly the largest of content,
requested size and content plus extra space, times the overhead factor, rounded down. -/
theorem rootfs_size_exact (size extra : Int) (num den : Nat) (actual : Int) (ha : 0 ≤ actual) :
    rootfsSize size 0 extra num den actual =
      some (max actual (max size (actual + extra)) * num / den) := by
  unfold rootfsSize
  rw [if_neg (by simp)]
  simp only
  have hb : extraBlockCount size actual = max actual size - actual := by
    unfold extraBlockCount
    split
    · omega
    · split <;> omega
  rw [hb]
  have hm : actual + (if max actual size - actual < extra then extra else max actual size - actual) =
      max actual (max size (actual + extra)) := by
    split <;> omega
  rw [hm, Int.tdiv_eq_ediv_of_nonneg]
  exact Int.mul_nonneg (by omega) (by omega)

/-- C14: the build fails only if the content is larger than the fixed size. -/
theorem rootfs_size_total (size fixed extra : Int) (num den : Nat) (actual : Int) :
    rootfsSize size fixed extra num den actual = none ↔ fixed ≠ 0 ∧ fixed < actual := by
  unfold rootfsSize
  split
  · next hf =>
    split
    · simp [hf]; omega
    · simp [hf]; omega
  · next hf => simp [hf]

example : rootfsSize 0 0 10240 13 10 50000 = some 78312 ∧
    rootfsSize 0 40000 0 13 10 50000 = none := by decide

/-- C14: the size on disk is at least the size of the filesystem image, if `prepare` accepts it. -/
theorem disk_size_enough (size fixed : Int) (h : checkFixed size fixed = true) :
    size ≤ diskSize size fixed ∧ (fixed ≠ 0 → diskSize size fixed = fixed) := by
  unfold checkFixed at h
  unfold diskSize
  split
  · next hf =>
    simp [hf] at h
    exact ⟨h, fun _ => rfl⟩
  · next hf => exact ⟨Int.le_refl _, fun h => absurd h hf⟩

example : checkFixed 100 120 = true ∧ diskSize 100 120 = 120 ∧ checkFixed 130 120 = false := by
  decide

/-! ## C50: system ids -/

theorem hexDigitsVal_sound (ds : Str) : ∀ b acc n, hexDigitsVal b acc ds = some n →
    n = (ds.filterMap hexVal).foldl (fun a d => 16 * a + d) acc ∧
      ∀ c ∈ ds, (hexVal c).isSome = true ∨ c = '_' := by
  induction ds with
  | nil =>
    intro b acc n h
    simp only [hexDigitsVal] at h
    split at h
    · simp only [Option.some.injEq] at h
      exact ⟨h.symm, by simp⟩
    · simp at h
  | cons c ds ih =>
    intro b acc n h
    rw [hexDigitsVal] at h
    cases hc : hexVal c with
    | some d =>
      rw [hc] at h
      obtain ⟨h1, h2⟩ := ih _ _ _ h
      rw [List.filterMap_cons, hc]
      refine ⟨h1, fun x hx => ?_⟩
      rw [List.mem_cons] at hx
      rcases hx with rfl | hx
      · left; rw [hc]; rfl
      · exact h2 x hx
    | none =>
      rw [hc] at h
      simp only at h
      split at h
      · next hu =>
        obtain ⟨h1, h2⟩ := ih _ _ _ h
        rw [List.filterMap_cons, hc]
        refine ⟨h1, fun x hx => ?_⟩
        rw [List.mem_cons] at hx
        rcases hx with rfl | hx
        · exact Or.inr hu.1
        · exact h2 x hx
      · simp at h

/-- C50: `--system-id` accepts exactly hexadecimal numbers from 1 to 255, and passes the text on
unchanged. -/
theorem system_id_range (arg r : Str) : systemidtype arg = some r ↔
    r = arg ∧ ∃ v : Int, pyIntHex arg = some v ∧ 1 ≤ v ∧ v ≤ 255 := by
  unfold systemidtype
  cases h : pyIntHex arg with
  | none => simp
  | some v =>
    simp only
    split
    · simp; omega
    · simp only [Option.some.injEq, exists_eq_left']
      constructor
      · rintro rfl
        exact ⟨rfl, by omega, by omega⟩
      · rintro ⟨rfl, -⟩
        rfl

/-- C50: the value of a string of hexadecimal digits, with or without `0x`. -/
theorem hex_value (ds : Str) (hne : ds ≠ []) (hd : ∀ c ∈ ds, (hexVal c).isSome = true) :
    pyIntHex ('0' :: 'x' :: ds) = some (((ds.filterMap hexVal).foldl (fun a d => 16 * a + d) 0 : Nat) : Int) := by
  have hval : ∀ ds : Str, (∀ c ∈ ds, (hexVal c).isSome = true) → ∀ b acc, (b = true ∨ ds ≠ []) →
      hexDigitsVal b acc ds = some ((ds.filterMap hexVal).foldl (fun a d => 16 * a + d) acc) := by
    intro ds
    induction ds with
    | nil =>
      intro _ b acc h
      rcases h with h | h
      · simp [hexDigitsVal, h]
      · exact absurd rfl h
    | cons c ds ih =>
      intro hd b acc _
      obtain ⟨d, hc⟩ := Option.isSome_iff_exists.1 (hd c (by simp))
      rw [hexDigitsVal, hc, List.filterMap_cons, hc]
      exact ih (fun x hx => hd x (by simp [hx])) true _ (Or.inl rfl)
  have hws : ∀ c, (hexVal c).isSome = true → isWs c = false := by
    intro c hc
    cases hw : isWs c
    · rfl
    · simp only [isWs, Bool.or_eq_true, decide_eq_true_eq] at hw
      rcases hw with ((((((((rfl | rfl) | rfl) | rfl) | rfl) | rfl) | rfl) | rfl) | rfl) | rfl <;>
        exact absurd hc (by decide)
  have hst : strip ('0' :: 'x' :: ds) = '0' :: 'x' :: ds := by
    apply strip_clean
    · intro c hc
      simp only [List.head?_cons, Option.mem_def, Option.some.injEq] at hc
      subst hc
      decide
    · intro c hc
      rw [List.getLast?_cons_cons] at hc
      cases ds with
      | nil => exact absurd rfl hne
      | cons d ds =>
        rw [List.getLast?_cons_cons] at hc
        exact hws c (hd c (List.mem_of_mem_getLast? hc))
  have hu : hexUnsigned ('0' :: 'x' :: ds) =
      some ((ds.filterMap hexVal).foldl (fun a d => 16 * a + d) 0) := by
    cases ds with
    | nil => exact absurd rfl hne
    | cons d ds =>
      have hd' : d ≠ '_' := by
        rintro rfl
        exact absurd (hd '_' (by simp)) (by decide)
      rw [← hval _ hd false 0 (Or.inr hne), hexUnsigned, if_pos (Or.inl rfl)]
      exact fun ds' heq => absurd (List.cons.inj heq).1 hd'
  have : pyIntHex ('0' :: 'x' :: ds) = (hexUnsigned ('0' :: 'x' :: ds)).map fun (n : Nat) => (n : Int) := by
    unfold pyIntHex
    rw [hst]
    split
    · next heq => exact absurd (List.cons.inj heq).1 (by decide)
    · next heq => exact absurd (List.cons.inj heq).1 (by decide)
    · rfl
  rw [this, hu]
  rfl

example : systemidtype "0x83".toList = some "0x83".toList ∧ systemidtype "ff".toList = some "ff".toList ∧
    systemidtype "0x100".toList = none ∧ systemidtype "0".toList = none ∧
    systemidtype "0xg".toList = none := by decide

/-! ## C47: includes are textual, order is kept -/

/-- The loop over the lines, with a bound on the nesting of includes. -/
def parseLines (w : World) (fuel : Nat) : List Str → KState → Option KState :=
  parseLinesWith w (parseFile w fuel)

theorem parseLines_nil (w : World) (fuel : Nat) (s : KState) : parseLines w fuel [] s = some s := rfl

theorem parseLines_cons (w : World) (fuel : Nat) (l : Str) (ls : List Str) (s : KState) :
    parseLines w fuel (l :: ls) s =
    match readLine w l with
    | none => none
    | some (.incl p) =>
      match parseFile w fuel p s with
      | none => none
      | some s => parseLines w fuel ls s
    | some c =>
      match applyCommand w s c with
      | none => none
      | some s => parseLines w fuel ls s := rfl

theorem parseFile_zero (w : World) (path : Str) (s : KState) : parseFile w 0 path s = none := rfl

theorem parseFile_succ (w : World) (fuel : Nat) (path : Str) (s : KState) :
    parseFile w (fuel + 1) path s =
    match w.file path with
    | none => none
    | some lines => parseLines w fuel lines s := rfl

theorem parse_sound (w : World) : ∀ fuel,
    (∀ path s s', parseFile w fuel path s = some s' →
      ∃ lines cs, w.file path = some lines ∧ Inlined w lines cs ∧
        cs.foldlM (applyCommand w) s = some s') ∧
    (∀ lines s s', parseLines w fuel lines s = some s' →
      ∃ cs, Inlined w lines cs ∧ cs.foldlM (applyCommand w) s = some s') := by
  intro fuel
  induction fuel with
  | zero =>
    constructor
    · intro path s s' h
      simp [parseFile_zero] at h
    · intro lines
      induction lines with
      | nil =>
        intro s s' h
        rw [parseLines_nil] at h
        exact ⟨[], .nil, h⟩
      | cons l ls ih =>
        intro s s' h
        rw [parseLines_cons] at h
        split at h
        · simp at h
        · simp [parseFile_zero] at h
        · next c hc hr =>
          split at h
          · simp at h
          · next s1 ha =>
            obtain ⟨cs, h1, h2⟩ := ih _ _ h
            refine ⟨c :: cs, .command hr (fun p hp => by subst hp; exact hc p rfl) h1, ?_⟩
            rw [List.foldlM_cons, ha]
            exact h2
  | succ fuel ihf =>
    obtain ⟨ih1, ih2⟩ := ihf
    have hfile : ∀ path s s', parseFile w (fuel + 1) path s = some s' →
        ∃ lines cs, w.file path = some lines ∧ Inlined w lines cs ∧
          cs.foldlM (applyCommand w) s = some s' := by
      intro path s s' h
      rw [parseFile_succ] at h
      split at h
      · simp at h
      · next lines hl =>
        obtain ⟨cs, h1, h2⟩ := ih2 _ _ _ h
        exact ⟨lines, cs, hl, h1, h2⟩
    refine ⟨hfile, ?_⟩
    intro lines
    induction lines with
    | nil =>
      intro s s' h
      rw [parseLines_nil] at h
      exact ⟨[], .nil, h⟩
    | cons l ls ih =>
      intro s s' h
      rw [parseLines_cons] at h
      split at h
      · simp at h
      · next p hr =>
        split at h
        · simp at h
        · next s1 ha =>
          obtain ⟨lines', cs', g1, g2, g3⟩ := hfile _ _ _ ha
          obtain ⟨cs, h1, h2⟩ := ih _ _ h
          refine ⟨cs' ++ cs, .incl hr g1 g2 h1, ?_⟩
          rw [List.foldlM_append, g3]
          exact h2
      · next c hc hr =>
        split at h
        · simp at h
        · next s1 ha =>
          obtain ⟨cs, h1, h2⟩ := ih _ _ h
          refine ⟨c :: cs, .command hr (fun p hp => by subst hp; exact hc p rfl) h1, ?_⟩
          rw [List.foldlM_cons, ha]
          exact h2

theorem parse_mono (w : World) : ∀ fuel,
    (∀ path s s', parseFile w fuel path s = some s' → parseFile w (fuel + 1) path s = some s') ∧
    (∀ lines s s', parseLines w fuel lines s = some s' →
      parseLines w (fuel + 1) lines s = some s') := by
  have hlines : ∀ fuel, (∀ path s s', parseFile w fuel path s = some s' →
      parseFile w (fuel + 1) path s = some s') → ∀ lines s s', parseLines w fuel lines s = some s' →
      parseLines w (fuel + 1) lines s = some s' := by
    intro fuel hf lines
    induction lines with
    | nil => intro s s' h; simpa only [parseLines_nil] using h
    | cons l ls ih =>
      intro s s' h
      rw [parseLines_cons] at h ⊢
      split at h
      · simp at h
      · next p hr =>
        split at h
        · simp at h
        · next s1 ha =>
          rw [hf _ _ _ ha]
          exact ih _ _ h
      · next c hc hr =>
        split at h
        · simp at h
        · next s1 ha => exact ih _ _ h
  intro fuel
  induction fuel with
  | zero => exact ⟨fun _ _ _ h => by simp [parseFile_zero] at h, hlines 0 (fun _ _ _ h => by simp [parseFile_zero] at h)⟩
  | succ fuel ih =>
    have : ∀ path s s', parseFile w (fuel + 1) path s = some s' →
        parseFile w (fuel + 1 + 1) path s = some s' := by
      intro path s s' h
      rw [parseFile_succ] at h ⊢
      split at h
      · simp at h
      · exact ih.2 _ _ _ h
    exact ⟨this, hlines _ this⟩

theorem parseLines_le (w : World) {m n : Nat} (h : m ≤ n) {lines s s'}
    (hp : parseLines w m lines s = some s') : parseLines w n lines s = some s' := by
  induction h with
  | refl => exact hp
  | step _ ih => exact (parse_mono w _).2 _ _ _ ih

theorem parse_complete (w : World) {lines cs} (h : Inlined w lines cs) : ∀ s s',
    cs.foldlM (applyCommand w) s = some s' → ∃ fuel, parseLines w fuel lines s = some s' := by
  induction h with
  | nil => intro s s' hs; exact ⟨0, by rw [parseLines_nil]; exact hs⟩
  | command hr hc _ ih =>
    intro s s' hs
    rename_i l ls c cs _
    rw [List.foldlM_cons] at hs
    cases ha : applyCommand w s c with
    | none => rw [ha] at hs; simp at hs
    | some s1 =>
      rw [ha] at hs
      obtain ⟨fuel, hf⟩ := ih _ _ hs
      refine ⟨fuel, ?_⟩
      rw [parseLines_cons, hr]
      cases c with
      | incl p => exact absurd rfl (hc p)
      | part a p => simp only [ha]; exact hf
      | bootloader b => simp only [ha]; exact hf
      | nothing => simp only [ha]; exact hf
  | incl hr hl _ _ ih1 ih2 =>
    intro s s' hs
    rename_i l ls p ls' cs cs' _ _
    rw [List.foldlM_append] at hs
    cases ha : cs'.foldlM (applyCommand w) s with
    | none => rw [ha] at hs; simp at hs
    | some s1 =>
      rw [ha] at hs
      obtain ⟨f1, h1⟩ := ih1 _ _ ha
      obtain ⟨f2, h2⟩ := ih2 _ _ hs
      refine ⟨max f1 f2 + 1, ?_⟩
      rw [parseLines_cons, hr]
      simp only
      rw [parseFile_succ, hl]
      simp only
      rw [parseLines_le w (Nat.le_max_left f1 f2) h1]
      exact parseLines_le w (Nat.le_succ_of_le (Nat.le_max_right f1 f2)) h2

theorem fold_parts (w : World) (cs : List Command) : ∀ s s' : KState,
    cs.foldlM (applyCommand w) s = some s' →
    s'.partnum = s.partnum + (partsOf cs).length ∧
    (∃ qs : List Parsed, qs.length = (partsOf cs).length ∧
      (∀ i (h1 : i < (partsOf cs).length) (h2 : i < qs.length),
        checkPart (partsOf cs)[i].1 (partsOf cs)[i].2 = some qs[i]) ∧
      s'.partitions = s.partitions ++ qs.zip ((List.range' (s.partnum + 1) qs.length))) ∧
    (match s.bootloader with
      | some b => bootloadersOf cs = [] ∧ s'.bootloader = some b
      | none => (bootloadersOf cs).length ≤ 1 ∧
          s'.bootloader = (bootloadersOf cs).head?.map (addAppend w)) := by
  induction cs with
  | nil =>
    intro s s' h
    have : s = s' := by simpa using h
    subst this
    refine ⟨rfl, ⟨[], rfl, by simp [partsOf], by simp⟩, ?_⟩
    cases s.bootloader <;> simp [bootloadersOf]
  | cons c cs ih =>
    intro s s' h
    rw [List.foldlM_cons] at h
    cases ha : applyCommand w s c with
    | none => rw [ha] at h; simp at h
    | some s1 =>
      rw [ha] at h
      obtain ⟨i1, ⟨qs, i2, i3, i4⟩, i5⟩ := ih s1 s' h
      cases c with
      | part a p =>
        simp only [applyCommand] at ha
        cases hc : checkPart a p with
        | none => rw [hc] at ha; simp at ha
        | some q =>
          rw [hc] at ha
          simp only [Option.map_some, Option.some.injEq] at ha
          subst ha
          have e : partsOf (.part a p :: cs) = (a, p) :: partsOf cs := rfl
          have e' : bootloadersOf (.part a p :: cs) = bootloadersOf cs := rfl
          rw [e, e']
          refine ⟨?_, ⟨q :: qs, by simp [i2], ?_, ?_⟩, i5⟩
          · rw [i1]; simp; omega
          · intro i h1 h2
            cases i with
            | zero => simpa using hc
            | succ i =>
              simp only [List.getElem_cons_succ]
              exact i3 i (by simpa using h1) (by simpa using h2)
          · rw [i4]
            simp [List.range'_succ]
      | bootloader b =>
        simp only [applyCommand] at ha
        split at ha
        · next hb =>
          simp only [Option.some.injEq] at ha
          subst ha
          have hn : s.bootloader = none := by simpa using hb
          have e : partsOf (.bootloader b :: cs) = partsOf cs := rfl
          have e' : bootloadersOf (.bootloader b :: cs) = b :: bootloadersOf cs := rfl
          rw [e, e', hn]
          simp only at i5 ⊢
          exact ⟨i1, ⟨qs, i2, i3, i4⟩, by simp [i5.1], by simp [i5.2]⟩
        · simp at ha
      | incl p =>
        simp only [applyCommand, Option.some.injEq] at ha
        subst ha
        exact ⟨i1, ⟨qs, i2, i3, i4⟩, i5⟩
      | nothing =>
        simp only [applyCommand, Option.some.injEq] at ha
        subst ha
        exact ⟨i1, ⟨qs, i2, i3, i4⟩, i5⟩

/-- C47: reading a kickstart file succeeds (with enough nesting allowed) exactly if its text with
all includes inlined can be processed line by line. -/
theorem include_textual (w : World) (path : Str) (s s' : KState) :
    (∃ fuel, parseFile w fuel path s = some s') ↔
      ∃ lines cs, w.file path = some lines ∧ Inlined w lines cs ∧
        cs.foldlM (applyCommand w) s = some s' := by
  constructor
  · rintro ⟨fuel, h⟩
    exact (parse_sound w fuel).1 _ _ _ h
  · rintro ⟨lines, cs, h1, h2, h3⟩
    obtain ⟨fuel, hf⟩ := parse_complete w h2 _ _ h3
    exact ⟨fuel + 1, by rw [parseFile_succ, h1]; exact hf⟩

/-- C47: the partitions of a kickstart file are its accepted partition lines in textual order,
numbered from 1, and there is at most one boot loader line. -/
theorem partitions_in_order {w fuel path ps b} (h : kickStart w fuel path = some (ps, b)) :
    ∃ lines cs, w.file path = some lines ∧ Inlined w lines cs ∧
      ps.length = (partsOf cs).length ∧
      (∀ i (h1 : i < ps.length) (h2 : i < (partsOf cs).length),
        ps[i].2 = i + 1 ∧ checkPart (partsOf cs)[i].1 (partsOf cs)[i].2 = some ps[i].1) ∧
      (bootloadersOf cs).length ≤ 1 ∧
      b = ((bootloadersOf cs).head?.map (addAppend w)).getD {} := by
  unfold kickStart at h
  cases hs : parseFile w fuel path {} with
  | none => rw [hs] at h; simp at h
  | some s =>
    rw [hs] at h
    simp only [Option.map_some, Option.some.injEq, Prod.mk.injEq] at h
    obtain ⟨rfl, rfl⟩ := h
    obtain ⟨lines, cs, h1, h2, h3⟩ := (parse_sound w fuel).1 _ _ _ hs
    obtain ⟨-, ⟨qs, g1, g2, g3⟩, g4⟩ := fold_parts w cs {} s h3
    have g3' : s.partitions = qs.zip (List.range' 1 qs.length) := by simpa using g3
    refine ⟨lines, cs, h1, h2, by rw [g3']; simp [g1], ?_, g4.1, by rw [g4.2]⟩
    intro i hi hi2
    have hq : i < qs.length := by rw [g1]; exact hi2
    have : s.partitions[i] = (qs[i], i + 1) := by
      simp only [g3', List.getElem_zip, List.getElem_range']
      simp; omega
    rw [this]
    exact ⟨rfl, g2 i hi2 hq⟩

/-- A world with two files, one of which includes the other. -/
def demoWorld : World where
  var := fun k => if k = "APPEND".toList then some "quiet".toList else none
  file := fun p =>
    if p = "a".toList then
      some ["# demo\n".toList, "part /boot --fstype vfat\n".toList, "include b\n".toList,
        "part / --fstype=ext4 --size 1G\n".toList, "bootloader --ptable gpt --append rw\n".toList]
    else if p = "b".toList then some ["part swap --fstype swap --fixed-size 64M".toList]
    else none
  canned := some
  okFloat := fun _ => true
  expandFuel := 10

example : (kickStart demoWorld 3 "a".toList).map (fun r => r.1.map (fun p =>
    (p.1.mountpoint, p.1.size, p.1.fixedSize))) =
    some [(some "/boot".toList, 0, 0), (some "swap".toList, 0, 65536),
      (some "/".toList, 1048576, 0)] := by decide +kernel

example : (kickStart demoWorld 3 "a".toList).map (fun r => (r.2.ptable, r.2.append)) =
    some ("gpt".toList, "rw quiet".toList) := by decide +kernel

/-- C47: a file that includes itself is never accepted (Python ends with `RecursionError`). -/
theorem include_cycle (w : World) (path : Str) (pre post : List Str) (l : Str)
    (hf : w.file path = some (pre ++ l :: post)) (hl : readLine w l = some (.incl path)) :
    ∀ fuel s, parseFile w fuel path s = none := by
  have hnone : ∀ fuel, (∀ s, parseFile w fuel path s = none) → ∀ pre s,
      parseLines w fuel (pre ++ l :: post) s = none := by
    intro fuel hp pre
    induction pre with
    | nil =>
      intro s
      rw [List.nil_append, parseLines_cons, hl]
      simp only [hp]
    | cons x pre ih =>
      intro s
      rw [List.cons_append, parseLines_cons]
      split
      · rfl
      · split
        · rfl
        · exact ih _
      · split
        · rfl
        · exact ih _
  intro fuel
  induction fuel with
  | zero => intro s; rfl
  | succ fuel ih =>
    intro s
    rw [parseFile_succ, hf]
    exact hnone fuel ih pre s

example : readLine demoWorld "include a".toList = some (.incl "a".toList) := by decide +kernel

/-! ## C48: no line is dropped silently -/

/-- C48 for lines whose expansion contains no quotes and backslashes and does not begin with a
blank: such a line has an effect or is an error. -/
theorem line_has_effect_partial (w : World) (raw line : Str)
    (hne : strip raw ≠ []) (hc : startsWith (strip raw) ['#'] = false)
    (hx : expandLine w.var w.expandFuel (strip raw) = some line)
    (hq : ∀ c ∈ line, c ≠ '\\' ∧ c ≠ '\'' ∧ c ≠ '"')
    (hb : ∃ c, line.head? = some c ∧ shWs c = false) :
    readLine w raw ≠ some .nothing := by
  obtain ⟨c, hc1, hc2⟩ := hb
  cases line with
  | nil => simp at hc1
  | cons d s =>
    simp only [List.head?_cons, Option.some.injEq] at hc1
    subst hc1
    have hs := hq d (by simp)
    obtain ⟨v, vs, h1, h2⟩ := shlexGo_plain_prefix s (fun c h => hq c (by simp [h])) [d] (by simp)
    have hsplit : shlexSplit (d :: s) = some (([d] ++ v) :: vs) := by
      unfold shlexSplit
      rw [shlexGo, if_neg (by simp [hc2]), if_neg hs.1, if_neg hs.2.1, if_neg hs.2.2, h1]
    have hpre : [d] ++ v <+: d :: s := (List.prefix_cons_inj d).2 h2
    unfold readLine
    simp only
    rw [if_neg (by simp [hne, hc]), hx]
    simp only [hsplit, parseArgs]
    generalize [d] ++ v = w0 at hpre
    have key : ∀ c : Str, w0 = c → startsWith (d :: s) c = true := by
      rintro _ rfl
      exact List.isPrefixOf_iff_prefix.2 hpre
    by_cases e1 : w0 = "part".toList
    · rw [if_pos e1]
      cases parsePart w.okFloat vs with
      | none => simp
      | some p =>
        simp only [Option.map_some]
        rw [if_pos (key _ e1)]
        simp
    · rw [if_neg e1]
      by_cases e2 : w0 = "bootloader".toList
      · rw [if_pos e2]
        cases parseBootloader vs with
        | none => simp
        | some p =>
          simp only [Option.map_some]
          rw [if_pos (key _ e2)]
          simp
      · rw [if_neg e2]
        by_cases e3 : w0 = "include".toList
        · rw [if_pos e3]
          have hcan : ∀ c : Option Str, (c.map Command.incl) = none ∨
              ∃ p, c.map Command.incl = some (.incl p) := by
            intro c
            cases c with
            | none => exact Or.inl rfl
            | some p => exact Or.inr ⟨p, rfl⟩
          rcases vs with _ | ⟨p, _ | ⟨q, vs⟩⟩
          · simp
          · by_cases hr : resolve [("--help".toList, .flag)] p = .arg
            · simp only [if_pos hr]
              rcases hcan (w.canned p) with hn | ⟨p', hn⟩
              · rw [hn]; simp
              · rw [hn]
                simp only
                rw [if_pos (key _ e3)]
                simp
            · simp only [if_neg hr]
              simp
          · simp
        · rw [if_neg e3]
          exact fun h => by cases h

example : readLine demoWorld "  part /srv --label x # \n".toList = none := by decide +kernel

/-- C48 fails for a quoted command: the line is parsed without error and then ignored. -/
theorem quoted_command_ignored :
    readLine demoWorld "'part' /srv --size 1G".toList = some .nothing := by decide +kernel

/-! ## C49: options are recorded as written -/

/-- A word that cannot be taken for an option. -/
def PlainArg (t : Str) : Prop := t.head? ≠ some '-'

theorem resolve_plain {opts t} (h : PlainArg t) : resolve opts t = .arg := by
  unfold resolve
  split
  · simp [PlainArg] at h
  · rfl

/-- The words of the use of an option. -/
def Occ.words (x : Occ) : List Str := x.opt :: x.vals

/-- Uses of `part` options in their documented form. -/
def Documented (x : Occ) : Prop :=
  (∀ v ∈ x.vals, PlainArg v) ∧
    ((x.opt, Arity.flag) ∈ partOpts ∧ x.vals = [] ∨
     (x.opt, Arity.one) ∈ partOpts ∧ x.vals.length = 1 ∨
     (x.opt, Arity.many) ∈ partOpts ∧ x.vals ≠ [])

theorem resolve_partOpts : ∀ o ∈ partOpts, resolve partOpts o.1 = .opt o.1 o.2 none := by
  decide +kernel

theorem scan_many (o : Str) (vs : List Str) (hv : ∀ v ∈ vs, PlainArg v) (rest : List Str) :
    ∀ acc, scanArgs partOpts (.many o acc) (vs ++ rest) =
      scanArgs partOpts (.many o (acc ++ vs)) rest := by
  induction vs with
  | nil => simp
  | cons v vs ih =>
    intro acc
    rw [List.cons_append, scanArgs, resolve_plain (hv v (by simp))]
    simp only
    rw [ih (fun x hx => hv x (by simp [hx]))]
    simp

/-- C49: a list of uses of options in their documented form, written one after the other, is
recorded as exactly that list. -/
theorem options_recorded (xs : List Occ) (h : ∀ x ∈ xs, Documented x) :
    scanArgs partOpts .idle (xs.flatMap Occ.words) = some (xs, []) ∧
    ∀ o vs, vs ≠ [] → scanArgs partOpts (.many o vs) (xs.flatMap Occ.words) =
      some (⟨o, vs⟩ :: xs, []) := by
  induction xs with
  | nil =>
    refine ⟨rfl, fun o vs hv => ?_⟩
    rw [List.flatMap_nil, scanArgs, if_neg hv]
  | cons x xs ih =>
    obtain ⟨ih1, ih2⟩ := ih (fun y hy => h y (by simp [hy]))
    obtain ⟨hp, hx⟩ := h x (by simp)
    obtain ⟨o, vals⟩ := x
    simp only at hp hx
    rw [List.flatMap_cons]
    have hfirst : ∀ (os : List Occ) (ps : List Str) (m : Mode) r, startWord partOpts o = some (os, ps, m) →
        (scanArgs partOpts m (vals ++ xs.flatMap Occ.words)).map (fun r => (os ++ r.1, ps ++ r.2)) = some r →
        scanArgs partOpts .idle (Occ.words ⟨o, vals⟩ ++ xs.flatMap Occ.words) = some r ∧
        ((∃ ar, resolve partOpts o = .opt o ar none) → ∀ o' vs, vs ≠ [] →
          scanArgs partOpts (.many o' vs) (Occ.words ⟨o, vals⟩ ++ xs.flatMap Occ.words) =
            some (⟨o', vs⟩ :: r.1, r.2)) := by
      intro os ps m r hst hr
      constructor
      · simp only [Occ.words, List.cons_append]
        rw [scanArgs, hst]
        exact hr
      · rintro ⟨ar, har⟩ o' vs hvs
        simp only [Occ.words, List.cons_append]
        rw [scanArgs, har]
        simp only [if_neg hvs, hst]
        cases hq : scanArgs partOpts m (vals ++ xs.flatMap Occ.words) with
        | none => rw [hq] at hr; simp at hr
        | some q =>
          rw [hq] at hr
          simp only [Option.map_some, Option.some.injEq] at hr
          subst hr
          simp
    rcases hx with ⟨hm, hv⟩ | ⟨hm, hv⟩ | ⟨hm, hv⟩
    · have hr := resolve_partOpts _ hm
      subst hv
      obtain ⟨g1, g2⟩ := hfirst [⟨o, []⟩] [] .idle (⟨o, []⟩ :: xs, [])
        (by unfold startWord; rw [hr]) (by rw [List.nil_append, ih1]; rfl)
      exact ⟨g1, g2 ⟨_, hr⟩⟩
    · have hr := resolve_partOpts _ hm
      obtain ⟨v, rfl⟩ := List.length_eq_one_iff.1 hv
      obtain ⟨g1, g2⟩ := hfirst [] [] (.need o) (⟨o, [v]⟩ :: xs, [])
        (by unfold startWord; rw [hr]) (by
          rw [List.cons_append, scanArgs, resolve_plain (hp v (by simp))]
          simp [ih1])
      exact ⟨g1, g2 ⟨_, hr⟩⟩
    · have hr := resolve_partOpts _ hm
      obtain ⟨g1, g2⟩ := hfirst [] [] (.many o []) (⟨o, vals⟩ :: xs, [])
        (by unfold startWord; rw [hr]) (by
          rw [scan_many o vals hp, List.nil_append, ih2 o vals hv]
          rfl)
      exact ⟨g1, g2 ⟨_, hr⟩⟩

example : Documented ⟨"--exclude-path".toList, ["boot/".toList, "var".toList]⟩ := by
  refine ⟨?_, Or.inr (Or.inr ⟨by decide +kernel, by simp⟩)⟩
  unfold PlainArg
  decide

end Isar.Wic.Ks
