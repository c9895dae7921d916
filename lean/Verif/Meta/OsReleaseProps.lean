import Verif.Meta.OsReleaseModel
/-!
# Marking an image in `/etc/os-release`: C220
-/

namespace Meta.OsRelease

open Py

/-! ## Specification -/

/-- A text with these lines, each with a line feed at its end. -/
def unlines (ls : List Str) : Str := (ls.map fun l => l ++ ['\n']).flatten

/-- A line of a field. -/
def field (key value : Str) : Str := key ++ "=\"".toList ++ value ++ "\"".toList

/-- The line is one of a field. -/
def isField (key l : Str) : Bool := (key ++ ['=']).isPrefixOf l

/-! ## Lemmas -/

theorem isField_iff {key l : Str} : isField key l = true ↔ ∃ r, l = key ++ '=' :: r := by
  unfold isField
  rw [List.isPrefixOf_iff_prefix]
  constructor
  · rintro ⟨r, h⟩; exact ⟨r, by rw [← h, List.append_assoc]; rfl⟩
  · rintro ⟨r, h⟩; exact ⟨r, by rw [h, List.append_assoc]; rfl⟩

theorem starts_field {key l : Str} : startsWith l (key ++ ['=']) = isField key l := by
  rw [Bool.eq_iff_iff, isField_iff, startsWith_iff]
  constructor
  · rintro ⟨r, h⟩; exact ⟨r, by rw [h, List.append_assoc]; rfl⟩
  · rintro ⟨r, h⟩; exact ⟨r, by rw [h, List.append_assoc]; rfl⟩

theorem split_unlines : ∀ ls : List Str, (∀ l ∈ ls, '\n' ∉ l) → splitOn '\n' (unlines ls) = ls ++ [[]]
  | [], _ => rfl
  | l :: ls, h => by
    have e : unlines (l :: ls) = l ++ '\n' :: unlines ls := by
      unfold unlines
      rw [List.map_cons, List.flatten_cons, List.append_assoc]
      rfl
    rw [e, splitOn_append, splitOn_clean '\n' l (h l List.mem_cons_self),
      split_unlines ls fun x hx => h x (List.mem_cons_of_mem _ hx)]
    rfl

theorem unlines_app (a b : List Str) : unlines (a ++ b) = unlines a ++ unlines b := by
  unfold unlines
  rw [List.map_append, List.flatten_append]

theorem delGo_lines (key : Str) : ∀ ls : List Str, delGo key (ls ++ [[]]) = unlines (ls.filter fun l => !isField key l)
  | [] => by
    show (if startsWith [] (key ++ ['=']) then [] else []) = _
    split <;> rfl
  | l :: ls => by
    obtain ⟨m, ms, e⟩ : ∃ m ms, ls ++ [[]] = m :: ms := by
      cases ls with
      | nil => exact ⟨_, _, rfl⟩
      | cons m ms => exact ⟨_, _, rfl⟩
    have ih := delGo_lines key ls
    rw [e] at ih
    rw [List.cons_append, e]
    show (if startsWith l (key ++ ['=']) then delGo key (m :: ms) else l ++ '\n' :: delGo key (m :: ms)) = _
    rw [ih, starts_field]
    cases hf : isField key l with
    | true =>
      rw [if_pos rfl, List.filter_cons_of_neg]
      rw [hf]
      decide
    | false =>
      rw [if_neg (by decide), List.filter_cons_of_pos (by rw [hf]; rfl)]
      show _ = (_ :: _).flatten
      rw [List.flatten_cons, List.append_assoc]
      rfl

/-- The lines after a field was set. -/
def after (key value : Str) (ls : List Str) : List Str :=
  if value = [] then ls else (ls.filter fun l => !isField key l) ++ [field key value]

theorem set_lines {key value : Str} {ls : List Str} (h : ∀ l ∈ ls, '\n' ∉ l) :
    setField key value (unlines ls) = unlines (after key value ls) := by
  unfold setField after
  by_cases hv : value = []
  · rw [if_neg (fun h => h hv), if_pos hv]
  · rw [if_pos hv, if_neg hv, unlines_app]
    unfold del
    rw [split_unlines ls h, delGo_lines]
    congr 1
    show _ = [_].flatten
    rw [List.flatten_singleton]
    rfl

theorem after_clean {key value : Str} {ls : List Str} (hk : '\n' ∉ key) (hv : '\n' ∉ value) (h : ∀ l ∈ ls, '\n' ∉ l) :
    ∀ l ∈ after key value ls, '\n' ∉ l := by
  intro l hl
  unfold after at hl
  split at hl
  · exact h l hl
  · rcases List.mem_append.1 hl with hl | hl
    · exact h l (List.mem_filter.1 hl).1
    · rw [List.mem_singleton.1 hl]
      unfold field
      intro hm
      rcases List.mem_append.1 hm with hm | hm
      · rcases List.mem_append.1 hm with hm | hm
        · rcases List.mem_append.1 hm with hm | hm
          · exact hk hm
          · exact absurd hm (by decide)
        · exact hv hm
      · exact absurd hm (by decide)

/-- The lines of the file after an image was marked. -/
def marked (b v p : Str) (ls : List Str) : List Str :=
  after "VARIANT_VERSION".toList p (after "VARIANT".toList v (after "BUILD_ID".toList b ls))

theorem mark_lines {b v p : Str} {ls : List Str} (hb : '\n' ∉ b) (hv : '\n' ∉ v) (h : ∀ l ∈ ls, '\n' ∉ l) :
    mark b v p (unlines ls) = unlines (marked b v p ls) := by
  unfold mark marked
  rw [set_lines h, set_lines (after_clean (by decide) hb h), set_lines (after_clean (by decide) hv (after_clean (by decide) hb h))]

theorem field_is (key value : Str) : isField key (field key value) = true :=
  isField_iff.2 ⟨'"' :: value ++ "\"".toList, by
    unfold field
    rw [List.append_assoc, List.append_assoc]
    rfl⟩

/-- Different keys without the sign have different lines. -/
theorem field_not {key other : Str} (value : Str) (h : key ≠ other) (h1 : '=' ∉ key) (h2 : '=' ∉ other) :
    isField key (field other value) = false := by
  rw [Bool.eq_false_iff]
  intro he
  obtain ⟨r, hr⟩ := isField_iff.1 he
  have e : field other value = other ++ '=' :: ('"' :: value ++ "\"".toList) := by
    unfold field
    rw [List.append_assoc, List.append_assoc]
    rfl
  rw [e] at hr
  have := congrArg (List.takeWhile (· ≠ '=')) hr
  have tw : ∀ (a b : Str), '=' ∉ a → (a ++ '=' :: b).takeWhile (· ≠ '=') = a := by
    intro a b ha
    induction a with
    | nil => rfl
    | cons x a ih =>
      rw [List.cons_append, List.takeWhile_cons]
      have hx : x ≠ '=' := fun e => ha (e ▸ List.mem_cons_self)
      rw [decide_eq_true hx, if_pos rfl, ih fun hm => ha (List.mem_cons_of_mem _ hm)]
  rw [tw _ _ h2, tw _ _ h1] at this
  exact h this.symm

theorem filter_other {key other value : Str} {ls : List Str} (h : key ≠ other) (h1 : '=' ∉ key) (h2 : '=' ∉ other) :
    (after other value ls).filter (isField key) = ls.filter (isField key) := by
  unfold after
  split
  · rfl
  · rw [List.filter_append, List.filter_cons_of_neg (by rw [field_not value h h1 h2]; decide), List.filter_nil, List.append_nil,
      List.filter_filter]
    refine List.filter_congr fun l _ => ?_
    cases hk : isField key l with
    | false => rfl
    | true =>
      obtain ⟨r, hr⟩ := isField_iff.1 hk
      have : isField other l = false := by
        rw [Bool.eq_false_iff]
        intro ho
        obtain ⟨r', hr'⟩ := isField_iff.1 ho
        have tw : ∀ (a b : Str), '=' ∉ a → (a ++ '=' :: b).takeWhile (· ≠ '=') = a := by
          intro a b ha
          induction a with
          | nil => rfl
          | cons x a ih =>
            rw [List.cons_append, List.takeWhile_cons]
            have hx : x ≠ '=' := fun e => ha (e ▸ List.mem_cons_self)
            rw [decide_eq_true hx, if_pos rfl, ih fun hm => ha (List.mem_cons_of_mem _ hm)]
        have e := congrArg (List.takeWhile (· ≠ '=')) (hr.symm.trans hr')
        rw [tw _ _ h1, tw _ _ h2] at e
        exact h e
      rw [this]
      rfl

theorem filter_same {key value : Str} {ls : List Str} (hv : value ≠ []) :
    (after key value ls).filter (isField key) = [field key value] := by
  unfold after
  rw [if_neg hv, List.filter_append, List.filter_filter, List.filter_eq_nil_iff.2, List.nil_append,
    List.filter_cons_of_pos (field_is key value), List.filter_nil]
  intro l _
  cases isField key l <;> decide

/-! ## C220 -/

/-- **C220.**  After an image was marked, the file has one line of each field, with the value, if the file had a line feed at its
end; see `no_line_feed`. -/
theorem one_line_each_partial (b v p : Str) (ls : List Str) (hb : b ≠ []) (hv : v ≠ []) (hp : p ≠ []) (nb : '\n' ∉ b) (nv : '\n' ∉ v)
    (np : '\n' ∉ p) (h : ∀ l ∈ ls, '\n' ∉ l) : ∃ ls', mark b v p (unlines ls) = unlines ls' ∧ (∀ l ∈ ls', '\n' ∉ l) ∧
      ls'.filter (isField "BUILD_ID".toList) = [field "BUILD_ID".toList b] ∧
      ls'.filter (isField "VARIANT".toList) = [field "VARIANT".toList v] ∧
      ls'.filter (isField "VARIANT_VERSION".toList) = [field "VARIANT_VERSION".toList p] := by
  refine ⟨marked b v p ls, mark_lines nb nv h,
    after_clean (by decide) np (after_clean (by decide) nv (after_clean (by decide) nb h)), ?_, ?_, ?_⟩
  · unfold marked
    rw [filter_other (by decide) (by decide) (by decide), filter_other (by decide) (by decide) (by decide), filter_same hb]
  · unfold marked
    rw [filter_other (by decide) (by decide) (by decide), filter_same hv]
  · unfold marked
    rw [filter_same hp]

/-- **C220.**  All other lines stay, in their order. -/
theorem others_stay_partial (b v p : Str) (ls : List Str) (nb : '\n' ∉ b) (nv : '\n' ∉ v) (h : ∀ l ∈ ls, '\n' ∉ l) :
    ∃ ls', mark b v p (unlines ls) = unlines ls' ∧
      ∀ f : Str → Bool, (∀ l, f l = true → isField "BUILD_ID".toList l = false ∧ isField "VARIANT".toList l = false ∧
        isField "VARIANT_VERSION".toList l = false) → ls'.filter f = ls.filter f := by
  refine ⟨marked b v p ls, mark_lines nb nv h, fun f hf => ?_⟩
  have step : ∀ key value ls, (∀ l, f l = true → isField key l = false) → (after key value ls).filter f = ls.filter f := by
    intro key value ls hk
    unfold after
    split
    · rfl
    · have hn : f (field key value) = false := by
        rw [Bool.eq_false_iff]
        intro e
        have := hk _ e
        rw [field_is] at this
        cases this
      rw [List.filter_append, List.filter_cons_of_neg (by rw [hn]; decide), List.filter_nil, List.append_nil, List.filter_filter]
      refine List.filter_congr fun l _ => ?_
      cases e : f l with
      | false => rfl
      | true =>
        rw [hk l e]
        rfl
  unfold marked
  rw [step _ _ _ fun l e => (hf l e).2.2, step _ _ _ fun l e => (hf l e).2.1, step _ _ _ fun l e => (hf l e).1]

theorem full_lines {k1 k2 k3 b v p : Str} (hb : b ≠ []) (hv : v ≠ []) (hp : p ≠ []) (n1 : isField k2 (field k1 b) = false)
    (n2 : isField k3 (field k1 b) = false) (n3 : isField k3 (field k2 v) = false) (ls : List Str) :
    after k3 p (after k2 v (after k1 b ls)) = (ls.filter fun l => !isField k1 l && !isField k2 l && !isField k3 l) ++
      [field k1 b, field k2 v, field k3 p] := by
  unfold after
  rw [if_neg hb, if_neg hv, if_neg hp]
  simp only [List.filter_append, List.filter_filter, List.filter_cons, List.filter_nil, n1, n2, n3, Bool.not_false, if_true,
    List.append_assoc, Bool.and_self, List.cons_append, List.nil_append]
  congr 1
  refine List.filter_congr fun l _ => ?_
  cases isField k1 l <;> cases isField k2 l <;> cases isField k3 l <;> rfl

/-- **C220.**  If an image is marked again, only the last values count. -/
theorem mark_again_partial (b v p b' v' p' : Str) (ls : List Str) (hb : b ≠ []) (hv : v ≠ []) (hp : p ≠ [])
    (nb : '\n' ∉ b) (nv : '\n' ∉ v) (nb' : '\n' ∉ b') (nv' : '\n' ∉ v') (np' : '\n' ∉ p') (h : ∀ l ∈ ls, '\n' ∉ l) :
    mark b v p (mark b' v' p' (unlines ls)) = mark b v p (unlines ls) := by
  have hc := after_clean (key := "VARIANT_VERSION".toList) (by decide) np' (after_clean (key := "VARIANT".toList) (by decide) nv'
    (after_clean (key := "BUILD_ID".toList) (by decide) nb' h))
  rw [mark_lines nb' nv' h]
  have e := mark_lines (p := p) (b := b) (v := v) nb nv hc
  unfold marked at e ⊢
  rw [e, mark_lines nb nv h]
  congr 1
  -- what is left of the lines, without those of the three fields
  have full : ∀ ls, marked b v p ls = (ls.filter fun l => !isField "BUILD_ID".toList l && !isField "VARIANT".toList l &&
      !isField "VARIANT_VERSION".toList l) ++ [field "BUILD_ID".toList b, field "VARIANT".toList v, field "VARIANT_VERSION".toList p] := by
    intro ls
    exact full_lines hb hv hp (field_not b (by decide) (by decide) (by decide)) (field_not b (by decide) (by decide) (by decide))
      (field_not v (by decide) (by decide) (by decide)) ls
  have again : ∀ key value ls, (key = "BUILD_ID".toList ∨ key = "VARIANT".toList ∨ key = "VARIANT_VERSION".toList) →
      ((after key value ls).filter fun l => !isField "BUILD_ID".toList l && !isField "VARIANT".toList l &&
      !isField "VARIANT_VERSION".toList l) = ls.filter fun l => !isField "BUILD_ID".toList l && !isField "VARIANT".toList l &&
      !isField "VARIANT_VERSION".toList l := by
    intro key value ls hk
    unfold after
    split
    · rfl
    · rw [List.filter_append, List.filter_filter]
      have hn : (!isField "BUILD_ID".toList (field key value) && !isField "VARIANT".toList (field key value) &&
          !isField "VARIANT_VERSION".toList (field key value)) = false := by
        rcases hk with rfl | rfl | rfl
        · rw [field_is]; rfl
        · rw [field_is]; simp
        · rw [field_is]; simp
      rw [List.filter_cons_of_neg (by rw [hn]; decide), List.filter_nil, List.append_nil]
      refine List.filter_congr fun l _ => ?_
      rcases hk with rfl | rfl | rfl <;>
      cases isField "BUILD_ID".toList l <;> cases isField "VARIANT".toList l <;> cases isField "VARIANT_VERSION".toList l <;> rfl
  show marked b v p (after _ _ (after _ _ (after _ _ ls))) = marked b v p ls
  rw [full, full, again _ _ _ (Or.inr (Or.inr rfl)), again _ _ _ (Or.inr (Or.inl rfl)), again _ _ _ (Or.inl rfl)]

/-- A file of a distribution. -/
def sample : List Str := ["NAME=\"Debian\"".toList, "VARIANT=\"x\"".toList, "VARIANT_ID=x".toList]

example : mark "1".toList "img".toList "2.0".toList (unlines sample) =
    "NAME=\"Debian\"\nVARIANT_ID=x\nBUILD_ID=\"1\"\nVARIANT=\"img\"\nVARIANT_VERSION=\"2.0\"\n".toList ∧ ∀ l ∈ sample, '\n' ∉ l := by
  decide +kernel

/-- **C220.**  Without a line feed at the end of the file, the first field is put into the last line, and both are lost. -/
theorem no_line_feed : mark "1".toList [] [] "ID=debian".toList = "ID=debianBUILD_ID=\"1\"\n".toList := by decide +kernel

/-- **C220.**  A value that is empty does not remove an old one. -/
theorem empty_keeps : mark "1".toList [] "2".toList (unlines ["VARIANT=\"x\"".toList]) =
    "VARIANT=\"x\"\nBUILD_ID=\"1\"\nVARIANT_VERSION=\"2\"\n".toList := by decide +kernel

end Meta.OsRelease
