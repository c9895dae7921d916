import Verif.Meta.CustomModel
/-!
# Customization packages: C212, C213
-/

namespace Isar.Custom

open Py

/-! ## Lemmas -/

theorem words_strip_nil {s : Str} (h : strip s = []) : words s = [] := by
  have hall : ∀ c ∈ s, isWs c = true := by
    intro c hc
    cases hw : isWs c with
    | true => rfl
    | false =>
      exfalso
      unfold strip rstrip lstrip at h
      have h1 : (s.dropWhile isWs).reverse.dropWhile isWs = [] := List.reverse_eq_nil_iff.1 h
      have mem : ∀ (l : Str), c ∈ l → c ∈ l.dropWhile isWs := by
        intro l
        induction l with
        | nil => exact id
        | cons a l ih =>
          intro hm
          rw [List.dropWhile_cons]
          split
          · rename_i ha
            rcases List.mem_cons.1 hm with rfl | hm
            · rw [hw] at ha; cases ha
            · exact ih hm
          · exact hm
      have := mem _ (List.mem_reverse.2 (mem s hc))
      rw [h1] at this
      cases this
  clear h
  induction s with
  | nil => rfl
  | cons a s ih =>
    rw [words_cons_ws _ _ (hall a List.mem_cons_self)]
    exact ih fun c hc => hall c (List.mem_cons_of_mem _ hc)

theorem perImage_of_mem {c : Conf} {i : Str} (h : i ∈ words c.forImages) : perImage c = true := by
  unfold perImage
  refine decide_eq_true fun e => ?_
  rw [words_strip_nil e] at h
  cases h

theorem words_vars {c : Conf} {i : Str} (h : i ∈ words c.forImages) : words (varsOf c i) = words c.vars ++ [i] := by
  unfold varsOf
  rw [perImage_of_mem h, if_pos rfl, words_append_ws _ _ _ rfl, words_word (words_isWord h)]

theorem words_base (c : Conf) : words (varsOf c []) = words c.vars := by
  unfold varsOf
  split
  · rw [words_append_ws _ _ _ rfl, words_nil, List.append_nil]
  · rfl

theorem join_snoc {l : List Str} {x : Str} : join ['-'] (l ++ [x]) = x ∨ ∃ t, join ['-'] (l ++ [x]) = t ++ '-' :: x := by
  induction l with
  | nil => exact Or.inl rfl
  | cons a l ih =>
    refine Or.inr ?_
    have : join ['-'] (a :: (l ++ [x])) = a ++ ['-'] ++ join ['-'] (l ++ [x]) := by
      cases l <;> rfl
    rw [List.cons_append, this]
    rcases ih with h | ⟨t, h⟩
    · exact ⟨a, by rw [h, List.append_assoc]; rfl⟩
    · exact ⟨a ++ '-' :: t, by rw [h]; simp⟩

theorem join_ne {l : List Str} (h : l ≠ []) (hw : ∀ w ∈ l, w ≠ []) : join ['-'] l ≠ [] := by
  cases l with
  | nil => exact absurd rfl h
  | cons a l =>
    have := hw a List.mem_cons_self
    cases l with
    | nil => exact this
    | cons b l =>
      intro e
      exact this (List.append_eq_nil_iff.1 (List.append_eq_nil_iff.1 e).1).1

/-! ## C212 -/

/-- The variant of a recipe that is meant for an image: the one for the image if it is in the list, else the recipe itself. -/
def Meant (c : Conf) (pn image : Str) (v : Variant) : Prop :=
  v ∈ variants c pn ∧
    ((image ∈ words c.forImages ∧ v = imageVariant c pn image) ∨ (image ∉ words c.forImages ∧ v = baseVariant c pn))

/-- **C212.**  What an image installs for a customization is the name of the variant of the recipe `NAME-customization` that is
meant for the image, whatever the configuration.  So bitbake finds and builds it. -/
theorem image_finds_recipe (c : Conf) (image customizations : Str) :
    packages c image customizations = (words customizations).map (fun k =>
      (if image ∈ words c.forImages then imageVariant c (k ++ "-customization".toList) image
        else baseVariant c (k ++ "-customization".toList)).pn) := by
  unfold packages
  refine List.map_congr_left fun k _ => ?_
  have key : ∀ i, (if prefixOf c i ≠ [] then prefixOf c i ++ ['-'] else prefixOf c i) ++ k ++
      (if suffixOf c i ≠ [] then "-customization-".toList ++ suffixOf c i else "-customization".toList) =
      recipeName c i (k ++ "-customization".toList) := by
    intro i
    unfold recipeName
    have hp : (if prefixOf c i ≠ [] then prefixOf c i ++ ['-'] else prefixOf c i) =
        if prefixOf c i ≠ [] then prefixOf c i ++ ['-'] else [] := by
      by_cases h : prefixOf c i = []
      · rw [if_neg (fun hn => hn h), if_neg (fun hn => hn h), h]
      · rw [if_pos h, if_pos h]
    have hs : (if suffixOf c i ≠ [] then "-customization-".toList ++ suffixOf c i else "-customization".toList) =
        "-customization".toList ++ if suffixOf c i ≠ [] then '-' :: suffixOf c i else [] := by
      by_cases h : suffixOf c i = []
      · rw [if_neg (fun hn => hn h), if_neg (fun hn => hn h), List.append_nil]
      · rw [if_pos h, if_pos h]; rfl
    rw [hp, hs]
    simp only [List.append_assoc]
  rw [key]
  by_cases h : image ∈ words c.forImages
  · have e : imageOf c image = image := by
      unfold imageOf
      rw [if_neg]
      rintro (h1 | h1)
      · rw [h1] at h; cases h
      · exact h1 h
    rw [e, if_pos h]
    rfl
  · have e : imageOf c image = [] := by
      unfold imageOf
      rw [if_pos (Or.inr h)]
    rw [e, if_neg h]
    rfl

/-- **C212.**  The variant is there and provides its name. -/
theorem variant_there (c : Conf) (image pn : Str) :
    ∃ v, Meant c pn image v ∧ v.pn ∈ v.provides ∧
      v = if image ∈ words c.forImages then imageVariant c pn image else baseVariant c pn := by
  by_cases h : image ∈ words c.forImages
  · exact ⟨_, ⟨List.mem_cons_of_mem _ (List.mem_map.2 ⟨image, h, rfl⟩), Or.inl ⟨h, rfl⟩⟩, List.mem_cons_self, (if_pos h).symm⟩
  · exact ⟨_, ⟨List.mem_cons_self, Or.inr ⟨h, rfl⟩⟩, List.mem_cons_self, (if_neg h).symm⟩

/-! ## C213 -/

/-- **C213.**  The Debian package of the recipe has the name that the image installs, unless the name of the image is a part of
`CUSTOMIZATION_VARS_PREFIXED`, see `image_named_like_distro`. -/
theorem package_named_partial (c : Conf) (pn image : Str) (v : Variant) (hm : Meant c pn image v)
    (h : image ∈ words c.forImages → isSub image c.prefixed = false) : v.bpn = v.pn := by
  rcases hm.2 with ⟨hi, rfl⟩ | ⟨_, rfl⟩
  · have hs := h hi
    have e : suffixOf c image = join ['-'] ((words c.vars).filter (fun v => !isSub v c.prefixed) ++ [image]) := by
      unfold suffixOf
      rw [words_vars hi, List.filter_append, List.filter_cons_of_pos (by rw [hs]; rfl), List.filter_nil]
    have hne : suffixOf c image ≠ [] := by
      rw [e]
      refine join_ne (by simp) fun w hw => ?_
      rcases List.mem_append.1 hw with hw | hw
      · exact (words_isWord (List.mem_filter.1 hw).1).1
      · rw [List.mem_singleton.1 hw]; exact (words_isWord hi).1
    have he : endsWith (recipeName c image pn) ('-' :: image) = true := by
      rw [endsWith_iff]
      unfold recipeName
      rw [if_pos hne, e]
      rcases join_snoc (l := (words c.vars).filter (fun v => !isSub v c.prefixed)) (x := image) with h | ⟨t, h⟩
      · rw [h]
        exact ⟨_, rfl⟩
      · rw [h]
        exact ⟨(if prefixOf c image ≠ [] then prefixOf c image ++ ['-'] else []) ++ pn ++ '-' :: t, by simp⟩
    unfold imageVariant
    dsimp only
    rw [if_pos he]
  · rfl

/-- **C213.**  Images of the list have different packages, none of which is that of other images. -/
theorem packages_differ_partial (c : Conf) (pn i j : Str) (hi : i ∈ words c.forImages) (hj : j ∈ words c.forImages)
    (si : isSub i c.prefixed = false) (sj : isSub j c.prefixed = false) :
    (imageVariant c pn i).pn ≠ (baseVariant c pn).pn ∧
      ((imageVariant c pn i).pn = (imageVariant c pn j).pn → i = j) := by
  have pre : ∀ k, k ∈ words c.forImages → isSub k c.prefixed = false → prefixOf c k = prefixOf c [] := by
    intro k hk sk
    unfold prefixOf
    rw [words_vars hk, words_base, List.filter_append, List.filter_cons_of_neg (by rw [sk]; decide), List.filter_nil,
      List.append_nil]
  have suf : ∀ k, k ∈ words c.forImages → isSub k c.prefixed = false →
      suffixOf c k ≠ [] ∧ '-' :: suffixOf c k = (if suffixOf c [] ≠ [] then '-' :: suffixOf c [] else []) ++ '-' :: k := by
    intro k hk sk
    have hkne := (words_isWord hk).1
    have e0 : suffixOf c [] = join ['-'] ((words c.vars).filter fun v => !isSub v c.prefixed) := by
      unfold suffixOf
      rw [words_base]
    have e : suffixOf c k = join ['-'] ((words c.vars).filter (fun v => !isSub v c.prefixed) ++ [k]) := by
      unfold suffixOf
      rw [words_vars hk, List.filter_append, List.filter_cons_of_pos (by rw [sk]; rfl), List.filter_nil]
    have hw : ∀ w ∈ (words c.vars).filter (fun v => !isSub v c.prefixed), w ≠ [] := fun w hw =>
      (words_isWord (List.mem_filter.1 hw).1).1
    rw [e, e0]
    revert hw
    generalize (words c.vars).filter (fun v => !isSub v c.prefixed) = l
    intro hw
    have app : ∀ l : List Str, l ≠ [] → join ['-'] (l ++ [k]) = join ['-'] l ++ '-' :: k := by
      intro l
      induction l with
      | nil => intro h; exact absurd rfl h
      | cons a l ih =>
        intro _
        cases l with
        | nil => show a ++ ['-'] ++ k = a ++ '-' :: k; simp
        | cons b l =>
          show a ++ ['-'] ++ join ['-'] ((b :: l) ++ [k]) = a ++ ['-'] ++ join ['-'] (b :: l) ++ '-' :: k
          rw [ih (List.cons_ne_nil _ _), ← List.append_assoc]
    by_cases hl : l = []
    · subst hl
      exact ⟨hkne, rfl⟩
    · rw [app l hl, if_pos (join_ne hl hw)]
      exact ⟨by simp, rfl⟩
  have name : ∀ k, k ∈ words c.forImages → isSub k c.prefixed = false →
      (imageVariant c pn k).pn = (baseVariant c pn).pn ++ '-' :: k := by
    intro k hk sk
    show recipeName c k pn = recipeName c [] pn ++ '-' :: k
    unfold recipeName
    rw [pre k hk sk, if_pos (suf k hk sk).1, (suf k hk sk).2]
    simp only [List.append_assoc]
  refine ⟨fun h => ?_, fun h => ?_⟩
  · rw [name i hi si] at h
    have := congrArg List.length h
    rw [List.length_append, List.length_cons] at this
    omega
  · rw [name i hi si, name j hj sj] at h
    exact (List.cons.inj (List.append_cancel_left h)).2

/-! ### Examples -/

def conf : Conf := ⟨"debian-bookworm qemuamd64".toList, "debian-bookworm".toList, "isar-image-base debian".toList⟩

example : packages conf "isar-image-base".toList "hostname users".toList =
    ["debian-bookworm-hostname-customization-qemuamd64-isar-image-base".toList,
      "debian-bookworm-users-customization-qemuamd64-isar-image-base".toList] := by decide +kernel

example : packages conf "other".toList "hostname".toList = ["debian-bookworm-hostname-customization-qemuamd64".toList] := by
  decide +kernel

example : "isar-image-base".toList ∈ words conf.forImages ∧ isSub "isar-image-base".toList conf.prefixed = false := by
  decide +kernel

/-- **C213, what does not hold.**  If the name of an image is a part of the name of the distribution, the Debian package has
another name than the one that the image installs. -/
theorem image_named_like_distro :
    packages conf "debian".toList "hostname".toList =
      ["debian-bookworm-debian-hostname-customization-qemuamd64".toList] ∧
    (imageVariant conf "hostname-customization".toList "debian".toList).bpn =
      "debian-bookworm-debian-hostname-customization-qemuamd64-debian".toList := by decide +kernel

/-- **C213, what does not hold.**  A machine whose name is a part of the name of the distribution stands before the name of the
package, although only the distribution is to do so. -/
theorem machine_before : packages ⟨"debian-bookworm-rpi rpi".toList, "debian-bookworm-rpi".toList, []⟩ "x".toList "hostname".toList =
    ["debian-bookworm-rpi-rpi-hostname-customization".toList] := by decide +kernel

end Isar.Custom
