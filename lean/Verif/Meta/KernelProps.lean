import Verif.Meta.KernelModel
import Verif.Meta.PatchSelect
/-!
# Properties of the fragments of a kernel configuration and of the boot script
-/

namespace Meta.Kernel

open Py

namespace Spec

/-- The file `loc` has the ending `e`: its name, after the last slash, is `r.e`, where `r` is not only dots. -/
def Ends (loc e : Str) : Prop :=
  ∃ d r, loc = d ++ r ++ '.' :: e ∧ (d = [] ∨ d.getLast? = some '/') ∧ '/' ∉ r ∧ ∃ c, c ∈ r ∧ c ≠ '.'

/-- The file `p` of the tree at `s`, as the names of directories that lead to it from the root. -/
def place (s p : Str) : List Str := normComps (s ++ '/' :: p)

/-- The file that is meant by an overlay: an absolute path is meant as it is, others are among the files of the kernel. -/
def meant (version o : Str) : Str :=
  match o with
  | '/' :: _ => o
  | _ => "/usr/lib/linux-image-".toList ++ version ++ '/' :: o

/-- The overlays that a script loads. -/
def loads (l : List Cmd) : List Str := l.filterMap fun | .overlay p => some p | _ => none

/-- No absolute path comes after a relative one. -/
def AbsFirst (l : List Str) : Prop := ∀ i j : Nat, ∀ r a : Str, i < j → l[i]? = some r → l[j]? = some a → isabs a = true → isabs r = true

end Spec
open Spec

/-! ## Names -/

theorem takeWhile_all {p : Char → Bool} : ∀ {l : Str} {c : Char}, c ∈ l.takeWhile p → p c = true
  | [], _, h => by cases h
  | d :: l, c, h => by
    rw [List.takeWhile_cons] at h
    split at h
    · rcases List.mem_cons.1 h with rfl | h
      · assumption
      · exact takeWhile_all h
    · cases h

theorem head_base (s : Str) : headPart s ++ basename s = s := by
  unfold headPart basename
  rw [← List.reverse_append, List.takeWhile_append_dropWhile, List.reverse_reverse]

theorem basename_noslash (s : Str) : '/' ∉ basename s := by
  unfold basename
  rw [List.mem_reverse]
  intro h
  have := takeWhile_all h
  simp at this

theorem headPart_last (s : Str) : headPart s = [] ∨ (headPart s).getLast? = some '/' := by
  by_cases h : '/' ∈ s
  · right
    have : ∃ a b, s = a ++ '/' :: b ∧ '/' ∉ b := by
      refine ⟨(headPart s).dropLast, basename s, ?_, basename_noslash s⟩
      have hd : s.reverse.dropWhile (· ≠ '/') ≠ [] := by
        intro e
        have := List.takeWhile_append_dropWhile (p := (· ≠ '/')) (l := s.reverse)
        rw [e, List.append_nil] at this
        have hm : '/' ∈ s.reverse.takeWhile (· ≠ '/') := by rw [this]; exact List.mem_reverse.2 h
        have := takeWhile_all hm
        simp at this
      have hh := List.head_dropWhile_not (p := (· ≠ '/')) (l := s.reverse) hd
      conv => lhs; rw [← head_base s]
      unfold headPart
      generalize hg : s.reverse.dropWhile (· ≠ '/') = g at hd hh
      cases g with
      | nil => exact absurd rfl hd
      | cons c g =>
        obtain rfl : c = '/' := Decidable.not_not.1 (of_decide_eq_false hh)
        rw [List.reverse_cons, List.dropLast_concat, List.append_assoc]
        rfl
    obtain ⟨a, b, rfl, hb⟩ := this
    rw [headPart_split hb, List.getLast?_concat]
  · left
    have : basename s = s := (Meta.Patch.basename_name h).1
    have h2 := head_base s
    rw [this] at h2
    exact List.append_left_eq_self.1 h2

theorem basename_of {d b : Str} (hd : d = [] ∨ d.getLast? = some '/') (hb : '/' ∉ b) : basename (d ++ b) = b := by
  rcases hd with rfl | hd
  · rw [List.nil_append]
    exact (Meta.Patch.basename_name hb).1
  · obtain ⟨d', rfl⟩ := List.getLast?_eq_some_iff.1 hd
    rw [List.append_assoc]
    exact basename_split hb

/-! ## Which files are fragments -/

theorem sub_cfg {x : Str} : isSub ('.' :: x) ".cfg".toList = true ↔ x = "cfg".toList ∨ x = "cf".toList ∨ x = "c".toList ∨ x = [] := by
  constructor
  · intro h
    obtain ⟨a, b, hab⟩ := isSub_iff.1 h
    cases a with
    | nil =>
      have h2 : ['c', 'f', 'g'] = x ++ b := List.tail_eq_of_cons_eq hab
      match x, h2 with
      | [], _ => exact Or.inr (Or.inr (Or.inr rfl))
      | [_], h2 => injection h2 with h3 _; subst h3; exact Or.inr (Or.inr (Or.inl rfl))
      | [_, _], h2 =>
        injection h2 with h3 h2; injection h2 with h4 _; subst h3 h4; exact Or.inr (Or.inl rfl)
      | [_, _, _], h2 =>
        injection h2 with h3 h2; injection h2 with h4 h2; injection h2 with h5 _; subst h3 h4 h5; exact Or.inl rfl
      | _ :: _ :: _ :: _ :: _, h2 => exact absurd (congrArg List.length h2) (by simp)
    | cons c a =>
      exfalso
      have h2 : ['c', 'f', 'g'] = a ++ '.' :: x ++ b := List.tail_eq_of_cons_eq hab
      have : '.' ∈ ['c', 'f', 'g'] := by rw [h2]; simp
      exact absurd this (by decide)
  · rintro (rfl | rfl | rfl | rfl) <;> decide

/-- Exactly the files with the endings `.cfg`, `.cf`, `.c` and `.` are taken as fragments. -/
theorem fragment_iff (loc : Str) : isFragment loc = true ↔
    Ends loc "cfg".toList ∨ Ends loc "cf".toList ∨ Ends loc "c".toList ∨ Ends loc [] := by
  have key : ∀ x : Str, '.' ∉ x → '/' ∉ x → (Ends loc x ↔ ext (basename loc) = '.' :: x) := by
    intro x hx hx'
    constructor
    · rintro ⟨d, r, rfl, hd, hr, hst⟩
      have hb : '/' ∉ r ++ '.' :: x := by simp [hr, hx']
      rw [List.append_assoc, basename_of hd hb]
      exact (Meta.Patch.ext_stem hb hx hst).1
    · intro h
      obtain ⟨r, _, h1, _, _, h4, _⟩ := (Meta.Patch.ext_iff (basename_noslash loc) (by simp)).1 h
      refine ⟨headPart loc, r, ?_, headPart_last loc, ?_, h4⟩
      · rw [List.append_assoc, ← h1, head_base]
      · intro hm
        exact basename_noslash loc (by rw [h1]; exact List.mem_append_left _ hm)
  rw [key _ (by decide) (by decide), key _ (by decide) (by decide), key _ (by decide) (by decide), key [] (by decide) (by decide)]
  unfold isFragment
  rw [Bool.and_eq_true, decide_eq_true_iff]
  constructor
  · rintro ⟨h1, h2⟩
    obtain ⟨r, x, _, h3, _⟩ := (Meta.Patch.ext_iff (basename_noslash loc) h1).1 rfl
    have h3' : ext (basename loc) = '.' :: x := h3
    rw [h3'] at h2 ⊢
    rcases sub_cfg.1 h2 with h | h | h | h <;> subst h <;> simp
  · intro h
    rcases h with h | h | h | h <;> rw [h] <;> exact ⟨by simp, sub_cfg.2 (by simp)⟩

/-- The list of fragments: those that are named come first, then the files of `SRC_URI` in their order, without those with
`apply=no`; and all files with the ending `.cfg` are among them.  Missing: others are taken too, see `c_file_is_fragment`. -/
theorem fragments_partial (named : List Str) (sources : List Src) :
    (∃ l, configFragments named sources = named ++ l ∧ l.Sublist (sources.map Src.loc) ∧
      (∀ f ∈ l, ∃ s ∈ sources, s.loc = f ∧ s.apply ≠ some "no".toList ∧
        (Ends f "cfg".toList ∨ Ends f "cf".toList ∨ Ends f "c".toList ∨ Ends f [])) ∧
      (∀ s ∈ sources, s.apply ≠ some "no".toList → Ends s.loc "cfg".toList → s.loc ∈ l)) := by
  refine ⟨_, rfl, List.filter_sublist.map _, ?_, ?_⟩
  · intro f hf
    obtain ⟨s, hs, rfl⟩ := List.mem_map.1 hf
    obtain ⟨h1, h2⟩ := List.mem_filter.1 hs
    rw [Bool.and_eq_true, decide_eq_true_iff] at h2
    exact ⟨s, h1, rfl, h2.1, (fragment_iff _).1 h2.2⟩
  · intro s hs ha he
    refine List.mem_map.2 ⟨s, List.mem_filter.2 ⟨hs, ?_⟩, rfl⟩
    rw [Bool.and_eq_true, decide_eq_true_iff]
    exact ⟨ha, (fragment_iff _).2 (Or.inl he)⟩

/-- If no source has one of the other three endings, the fragments are what is meant. -/
theorem fragments_exact_partial (named : List Str) (sources : List Src)
    (h : ∀ s ∈ sources, ¬ Ends s.loc "cf".toList ∧ ¬ Ends s.loc "c".toList ∧ ¬ Ends s.loc []) (f : Str) :
    f ∈ configFragments named sources ↔
      f ∈ named ∨ ∃ s ∈ sources, s.loc = f ∧ s.apply ≠ some "no".toList ∧ Ends f "cfg".toList := by
  unfold configFragments
  rw [List.mem_append]
  refine or_congr Iff.rfl ?_
  constructor
  · intro hf
    obtain ⟨s, hs, rfl⟩ := List.mem_map.1 hf
    obtain ⟨h1, h2⟩ := List.mem_filter.1 hs
    rw [Bool.and_eq_true, decide_eq_true_iff] at h2
    obtain ⟨n1, n2, n3⟩ := h s h1
    rcases (fragment_iff _).1 h2.2 with e | e | e | e
    · exact ⟨s, h1, rfl, h2.1, e⟩
    · exact absurd e n1
    · exact absurd e n2
    · exact absurd e n3
  · rintro ⟨s, hs, rfl, ha, he⟩
    refine List.mem_map.2 ⟨s, List.mem_filter.2 ⟨hs, ?_⟩, rfl⟩
    rw [Bool.and_eq_true, decide_eq_true_iff]
    exact ⟨ha, (fragment_iff _).2 (Or.inl he)⟩

/-- A C file in `SRC_URI`, such as that of a driver, is merged into the configuration of the kernel. -/
theorem c_file_is_fragment (named : List Str) (r : Str) (hr : '/' ∉ r) (hs : ∃ c, c ∈ r ∧ c ≠ '.') :
    (r ++ ".c".toList) ∈ configFragments named [⟨r ++ ".c".toList, none⟩] := by
  refine List.mem_append_right _ (List.mem_map.2 ⟨⟨r ++ ".c".toList, none⟩, List.mem_filter.2 ⟨List.mem_cons_self, ?_⟩, rfl⟩)
  rw [Bool.and_eq_true, decide_eq_true_iff]
  exact ⟨(fun h => by cases h), (fragment_iff _).2 (Or.inr (Or.inr (Or.inl ⟨[], r, rfl, Or.inl rfl, hr, hs⟩)))⟩

example : configFragments ["a".toList] [⟨"x/no-ubifs-fs.cfg".toList, none⟩, ⟨"dbg.cfg".toList, some "no".toList⟩, ⟨"driver.c".toList, none⟩, ⟨"x86_64_defconfig".toList, none⟩] =
    ["a".toList, "x/no-ubifs-fs.cfg".toList, "driver.c".toList] := by decide +kernel

/-! ## Where fragments are copied to, and where they are read -/

theorem place_slash {s : Str} (hs : isabs s = true) (a b : Str) : place s (a ++ '/' :: '/' :: b) = place s (a ++ '/' :: b) := by
  unfold place normComps
  have e1 : isabs (s ++ '/' :: (a ++ '/' :: '/' :: b)) = true := isabs_append hs
  have e2 : isabs (s ++ '/' :: (a ++ '/' :: b)) = true := isabs_append hs
  rw [e1, e2, splitOn_append, splitOn_append, splitOn_append, splitOn_append, splitOn_cons_sep]
  simp only [List.foldl_append, List.foldl_cons, normStep_skip]

theorem place_dot {s : Str} (hs : isabs s = true) (a b : Str) : place s (a ++ '/' :: '.' :: '/' :: b) = place s (a ++ '/' :: b) := by
  unfold place normComps
  have e1 : isabs (s ++ '/' :: (a ++ '/' :: '.' :: '/' :: b)) = true := isabs_append hs
  have e2 : isabs (s ++ '/' :: (a ++ '/' :: b)) = true := isabs_append hs
  have e3 : splitOn '/' ('.' :: '/' :: b) = dot :: splitOn '/' b := by
    have := splitOn_append '/' ['.'] b
    rw [splitOn_clean '/' ['.'] (by decide)] at this
    exact this
  rw [e1, e2, splitOn_append, splitOn_append, splitOn_append, splitOn_append, e3]
  simp only [List.foldl_append, List.foldl_cons, normStep_dot]

theorem place_slashes {s : Str} (hs : isabs s = true) (a b : Str) : ∀ z : Str, (∀ c ∈ z, c = '/') →
    place s (a ++ z ++ '/' :: b) = place s (a ++ '/' :: b)
  | [], _ => by rw [List.append_nil]
  | c :: z, h => by
    obtain rfl : c = '/' := h c List.mem_cons_self
    have hz : ∀ c ∈ z, c = '/' := fun c hc => h c (List.mem_cons_of_mem _ hc)
    have hr : ∀ z : Str, (∀ c ∈ z, c = '/') → '/' :: z = z ++ ['/'] := by
      intro z
      induction z with
      | nil => intro _; rfl
      | cons d z ih =>
        intro h
        obtain rfl : d = '/' := h d List.mem_cons_self
        rw [List.cons_append, ← ih (fun c hc => h c (List.mem_cons_of_mem _ hc))]
    rw [hr z hz]
    have e : a ++ (z ++ ['/']) ++ '/' :: b = (a ++ z) ++ '/' :: '/' :: b := by simp
    rw [e, place_slash hs, place_slashes hs a b z hz]

/-- A relative fragment is copied to the place where the build reads it, whatever its directory is. -/
theorem copied_where_read {s frag : Str} (hs : isabs s = true) (hf : isabs frag = false) :
    ∃ p, copied s frag = some p ∧ place s p = place s (listed s frag) := by
  have hno : ∀ t : Str, startsWith frag (s ++ t) = false := by
    intro t
    rw [Bool.eq_false_iff]
    intro h
    obtain ⟨u, hu⟩ := startsWith_iff.1 h
    rw [hu, List.append_assoc, isabs_append hs] at hf
    cases hf
  have h0 : startsWith frag s = false := by have := hno []; rwa [List.append_nil] at this
  unfold copied listed
  rw [h0, hno, if_neg (by decide), if_neg (by decide)]
  refine ⟨_, rfl, ?_⟩
  have eF : "debian/fragments/".toList = "debian/fragments".toList ++ ['/'] := by decide
  rw [eF]
  generalize "debian/fragments".toList = F
  unfold shDirname
  have hb := basename_noslash frag
  have hhb := head_base frag
  by_cases hsl : '/' ∈ frag
  · rw [if_pos hsl]
    rcases headPart_last frag with h | h
    · rw [h, List.nil_append] at hhb
      rw [hhb] at hb
      exact absurd hsl hb
    · -- the head is `t`, slashes and a slash
      have habs : (headPart frag).all (· = '/') = false := by
        rw [Bool.eq_false_iff]
        intro hall
        cases hh : headPart frag with
        | nil => rw [hh] at h; cases h
        | cons c t =>
          rw [hh, List.all_cons, Bool.and_eq_true, decide_eq_true_iff] at hall
          rw [hh, hall.1] at hhb
          rw [← hhb] at hf
          cases hf
      unfold dirname
      dsimp only
      rw [habs, if_neg (by decide)]
      have hsplit : (headPart frag).reverse.takeWhile (· = '/') ++ (headPart frag).reverse.dropWhile (· = '/') = (headPart frag).reverse :=
        List.takeWhile_append_dropWhile
      have hz : ∀ c ∈ (headPart frag).reverse.takeWhile (· = '/'), c = '/' := by
        intro c hc
        have := takeWhile_all hc
        simpa using this
      obtain ⟨g, hg⟩ := List.getLast?_eq_some_iff.1 h
      generalize ht : ((headPart frag).reverse.dropWhile (· = '/')).reverse = t
      have hh : headPart frag = t ++ ((headPart frag).reverse.takeWhile (· = '/')).reverse := by
        rw [← ht, ← List.reverse_append, hsplit, List.reverse_reverse]
      generalize hz' : (headPart frag).reverse.takeWhile (· = '/') = z at hz hh
      cases z with
      | nil =>
        exfalso
        rw [hg, List.reverse_append] at hz'
        simp at hz'
      | cons c z =>
        obtain rfl : c = '/' := hz c List.mem_cons_self
        rw [List.reverse_cons] at hh
        have hzz : ∀ c ∈ z.reverse, c = '/' := fun c hc => hz c (List.mem_cons_of_mem _ (List.mem_reverse.1 hc))
        conv => rhs; rw [← hhb, hh]
        have := place_slashes hs (F ++ ['/'] ++ t) (basename frag) z.reverse hzz
        simp only [List.append_assoc, List.cons_append, List.nil_append] at this ⊢
        exact this.symm
  · rw [if_neg hsl]
    have hbn : basename frag = frag := by
      have := basename_of (d := []) (Or.inl rfl) hsl
      rwa [List.nil_append] at this
    rw [hbn]
    have := place_dot hs F frag
    simp only [List.append_assoc, List.cons_append, List.nil_append] at this ⊢
    exact this

/-- A fragment of the source tree is read from there and not copied. -/
theorem in_tree (s p : Str) : listed s (s ++ '/' :: p) = p ∧ copied s (s ++ '/' :: p) = none := by
  constructor
  · unfold listed
    rw [if_pos (startsWith_iff.2 ⟨p, by rw [List.append_assoc]; rfl⟩)]
    have : s ++ '/' :: p = (s ++ ['/']) ++ p := by rw [List.append_assoc]; rfl
    rw [this]
    exact List.drop_left' (by simp)
  · unfold copied
    rw [if_pos (startsWith_iff.2 ⟨'/' :: p, rfl⟩)]

/-- The two tests differ: a fragment beside the source tree, in a directory whose name begins with that of the tree, is
listed as if it were copied, and is not copied. -/
theorem beside_tree_not_copied (s : Str) (c : Char) (p : Str) (hc : c ≠ '/') :
    listed s (s ++ c :: p) = "debian/fragments/".toList ++ (s ++ c :: p) ∧ copied s (s ++ c :: p) = none := by
  constructor
  · unfold listed
    rw [if_neg]
    intro h
    obtain ⟨t, ht⟩ := startsWith_iff.1 h
    rw [List.append_assoc] at ht
    have := List.append_cancel_left ht
    injection this with h1 _
    exact hc h1
  · unfold copied
    rw [if_pos (startsWith_iff.2 ⟨c :: p, rfl⟩)]

example : isabs "/w/linux".toList = true ∧ isabs "cfg//net/x.cfg".toList = false ∧
    copied "/w/linux".toList "cfg//net/x.cfg".toList = some "debian/fragments/cfg//net/x.cfg".toList := by decide +kernel

example : copied "/w/linux".toList "/w/linux-extra/x.cfg".toList = none := by decide +kernel

/-! ## The overlays of the boot script -/

theorem meant_abs {v o : Str} (h : isabs o = true) : meant v o = o := by
  obtain ⟨t, rfl⟩ := isabs_iff.1 h
  rfl

theorem meant_rel {v o : Str} (h : isabs o = false) : meant v o = kernelDir v ++ o := by
  unfold meant kernelDir
  split
  · cases h
  · rw [List.append_assoc _ "/".toList]; rfl

theorem sw_isabs (o : Str) : startsWith o "/".toList = isabs o := by
  cases o with
  | nil => rfl
  | cons c t =>
    rw [Bool.eq_iff_iff, startsWith_iff, isabs_iff]
    exact Iff.rfl

theorem loads_overlays (v : Str) : ∀ (l : List Str) (path : Str), loads (overlayCmds v path l) =
    match l with
    | [] => []
    | o :: l => ((if isabs o then path else kernelDir v) ++ o) :: loads (overlayCmds v (if isabs o then path else kernelDir v) l)
  | [], _ => rfl
  | o :: l, path => by
    conv => lhs; unfold overlayCmds
    dsimp only
    rw [sw_isabs]
    rfl

theorem loads_script (c : Conf) : loads (script c) = loads (overlayCmds c.version [] c.overlays) := by
  unfold script loads
  simp only [List.filterMap_append]
  cases c.builtinDt <;> cases c.noInitrd <;> simp

/-- After a relative overlay, all are looked for among the files of the kernel. -/
theorem loads_after (v : Str) : ∀ l : List Str, loads (overlayCmds v (kernelDir v) l) = l.map (kernelDir v ++ ·)
  | [] => rfl
  | o :: l => by
    rw [loads_overlays]
    dsimp only
    rw [ite_self, loads_after v l]
    rfl

theorem kernelDir_ne (v : Str) : kernelDir v ≠ [] := by
  unfold kernelDir
  intro h
  have := congrArg List.length h
  simp at this

theorem absFirst_cons {o : Str} {l : List Str} : AbsFirst (o :: l) ↔ (isabs o = false → ∀ a ∈ l, isabs a = false) ∧ AbsFirst l := by
  constructor
  · intro h
    refine ⟨?_, ?_⟩
    · intro ho a ha
      obtain ⟨j, hj⟩ := List.mem_iff_getElem?.1 ha
      cases hA : isabs a with
      | false => rfl
      | true => exact absurd (h 0 (j + 1) o a (by omega) rfl hj hA) (by rw [ho]; decide)
    · intro i j r a hij hi hj ha
      exact h (i + 1) (j + 1) r a (by omega) hi hj ha
  · rintro ⟨h1, h2⟩ i j r a hij hi hj ha
    cases j with
    | zero => omega
    | succ j =>
      cases i with
      | zero =>
        injection hi with hi
        subst hi
        cases hO : isabs o with
        | true => rfl
        | false =>
          have := h1 hO a (List.mem_iff_getElem?.2 ⟨j, hj⟩)
          rw [ha] at this
          cases this
      | succ i => exact h2 i j r a (by omega) hi hj ha

theorem loads_iff (v : Str) : ∀ l : List Str, loads (overlayCmds v [] l) = l.map (meant v) ↔ AbsFirst l
  | [] => ⟨fun _ i j r a _ hi => by simp at hi, fun _ => rfl⟩
  | o :: l => by
    rw [loads_overlays, absFirst_cons, List.map_cons]
    dsimp only
    cases ho : isabs o with
    | true =>
      rw [if_pos rfl, meant_abs ho, List.nil_append, List.cons_inj_right, loads_iff v l]
      exact ⟨fun h => ⟨(fun h => by cases h), h⟩, fun h => h.2⟩
    | false =>
      rw [if_neg (by decide), meant_rel ho, List.cons_inj_right, loads_after, List.map_inj_left]
      constructor
      · intro h
        have h' : ∀ a ∈ l, isabs a = false := by
          intro a ha
          cases hA : isabs a with
          | false => rfl
          | true =>
            have := h a ha
            rw [meant_abs hA] at this
            exact absurd (List.append_left_eq_self.1 this) (kernelDir_ne v)
        refine ⟨fun _ => h', ?_⟩
        intro i j r a _ _ hj hA
        have := h' a (List.mem_iff_getElem?.2 ⟨j, hj⟩)
        rw [hA] at this
        cases this
      · rintro ⟨h, _⟩ a ha
        rw [meant_rel (h rfl a ha)]

/-- The script loads the overlays that are meant, in their order, exactly if no absolute one comes after a relative one. -/
theorem overlays_right_iff (c : Conf) : loads (script c) = c.overlays.map (meant c.version) ↔ AbsFirst c.overlays := by
  rw [loads_script]
  exact loads_iff c.version c.overlays

/-- So the script is right if all overlays are of one kind.  Missing: those of both kinds in any order. -/
theorem overlays_right_partial (c : Conf) (h : (∀ o ∈ c.overlays, isabs o = true) ∨ (∀ o ∈ c.overlays, isabs o = false)) :
    loads (script c) = c.overlays.map (meant c.version) := by
  rw [overlays_right_iff]
  intro i j r a _ hi hj ha
  rcases h with h | h
  · exact h r (List.mem_iff_getElem?.2 ⟨i, hi⟩)
  · have := h a (List.mem_iff_getElem?.2 ⟨j, hj⟩)
    rw [ha] at this
    cases this

/-- An absolute overlay after a relative one is looked for in a directory where it was not asked for. -/
theorem overlay_lost (c : Conf) (r a : Str) (hr : isabs r = false) (ha : isabs a = true) (ho : c.overlays = [r, a]) :
    loads (script c) = [kernelDir c.version ++ r, kernelDir c.version ++ a] ∧
    loads (script c) ≠ c.overlays.map (meant c.version) := by
  have h1 : loads (script c) = [kernelDir c.version ++ r, kernelDir c.version ++ a] := by
    rw [loads_script, ho, loads_overlays]
    dsimp only
    rw [hr, if_neg (by decide), loads_after]
    rfl
  refine ⟨h1, ?_⟩
  rw [Ne, overlays_right_iff]
  intro h
  have := h 0 1 r a (by omega) (by rw [ho]; rfl) (by rw [ho]; rfl) ha
  rw [hr] at this
  cases this

/-- The last command boots, and it is given a ramdisk exactly if one was loaded. -/
theorem boot_last (c : Conf) : ∃ l b i, script c = l ++ [.boot b i] ∧ (∀ b' i', Cmd.boot b' i' ∉ l) ∧
    (i = true ↔ ∃ p, Cmd.initrd p ∈ l) ∧ (∃ p, Cmd.kernel p ∈ l) := by
  have hov : ∀ (l : List Str) (path : Str), ∀ x ∈ overlayCmds c.version path l, ∃ p, x = .overlay p := by
    intro l
    induction l with
    | nil => intro _ x hx; cases hx
    | cons o l ih =>
      intro path x hx
      unfold overlayCmds at hx
      dsimp only at hx
      rcases List.mem_cons.1 hx with rfl | hx
      · exact ⟨_, rfl⟩
      · exact ih _ x hx
  refine ⟨_, _, _, rfl, ?_, ?_, ?_⟩
  · intro b' i' h
    simp only [List.mem_append] at h
    rcases h with ((h | h) | h) | h
    · split at h <;> simp at h
    · simp at h
    · split at h <;> simp at h
    · obtain ⟨p, hp⟩ := hov _ _ _ h
      cases hp
  · cases hn : c.noInitrd with
    | false => exact ⟨fun _ => ⟨_, List.mem_append_left _ (List.mem_append_right _ List.mem_cons_self)⟩, fun _ => rfl⟩
    | true =>
      refine ⟨(fun h => by cases h), ?_⟩
      rintro ⟨p, h⟩
      simp only [List.mem_append] at h
      rcases h with ((h | h) | h) | h
      · split at h <;> simp at h
      · simp at h
      · simp at h
      · obtain ⟨p, hp⟩ := hov _ _ _ h
        cases hp
  · exact ⟨_, List.mem_append_left _ (List.mem_append_left _ (List.mem_append_right _ List.mem_cons_self))⟩

example : loads (script ⟨"aarch64".toList, "6.1".toList, false, false, ["/boot/a.dtbo".toList, "ti/b.dtbo".toList]⟩) =
    ["/boot/a.dtbo".toList, "/usr/lib/linux-image-6.1/ti/b.dtbo".toList] := by decide +kernel

example : loads (script ⟨"aarch64".toList, "6.1".toList, false, false, ["ti/b.dtbo".toList, "/boot/a.dtbo".toList]⟩) =
    ["/usr/lib/linux-image-6.1/ti/b.dtbo".toList, "/usr/lib/linux-image-6.1//boot/a.dtbo".toList] := by decide +kernel

end Meta.Kernel
