import Verif.Meta.ArchiveModel

/-!
C276: unpacking the archive of a root file system gives the root file system.
C277: the content of directories that are left out is not in the compressed file system, the directories are.
C278: a package of plain files has all files.
-/

namespace Isar.Meta.Archive

open Py

namespace Spec

/-- a text has the name of the packed directory somewhere -/
def mentions (t : Str) : Prop := ∃ a b, t = a ++ 'r' :: 'o' :: 'o' :: 't' :: 'f' :: 's' :: b

/-- a path is below a directory -/
def below (d p : List Str) : Prop := ∃ c rest, p = d ++ c :: rest

/-- a path is below a directory and the name directly below it begins with a point -/
def hiddenBelow (d p : List Str) : Prop := ∃ c rest, p = d ++ ('.' :: c) :: rest

end Spec

/-! ## C276 -/

theorem replaceFirst_ne {pat rep : Str} (hp : pat ≠ []) : ∀ s, isSub pat s = false → replaceFirst pat rep s = s
  | [], _ => by unfold replaceFirst; rw [if_neg hp]
  | c :: s, h => by
    unfold isSub at h
    rw [Bool.or_eq_false_iff] at h
    unfold replaceFirst
    rw [if_neg (by rw [h.1]; simp), replaceFirst_ne hp s h.2]

theorem startsWith_split {s p : Str} (h : startsWith s p = true) : s = p ++ s.drop p.length := by
  unfold startsWith at h
  obtain ⟨t, rfl⟩ := List.isPrefixOf_iff_prefix.mp h
  simp

theorem replaceFirst_eq {pat rep : Str} (hp : pat ≠ []) (hr : rep ≠ pat) : ∀ s, replaceFirst pat rep s = s → isSub pat s = false
  | [], _ => by
    unfold isSub
    rcases pat with _ | ⟨x, p⟩
    · exact absurd rfl hp
    · rfl
  | c :: s, h => by
    unfold replaceFirst at h
    split at h
    · rename_i hs
      have h1 := startsWith_split hs
      rw [← h] at h1
      -- both sides end in the same text
      have h2 := h
      conv at h2 => rhs; rw [startsWith_split hs]
      exact absurd (List.append_cancel_right h2) hr
    · rename_i hs
      unfold isSub
      rw [Bool.or_eq_false_iff]
      exact ⟨by simpa using hs, replaceFirst_eq hp hr s (List.cons.inj h).2⟩

theorem replaceFirst_prefix {pat rep : Str} (hp : pat ≠ []) (q : Str) : replaceFirst pat rep (pat ++ q) = rep ++ q := by
  rcases pat with _ | ⟨x, p⟩
  · exact absurd rfl hp
  · show replaceFirst (x :: p) rep (x :: (p ++ q)) = rep ++ q
    unfold replaceFirst
    rw [if_pos (by unfold startsWith; exact List.isPrefixOf_iff_prefix.mpr ⟨q, rfl⟩)]
    simp

theorem rootfs_ne : rootfs ≠ [] := by decide

theorem mentions_iff {t : Str} : isSub rootfs t = true ↔ Spec.mentions t := by
  rw [isSub_iff]
  have : rootfs = ['r', 'o', 'o', 't', 'f', 's'] := by decide
  rw [this]
  simp [Spec.mentions]

/-- **C276**: the members are the paths of the root file system below the point, in the same order. -/
theorem members {rep : Str} {fs : List (Str × Entry)} : (pack rep fs).map (·.1) = fs.map (fun x => rep ++ x.1) := by
  unfold pack
  rw [List.map_map]
  apply List.map_congr_left
  intro x _
  exact replaceFirst_prefix rootfs_ne x.1

/-- One path, packed and unpacked. -/
theorem roundtrip_one {rep : Str} (hr : rep ≠ rootfs) (x : Str × Entry) :
    unpack rep (pack rep [x]) = [x] ↔ ∀ t, x.2 = .symlink t → ¬ Spec.mentions t := by
  obtain ⟨p, e⟩ := x
  have hd : (rep ++ p).drop rep.length = p := by simp
  simp only [pack, unpack, transform, List.map_cons, List.map_nil, List.cons.injEq, and_true, Prod.mk.injEq, replaceFirst_prefix rootfs_ne, hd, true_and]
  cases e with
  | dir => simp
  | file c => simp
  | symlink t =>
    simp only [Entry.symlink.injEq]
    rw [← show (isSub rootfs t = false ↔ ∀ t', t = t' → ¬ Spec.mentions t') from ?_]
    · exact ⟨replaceFirst_eq rootfs_ne hr t, replaceFirst_ne rootfs_ne t⟩
    · constructor
      · rintro h t' rfl hm
        rw [mentions_iff.mpr hm] at h; cases h
      · intro h
        cases hq : isSub rootfs t with
        | false => rfl
        | true => exact absurd (mentions_iff.mp hq) (h t rfl)
  | hardlink n => simp [replaceFirst_prefix rootfs_ne]

/-- **C276**: unpacking gives the root file system back if and only if no symbolic link in it has a target with the text `rootfs`. -/
theorem roundtrip_iff_partial {rep : Str} (hr : rep ≠ rootfs) {fs : List (Str × Entry)} :
    unpack rep (pack rep fs) = fs ↔ ∀ x ∈ fs, ∀ t, x.2 = .symlink t → ¬ Spec.mentions t := by
  induction fs with
  | nil => simp [pack, unpack]
  | cons x fs ih =>
    have h1 := roundtrip_one hr x
    have h2 : unpack rep (pack rep (x :: fs)) = unpack rep (pack rep [x]) ++ unpack rep (pack rep fs) := by simp [pack, unpack]
    have h3 : (unpack rep (pack rep [x])).length = 1 := by simp [pack, unpack]
    rw [h2]
    constructor
    · intro h
      have h4 : unpack rep (pack rep [x]) ++ unpack rep (pack rep fs) = [x] ++ fs := h
      obtain ⟨a, b⟩ := List.append_inj h4 (by simpa using h3)
      intro y hy
      rcases List.mem_cons.mp hy with rfl | hy
      · exact h1.mp a
      · exact ih.mp b y hy
    · intro h
      rw [h1.mpr (h x (List.mem_cons_self ..)), ih.mpr (fun y hy => h y (List.mem_cons_of_mem _ hy))]
      rfl

def witness : List (Str × Entry) :=
  [([], .dir), ("/srv".toList, .dir), ("/srv/rootfs".toList, .dir), ("/srv/rootfs/a".toList, .file "x".toList), ("/srv/b".toList, .hardlink "/srv/rootfs/a".toList),
   ("/srv/c".toList, .symlink "b".toList), ("/srv/d".toList, .symlink "rootfs/a".toList)]

/-- A link to `rootfs/a` points to `./a` in the archive, where nothing is. -/
theorem link_changed : (unpack ['.'] (pack ['.'] witness))[6]? = some ("/srv/d".toList, .symlink "./a".toList) ∧
    unpack ['.'] (pack ['.'] (witness.take 6)) = witness.take 6 := by decide +kernel

example : (pack ['.'] witness)[4]? = some ("./srv/b".toList, .hardlink "./srv/rootfs/a".toList) ∧
    ((pack "sdk-x".toList witness)[3]?).map (·.1) = some "sdk-x/srv/rootfs/a".toList := by decide +kernel

/-! ## C277 -/

theorem excluded_iff : ∀ {d : List Str}, ['*'] ∉ d → ∀ (p : List Str), excluded (d ++ [['*']]) p = true ↔ ∃ c rest, p = d ++ c :: rest ∧ c.head? ≠ some '.'
  | [], _, [] => by simp [excluded]
  | [], _, c :: cs => by
    have : excluded [] cs = true := by cases cs <;> rfl
    simp [excluded, matchComp, this]
  | x :: d, h, [] => by simp [excluded]
  | x :: d, h, c :: cs => by
    simp only [List.mem_cons, not_or] at h
    have hx : ¬ x = ['*'] := fun e => h.1 e.symm
    have ih := excluded_iff h.2 cs
    simp only [List.cons_append, excluded, matchComp, if_neg hx, Bool.and_eq_true, beq_iff_eq, ih, List.cons.injEq]
    constructor
    · rintro ⟨rfl, c', r, rfl, h3⟩; exact ⟨c', r, ⟨rfl, rfl⟩, h3⟩
    · rintro ⟨c', r, ⟨rfl, rfl⟩, h3⟩; exact ⟨rfl, c', r, rfl, h3⟩

/-- **C277**: exactly what is in the image: all but what is below one of the directories, unless the name directly below it begins with a point. -/
theorem squash_iff {dirs fs : List (List Str)} (hd : ∀ d ∈ dirs, ['*'] ∉ d) (p : List Str) :
    p ∈ squash dirs fs ↔ p ∈ fs ∧ ∀ d ∈ dirs, Spec.below d p → Spec.hiddenBelow d p := by
  have key : ∀ d ∈ dirs, (excluded (d ++ [['*']]) p = false ↔ (Spec.below d p → Spec.hiddenBelow d p)) := by
    intro d hm
    rw [← Bool.not_eq_true, excluded_iff (hd d hm)]
    constructor
    · rintro h ⟨c, r, rfl⟩
      rcases c with _ | ⟨x, c⟩
      · exact absurd ⟨[], r, rfl, by simp⟩ h
      · by_cases hx : x = '.'
        · subst hx; exact ⟨c, r, rfl⟩
        · exact absurd ⟨x :: c, r, rfl, by simpa using hx⟩ h
    · rintro h ⟨c, r, rfl, hc⟩
      obtain ⟨c', r', he⟩ := h ⟨c, r, rfl⟩
      have := List.append_cancel_left he
      rw [(List.cons.inj this).1] at hc
      exact hc rfl
  unfold squash
  by_cases h0 : dirs = []
  · rw [if_pos h0]; subst h0; simp
  · rw [if_neg h0, List.mem_filter]
    refine and_congr Iff.rfl ?_
    rw [Bool.not_eq_true', List.any_eq_false]
    constructor
    · intro h d hm
      exact (key d hm).mp (by simpa using h (d ++ [['*']]) (List.mem_map_of_mem hm))
    · intro h e he
      obtain ⟨d, hm, rfl⟩ := List.mem_map.mp he
      simpa using (key d hm).mpr (h d hm)

/-- **C277**: the directories stay, as places to mount something, unless they are in one another. -/
theorem mount_points_stay {dirs fs : List (List Str)} (hd : ∀ d ∈ dirs, ['*'] ∉ d) {p : List Str} (hp : p ∈ fs) (hn : ∀ d ∈ dirs, ¬ Spec.below d p) : p ∈ squash dirs fs :=
  (squash_iff hd p).mpr ⟨hp, fun d hm h => absurd h (hn d hm)⟩

/-- **C277** in part: nothing below the directories is in the image, if no name directly below them begins with a point. -/
theorem left_out_partial {dirs fs : List (List Str)} (hd : ∀ d ∈ dirs, ['*'] ∉ d) {d p : List Str} (hm : d ∈ dirs) (hb : Spec.below d p) (hh : ¬ Spec.hiddenBelow d p) :
    p ∉ squash dirs fs := fun h => hh (((squash_iff hd p).mp h).2 d hm hb)

/-- Hidden files stay, with all that is below hidden directories. -/
theorem hidden_stays : squash [["home".toList]] [["home".toList], ["home".toList, "u".toList], ["home".toList, ".ssh".toList], ["home".toList, ".ssh".toList, "key".toList], ["etc".toList]] =
    [["home".toList], ["home".toList, ".ssh".toList], ["home".toList, ".ssh".toList, "key".toList], ["etc".toList]] := by decide +kernel

/-! ## C278 -/

theorem dhInstall_words {have_ : List Str} : ∀ {ls : List Str}, (∀ l ∈ ls, IsWord l ∧ l ∈ have_) → dhInstall have_ ls = some (ls.map fun l => (l, l))
  | [], _ => rfl
  | l :: ls, h => by
    have h1 := h l (List.mem_cons_self ..)
    have h2 := dhInstall_words (have_ := have_) (ls := ls) (fun x hx => h x (List.mem_cons_of_mem _ hx))
    have h3 : dhLine have_ l = some [(l, l)] := by
      unfold dhLine
      rw [words_word h1.1]
      dsimp only
      rw [if_pos h1.2]
    unfold dhInstall
    rw [h2, h3]
    rfl

/-- **C278**: if no name has blanks, the package has everything but what is called `debian`, each at its place. -/
theorem package_iff_partial {names : List Str} (hw : ∀ n ∈ names, IsWord n) :
    ∃ r, package names = some r ∧ ∀ s d, (s, d) ∈ r ↔ s = d ∧ s ∈ names ∧ s ≠ ['d', 'e', 'b', 'i', 'a', 'n'] := by
  have hd : "debian".toList = ['d', 'e', 'b', 'i', 'a', 'n'] := by decide
  refine ⟨_, dhInstall_words (fun l hl => ?_), fun s d => ?_⟩
  · unfold installLines at hl
    have := (List.mem_filter.mp hl).1
    exact ⟨hw l this, this⟩
  · unfold installLines
    rw [hd, List.mem_map]
    constructor
    · rintro ⟨a, ha, he⟩
      obtain ⟨rfl, rfl⟩ := Prod.mk.inj he
      obtain ⟨h1, h2⟩ := List.mem_filter.mp ha
      exact ⟨rfl, h1, by simpa using h2⟩
    · rintro ⟨rfl, h1, h2⟩
      exact ⟨s, List.mem_filter.mpr ⟨h1, by simpa using h2⟩, rfl⟩

theorem dhInstall_none {have_ : List Str} : ∀ {ls : List Str} {l : Str}, l ∈ ls → dhLine have_ l = none → dhInstall have_ ls = none
  | x :: ls, l, hm, hn => by
    unfold dhInstall
    rcases List.mem_cons.mp hm with rfl | hm
    · rw [hn]
    · rw [dhInstall_none hm hn]
      cases dhLine have_ x <;> rfl

/-- A name with a blank makes the build fail, unless the part before the blank is a name, too. -/
theorem blank_fails {names : List Str} {a b : Str} (ha : IsWord a) (hb : IsWord b) (hm : a ++ ' ' :: b ∈ names) (hn : a ∉ names) : package names = none := by
  have hws : isWs ' ' = true := by decide
  refine dhInstall_none (l := a ++ ' ' :: b) (List.mem_filter.mpr ⟨hm, ?_⟩) ?_
  · have : a ++ ' ' :: b ≠ "debian".toList := fun h => by
      have : ' ' ∈ "debian".toList := by rw [← h]; simp
      revert this; decide
    simpa using this
  · unfold dhLine
    rw [words_append_ws _ _ _ hws, words_word ha, words_word hb]
    simp [hn]

/-- If it is one, the other file is put into the package twice and this one not at all. -/
theorem blank_wrong : package ["a".toList, "a b".toList] = some [("a".toList, "a".toList), ("a".toList, "b/a".toList)] := by decide +kernel

/-- A directory `debian` at the top is lost. -/
theorem debian_lost : package ["debian".toList, "usr".toList] = some [("usr".toList, "usr".toList)] := by decide +kernel

example : package ["etc".toList, ".x".toList, "usr".toList] = some [("etc".toList, "etc".toList), (".x".toList, ".x".toList), ("usr".toList, "usr".toList)] ∧
    package ["a b".toList] = none := by decide +kernel

end Isar.Meta.Archive
