import Verif.Meta.ContainerModel

/- C159, C160: names of images of containers and how they are loaded. -/

namespace Meta.Container
open Py

/-! ### C159 -/

/-- Names that differ only in that one has a dot where the other one has a slash. -/
inductive Alike : Str → Str → Prop where
  | nil : Alike [] []
  | same (c) {s t} : Alike s t → Alike (c :: s) (c :: t)
  | left {s t} : Alike s t → Alike ('/' :: s) ('.' :: t)
  | right {s t} : Alike s t → Alike ('.' :: s) ('/' :: t)

theorem alike_iff : ∀ {s t : Str}, Alike s t ↔ subChar '/' '.' s = subChar '/' '.' t
  | [], [] => ⟨fun _ => rfl, fun _ => Alike.nil⟩
  | [], _ :: _ => ⟨fun h => (nomatch h), fun h => nomatch h⟩
  | _ :: _, [] => ⟨fun h => (nomatch h), fun h => nomatch h⟩
  | a :: s, b :: t => by
    have ih := alike_iff (s := s) (t := t)
    constructor
    · intro h
      cases h with
      | same c h => exact congrArg ((if a = '/' then '.' else a) :: ·) (ih.1 h)
      | left h => show '.' :: subChar '/' '.' s = '.' :: subChar '/' '.' t; rw [ih.1 h]
      | right h => show '.' :: subChar '/' '.' s = '.' :: subChar '/' '.' t; rw [ih.1 h]
    · intro h
      have h : (if a = '/' then '.' else a) :: subChar '/' '.' s = (if b = '/' then '.' else b) :: subChar '/' '.' t := h
      obtain ⟨h1, h2⟩ := List.cons.inj h
      have h2 := ih.2 h2
      by_cases ha : a = '/'
      · by_cases hb : b = '/'
        · rw [ha, hb]; exact Alike.same _ h2
        · rw [if_pos ha, if_neg hb] at h1
          rw [ha, ← h1]; exact Alike.left h2
      · by_cases hb : b = '/'
        · rw [if_neg ha, if_pos hb] at h1
          rw [hb, h1]; exact Alike.right h2
        · rw [if_neg ha, if_neg hb] at h1
          rw [h1]; exact Alike.same _ h2

theorem last_sep {c : Char} : ∀ {a b x y : Str}, c ∉ x → c ∉ y → a ++ c :: x = b ++ c :: y → a = b ∧ x = y
  | [], [], _, _, _, _, h => ⟨rfl, (List.cons.inj h).2⟩
  | [], d :: b, x, y, hx, _, h => absurd (by rw [(List.cons.inj h).2]; exact List.mem_append_right _ List.mem_cons_self) hx
  | d :: a, [], x, y, _, hy, h => absurd (by rw [← (List.cons.inj h).2]; exact List.mem_append_right _ List.mem_cons_self) hy
  | d :: a, e :: b, x, y, hx, hy, h => by
    have h := List.cons.inj h
    have := last_sep hx hy h.2
    exact ⟨by rw [h.1, this.1], this.2⟩

/-- The tag is not written, or has no colon. -/
def TagOk (u : Url) : Prop := ':' ∉ tagOf u

/-- C159: two images have the same file in `WORKDIR` and in the package if and only if they have the same tag and names that differ
only in dots for slashes. -/
theorem imageFile_iff {u v : Url} (hu : TagOk u) (hv : TagOk v) : imageFile u = imageFile v ↔ tagOf u = tagOf v ∧ Alike (nameOf u) (nameOf v) := by
  rw [alike_iff]
  constructor
  · intro h
    have h : localName u ++ ':' :: tagOf u ++ ".zst".toList = localName v ++ ':' :: tagOf v ++ ".zst".toList := by
      unfold imageFile at h
      simp only [List.append_assoc, List.singleton_append] at h ⊢
      exact h
    obtain ⟨h1, h2⟩ := last_sep hu hv (List.append_cancel_right h)
    exact ⟨h2, h1⟩
  · rintro ⟨h1, h2⟩
    unfold imageFile localName
    rw [h1, h2]

theorem alike_nodot {s t : Str} (hs : '.' ∉ s) (ht : '.' ∉ t) (h : Alike s t) : s = t := by
  induction h with
  | nil => rfl
  | same c _ ih => rw [ih (fun hm => hs (List.mem_cons_of_mem _ hm)) fun hm => ht (List.mem_cons_of_mem _ hm)]
  | left _ _ => exact absurd List.mem_cons_self ht
  | right _ _ => exact absurd List.mem_cons_self hs

theorem alike_cancel : ∀ {p s t : Str}, Alike (p ++ s) (p ++ t) → Alike s t := by
  intro p s t h
  rw [alike_iff] at h ⊢
  unfold subChar at h ⊢
  rw [List.map_append, List.map_append] at h
  exact List.append_cancel_left h

/-- C159, where it holds: different images from one host, with no dots in their paths, have different files; and the names inside
of the archive and in the list are different, too. -/
theorem imageFile_distinct_partial {u v : Url} (hu : TagOk u) (hv : TagOk v) (hh : u.host = v.host) (pu : '.' ∉ u.path) (pv : '.' ∉ v.path)
    (h : imageFile u = imageFile v) : refOf u = refOf v ∧ nameOf u = nameOf v ∧ tagOf u = tagOf v := by
  obtain ⟨h1, h2⟩ := (imageFile_iff hu hv).1 h
  have : nameOf u = nameOf v := by
    unfold nameOf at h2 ⊢
    rw [hh] at h2 ⊢
    have nd : ∀ {p : Str}, '.' ∉ p → '.' ∉ (if p ≠ ['/'] then p else []) := by
      intro p hp; split
      · exact hp
      · exact nofun
    rw [alike_nodot (nd pu) (nd pv) (alike_cancel h2)]
  refine ⟨?_, this, h1⟩
  unfold refOf
  rw [this, h1]

example : let u : Url := ⟨"docker.io".toList, "/library/debian".toList, some "12".toList, none⟩
    TagOk u ∧ '.' ∉ u.path ∧ imageFile u = "docker.io.library.debian:12.zst".toList ∧ refOf u = "docker.io/library/debian:12".toList := by
  refine ⟨?_, ?_, ?_, ?_⟩ <;> (try unfold TagOk) <;> decide +kernel

/-- C159: the name in the list is that of the image that is unpacked, when no two have the same file. -/
theorem unpacked {us : List Url} (hd : ∀ u ∈ us, ∀ v ∈ us, imageFile u = imageFile v → refOf u = refOf v) (w : Str → Option Url) {u : Url} (hu : u ∈ us) :
    ∃ v, unpackAll us w (imageFile u) = some v ∧ refOf v = refOf u := by
  have key : ∀ (us : List Url) (w : Str → Option Url), (∀ x ∈ us, imageFile x = imageFile u → refOf x = refOf u) →
      (u ∈ us ∨ ∃ v, w (imageFile u) = some v ∧ refOf v = refOf u) → ∃ v, unpackAll us w (imageFile u) = some v ∧ refOf v = refOf u := by
    intro us
    induction us with
    | nil => intro w _ h; exact h.elim (fun h => nomatch h) id
    | cons x us ih =>
      intro w hx h
      refine ih _ (fun y hy => hx y (List.mem_cons_of_mem _ hy)) ?_
      by_cases e : imageFile u = imageFile x
      · exact Or.inr ⟨x, if_pos e, hx x List.mem_cons_self e.symm⟩
      · rcases h with h | ⟨v, h1, h2⟩
        · rcases List.mem_cons.1 h with rfl | h
          · exact absurd rfl e
          · exact Or.inl h
        · exact Or.inr ⟨v, (if_neg e).trans h1, h2⟩
  exact key us w (fun x hx => hd x hx u hu) (Or.inl hu)

/-- Against C159: two images with one file. -/
theorem same_file : let u : Url := ⟨"quay.io".toList, "/a/b".toList, none, none⟩
    let v : Url := ⟨"quay.io".toList, "/a.b".toList, none, none⟩
    imageFile u = imageFile v ∧ refOf u ≠ refOf v ∧ (unpackAll [u, v] (fun _ => none) (imageFile u)).map refOf = some (refOf v) := by decide +kernel

/-- Against C159: two images with one file in `DL_DIR`. -/
theorem same_download : let u : Url := ⟨"quay.io".toList, "/a_b".toList, some "c".toList, none⟩
    let v : Url := ⟨"quay.io".toList, "/a".toList, some "b_c".toList, none⟩
    localFile "amd64".toList u = localFile "amd64".toList v ∧ refOf u ≠ refOf v := by decide +kernel

/-- Architectures that lead to the same images. -/
theorem archOf_inj {a b : Str} (h : archOf a = archOf b) : a = b := by
  unfold archOf at h
  by_cases h1 : a = "armhf".toList
  · rw [if_pos h1] at h
    by_cases g1 : b = "armhf".toList
    · rw [h1, g1]
    · rw [if_neg g1] at h
      by_cases g2 : b = "armel".toList
      · rw [if_pos g2] at h; exact absurd (Option.some.inj (Prod.mk.inj h).2) (by decide)
      · rw [if_neg g2] at h; exact nomatch (Prod.mk.inj h).2
  · rw [if_neg h1] at h
    by_cases h2 : a = "armel".toList
    · rw [if_pos h2] at h
      by_cases g1 : b = "armhf".toList
      · rw [if_pos g1] at h; exact absurd (Option.some.inj (Prod.mk.inj h).2) (by decide)
      · rw [if_neg g1] at h
        by_cases g2 : b = "armel".toList
        · rw [h2, g2]
        · rw [if_neg g2] at h; exact nomatch (Prod.mk.inj h).2
    · rw [if_neg h2] at h
      by_cases g1 : b = "armhf".toList
      · rw [if_pos g1] at h; exact nomatch (Prod.mk.inj h).2
      · rw [if_neg g1] at h
        by_cases g2 : b = "armel".toList
        · rw [if_pos g2] at h; exact nomatch (Prod.mk.inj h).2
        · rw [if_neg g2] at h; exact (Prod.mk.inj h).1

/-- Names of architectures, tags and digests as they are usual. -/
structure Usual (arch : Str) (u : Url) : Prop where
  arch : '/' ∉ arch
  slash : '/' ∉ idOf u
  low : '_' ∉ idOf u

theorem slash_localName (u : Url) : '/' ∉ localName u := by
  unfold localName subChar
  intro h
  obtain ⟨c, _, h⟩ := List.mem_map.1 h
  by_cases e : c = '/'
  · rw [if_pos e] at h; exact absurd h (by decide)
  · rw [if_neg e] at h; exact e h

theorem arch_slash {arch : Str} (h : '/' ∉ arch) : '/' ∉ (archOf arch).1 ∧ ∀ v ∈ (archOf arch).2, '/' ∉ v := by
  unfold archOf
  by_cases h1 : arch = "armhf".toList
  · rw [if_pos h1]; exact ⟨by decide, fun v hv => by cases hv; decide⟩
  · rw [if_neg h1]
    by_cases h2 : arch = "armel".toList
    · rw [if_pos h2]; exact ⟨by decide, fun v hv => by cases hv; decide⟩
    · rw [if_neg h2]; exact ⟨h, nofun⟩

theorem first_sep {c : Char} : ∀ {a b x y : Str}, c ∉ a → c ∉ b → a ++ c :: x = b ++ c :: y → a = b ∧ x = y
  | [], [], _, _, _, _, h => ⟨rfl, (List.cons.inj h).2⟩
  | [], d :: b, x, y, _, hb, h => absurd (by rw [(List.cons.inj h).1]; exact List.mem_cons_self) hb
  | d :: a, [], x, y, ha, _, h => absurd (by rw [← (List.cons.inj h).1]; exact List.mem_cons_self) ha
  | d :: a, e :: b, x, y, ha, hb, h => by
    have h := List.cons.inj h
    have := first_sep (fun hm => ha (List.mem_cons_of_mem _ hm)) (fun hm => hb (List.mem_cons_of_mem _ hm)) h.2
    exact ⟨by rw [h.1, this.1], this.2⟩

/-- C159, where it holds for files in `DL_DIR`: for usual names, the same file is for the same architecture, for names that differ
only in dots for slashes, and for the same tag or digest. -/
theorem localFile_partial {a b : Str} {u v : Url} (hu : Usual a u) (hv : Usual b v) (h : localFile a u = localFile b v) :
    a = b ∧ Alike (nameOf u) (nameOf v) ∧ idOf u = idOf v := by
  have rest : ∀ {u v : Url}, '_' ∉ idOf u → '_' ∉ idOf v → localName u ++ '_' :: idOf u ++ ".zst".toList = localName v ++ '_' :: idOf v ++ ".zst".toList →
      Alike (nameOf u) (nameOf v) ∧ idOf u = idOf v := by
    intro u v hu hv h
    obtain ⟨h1, h2⟩ := last_sep hu hv (List.append_cancel_right h)
    exact ⟨alike_iff.2 h1, h2⟩
  have noslash : ∀ {a : Str} {u : Url}, Usual a u → '/' ∉ localName u ++ '_' :: idOf u ++ ".zst".toList := by
    intro a u hu hm
    rcases List.mem_append.1 hm with hm | hm
    · rcases List.mem_append.1 hm with hm | hm
      · exact slash_localName u hm
      · exact (List.mem_cons.1 hm).elim (by decide) hu.slash
    · exact absurd hm (by decide)
  have form : ∀ (a : Str) (u : Url), localFile a u = "container-images/".toList ++ ((archOf a).1 ++ '/' :: (variantDir (archOf a).2 ++
      (localName u ++ '_' :: idOf u ++ ".zst".toList))) := by
    intro a u
    unfold localFile
    simp only [List.append_assoc, List.cons_append, List.nil_append]
  rw [form, form] at h
  have h := List.append_cancel_left h
  obtain ⟨e1, h⟩ := first_sep (arch_slash hu.arch).1 (arch_slash hv.arch).1 h
  have e2 : (archOf a).2 = (archOf b).2 ∧ localName u ++ '_' :: idOf u ++ ".zst".toList = localName v ++ '_' :: idOf v ++ ".zst".toList := by
    have sa := (arch_slash hu.arch).2
    have sb := (arch_slash hv.arch).2
    revert h
    cases hx : (archOf a).2 with
    | none =>
      cases hy : (archOf b).2 with
      | none => intro h; exact ⟨rfl, h⟩
      | some y =>
        intro h
        have h : localName u ++ '_' :: idOf u ++ ".zst".toList = y ++ ['/'] ++ (localName v ++ '_' :: idOf v ++ ".zst".toList) := h
        exact absurd (by rw [h]; exact List.mem_append_left _ (List.mem_append_right _ List.mem_cons_self)) (noslash hu)
    | some x =>
      cases hy : (archOf b).2 with
      | none =>
        intro h
        have h : x ++ ['/'] ++ (localName u ++ '_' :: idOf u ++ ".zst".toList) = localName v ++ '_' :: idOf v ++ ".zst".toList := h
        exact absurd (by rw [← h]; exact List.mem_append_left _ (List.mem_append_right _ List.mem_cons_self)) (noslash hv)
      | some y =>
        intro h
        have h : x ++ ['/'] ++ (localName u ++ '_' :: idOf u ++ ".zst".toList) = y ++ ['/'] ++ (localName v ++ '_' :: idOf v ++ ".zst".toList) := h
        rw [List.append_assoc x, List.append_assoc y, List.singleton_append, List.singleton_append] at h
        obtain ⟨h1, h2⟩ := first_sep (sa x hx) (sb y hy) h
        exact ⟨by rw [h1], h2⟩
  exact ⟨archOf_inj (Prod.ext e1 e2.1), rest hu.low hv.low e2.2⟩

example : Usual "armhf".toList ⟨"docker.io".toList, "/library/debian".toList, some "12".toList, some "sha256:0a1b".toList⟩ ∧
    localFile "armhf".toList ⟨"docker.io".toList, "/library/debian".toList, some "12".toList, some "sha256:0a1b".toList⟩ =
      "container-images/arm/v7/docker.io.library.debian_sha256-0a1b.zst".toList :=
  ⟨⟨by decide +kernel, by decide +kernel, by decide +kernel⟩, by decide +kernel⟩

/-! ### C160 -/

/-- Every line has its image, or the engine has it. -/
def Safe (ls : List Line) (s : Dev) : Prop := ∀ l ∈ ls, l.image ∈ s.files ∨ l.ref ∈ s.engine

/-- What was loaded is in the engine, and was loaded once. -/
def Once (s : Dev) : Prop := s.loads.Nodup ∧ ∀ r ∈ s.loads, r ∈ s.engine

theorem wanted_iff {l : Line} {s : Dev} : wanted l s = true ↔ l.image ∈ s.files ∧ l.ref ∉ s.engine := by
  unfold wanted
  rw [Bool.and_eq_true, decide_eq_true_iff, decide_eq_true_iff]

theorem load_safe {ar : Archive} {all : List Line} {l : Line} {s : Dev} (h : Safe all s) : Safe all (load ar l s) :=
  fun x hx => (h x hx).imp id (List.mem_cons_of_mem _)

theorem delete_safe {ar : Archive} {all : List Line} (hc : ∀ l ∈ all, ar.content l.image = l.ref) {l : Line} {s : Dev} (h : Safe all s) :
    Safe all (delete l (load ar l s)) := by
  intro x hx
  by_cases e : x.image = l.image
  · right
    show x.ref ∈ ar.content l.image :: s.engine
    rw [← hc x hx, e]
    exact List.mem_cons_self
  · rcases h x hx with h | h
    · exact Or.inl (List.mem_filter.2 ⟨h, decide_eq_true e⟩)
    · exact Or.inr (List.mem_cons_of_mem _ h)

theorem load_once {ar : Archive} {l : Line} (hc : ar.content l.image = l.ref) {s : Dev} (hw : wanted l s = true) (h : Once s) : Once (load ar l s) := by
  have hn := (wanted_iff.1 hw).2
  refine ⟨List.nodup_cons.2 ⟨fun hm => hn (hc ▸ h.2 _ hm), h.1⟩, fun r hr => ?_⟩
  rcases List.mem_cons.1 hr with rfl | hr
  · exact List.mem_cons_self
  · exact List.mem_cons_of_mem _ (h.2 r hr)

theorem states_inv {ar : Archive} {del : Bool} {all : List Line} (hc : ∀ l ∈ all, ar.content l.image = l.ref) :
    ∀ {ls : List Line}, (∀ l ∈ ls, l ∈ all) → ∀ {s : Dev}, Safe all s → Once s → ∀ x ∈ states ar del ls s, Safe all x ∧ Once x ∧ ∀ r ∈ s.engine, r ∈ x.engine
  | [], _, s, hs, ho, x, hx => by
    rw [List.mem_singleton.1 hx]
    exact ⟨hs, ho, fun _ h => h⟩
  | l :: ls, hl, s, hs, ho, x, hx => by
    have hl' : ∀ y ∈ ls, y ∈ all := fun y hy => hl y (List.mem_cons_of_mem _ hy)
    unfold states at hx
    by_cases hw : wanted l s = true
    · rw [if_pos hw] at hx
      by_cases hok : ar.ok l.image = true
      · rw [if_pos hok] at hx
        rcases List.mem_cons.1 hx with rfl | hx
        · exact ⟨hs, ho, fun _ h => h⟩
        · have h1 : Safe all (load ar l s) := load_safe hs
          have h2 := load_once (hc l (hl l List.mem_cons_self)) hw ho
          cases del with
          | false =>
            rw [if_neg nofun] at hx
            obtain ⟨a, b, c⟩ := states_inv hc hl' h1 h2 x hx
            exact ⟨a, b, fun r hr => c r (List.mem_cons_of_mem _ hr)⟩
          | true =>
            rw [if_pos rfl] at hx
            rcases List.mem_cons.1 hx with rfl | hx
            · exact ⟨h1, h2, fun r hr => List.mem_cons_of_mem _ hr⟩
            · obtain ⟨a, b, c⟩ := states_inv hc hl' (delete_safe hc hs) (s := delete l (load ar l s)) h2 x hx
              exact ⟨a, b, fun r hr => c r (List.mem_cons_of_mem _ hr)⟩
      · rw [if_neg hok] at hx
        rw [List.mem_singleton.1 hx]
        exact ⟨hs, ho, fun _ h => h⟩
    · rw [if_neg hw] at hx
      exact states_inv hc hl' hs ho x hx

theorem states_ne (ar : Archive) (del : Bool) (ls : List Line) (s : Dev) : states ar del ls s ≠ [] := by
  induction ls generalizing s with
  | nil => exact nofun
  | cons l ls ih =>
    unfold states
    split
    · split <;> exact nofun
    · exact ih s

theorem run_mem (ar : Archive) (del : Bool) (ls : List Line) (s : Dev) : run ar del ls s ∈ states ar del ls s := by
  unfold run
  have h := List.getLast?_eq_some_getLast (states_ne ar del ls s)
  rw [h]
  exact List.getLast_mem _

theorem run_skip {ar : Archive} {del : Bool} {l : Line} {ls : List Line} {s : Dev} (hw : ¬ wanted l s = true) : run ar del (l :: ls) s = run ar del ls s := by
  unfold run
  rw [show states ar del (l :: ls) s = states ar del ls s from by conv => lhs; unfold states
                                                                  rw [if_neg hw]]

theorem getLast_cons {α : Type} {x d e : α} {l : List α} (h : l ≠ []) : (x :: l).getLast?.getD d = l.getLast?.getD e := by
  cases l with
  | nil => exact absurd rfl h
  | cons y l => rw [List.getLast?_cons_cons, List.getLast?_eq_some_getLast (l := y :: l) (List.cons_ne_nil _ _)]; rfl

theorem run_load {ar : Archive} {del : Bool} {l : Line} {ls : List Line} {s : Dev} (hw : wanted l s = true) (ho : ar.ok l.image = true) :
    run ar del (l :: ls) s = run ar del ls (if del then delete l (load ar l s) else load ar l s) := by
  unfold run
  conv => lhs; unfold states
  rw [if_pos hw, if_pos ho]
  cases del with
  | false => rw [if_neg nofun, if_neg nofun]; exact getLast_cons (states_ne _ _ _ _)
  | true =>
    rw [if_pos rfl, if_pos rfl, getLast_cons (e := s) (List.cons_ne_nil _ _)]
    exact getLast_cons (states_ne _ _ _ _)

theorem run_all {ar : Archive} {del : Bool} {all : List Line} (hc : ∀ l ∈ all, ar.content l.image = l.ref) (hok : ∀ l ∈ all, ar.ok l.image = true) :
    ∀ {ls : List Line}, (∀ l ∈ ls, l ∈ all) → ∀ {s : Dev}, Safe all s → Once s → ∀ l ∈ ls, l.ref ∈ (run ar del ls s).engine
  | [], _, _, _, _, _, h => nomatch h
  | l :: ls, hl, s, hs, ho, x, hx => by
    have hl' : ∀ y ∈ ls, y ∈ all := fun y hy => hl y (List.mem_cons_of_mem _ hy)
    have hal := hl l List.mem_cons_self
    by_cases hw : wanted l s = true
    · rw [run_load hw (hok l hal)]
      have h2 := load_once (hc l hal) hw ho
      have h3 : Safe all (if del then delete l (load ar l s) else load ar l s) := by
        cases del with
        | false => rw [if_neg nofun]; exact load_safe hs
        | true => rw [if_pos rfl]; exact delete_safe hc hs
      have h4 : Once (if del then delete l (load ar l s) else load ar l s) := by cases del <;> exact h2
      have h5 : l.ref ∈ (if del then delete l (load ar l s) else load ar l s).engine := by
        have : l.ref ∈ ar.content l.image :: s.engine := by rw [hc l hal]; exact List.mem_cons_self
        cases del <;> exact this
      rcases List.mem_cons.1 hx with rfl | hx
      · exact (states_inv hc hl' h3 h4 _ (run_mem ar del ls _)).2.2 _ h5
      · exact run_all hc hok hl' h3 h4 x hx
    · rw [run_skip hw]
      rcases List.mem_cons.1 hx with rfl | hx
      · have : x.ref ∈ s.engine := by
          rcases hs x hal with h | h
          · exact Classical.byContradiction fun hn => hw (wanted_iff.2 ⟨h, hn⟩)
          · exact h
        exact (states_inv hc hl' hs ho _ (run_mem ar del ls s)).2.2 _ this
      · exact run_all hc hok hl' hs ho x hx

theorem after_inv {ar : Archive} {del : Bool} {ls : List Line} (hc : ∀ l ∈ ls, ar.content l.image = l.ref) {s s' : Dev} (ha : After ar del ls s s')
    (hs : Safe ls s) (ho : Once s) : Safe ls s' ∧ Once s' ∧ ∀ r ∈ s.engine, r ∈ s'.engine := by
  induction ha with
  | none => exact ⟨hs, ho, fun _ h => h⟩
  | some _ hx ih =>
    obtain ⟨a, b, c⟩ := ih
    obtain ⟨a', b', c'⟩ := states_inv hc (fun _ h => h) a b _ hx
    exact ⟨a', b', fun r hr => c' r (c r hr)⟩

/-- C160: however often and wherever the script was stopped, one that runs to its end leaves all images loaded, whether files are
deleted or not; nothing that was loaded is lost, and no image is loaded twice. -/
theorem all_loaded {ar : Archive} {del : Bool} {ls : List Line} (hc : ∀ l ∈ ls, ar.content l.image = l.ref) (hok : ∀ l ∈ ls, ar.ok l.image = true)
    {s s' : Dev} (hf : ∀ l ∈ ls, l.image ∈ s.files) (hl : s.loads = []) (ha : After ar del ls s s') :
    (∀ l ∈ ls, l.ref ∈ (run ar del ls s').engine) ∧ (∀ r ∈ s.engine, r ∈ (run ar del ls s').engine) ∧ (run ar del ls s').loads.Nodup := by
  have h := after_inv hc ha (fun l h => Or.inl (hf l h)) ⟨by rw [hl]; exact List.nodup_nil, by rw [hl]; exact nofun⟩
  have hr := states_inv hc (fun _ h => h) h.1 h.2.1 _ (run_mem ar del ls s')
  exact ⟨run_all hc hok (fun _ h => h) h.1 h.2.1, fun r hm => hr.2.2 r (h.2.2 r hm), hr.2.1.1⟩

/-- C160: at no time is the file of an image gone that the engine does not have, even if some cannot be loaded. -/
theorem never_lost {ar : Archive} {del : Bool} {ls : List Line} (hc : ∀ l ∈ ls, ar.content l.image = l.ref) {s s' : Dev} (hf : ∀ l ∈ ls, l.image ∈ s.files)
    (hl : s.loads = []) (ha : After ar del ls s s') : ∀ l ∈ ls, l.image ∈ s'.files ∨ l.ref ∈ s'.engine :=
  (after_inv hc ha (fun l h => Or.inl (hf l h)) ⟨by rw [hl]; exact List.nodup_nil, by rw [hl]; exact nofun⟩).1

/-- C160: when all are loaded, the script does nothing. -/
theorem nothing_to_do {ar : Archive} {del : Bool} : ∀ {ls : List Line} {s : Dev}, (∀ l ∈ ls, l.ref ∈ s.engine) → run ar del ls s = s
  | [], _, _ => rfl
  | l :: ls, s, h => by
    rw [run_skip fun hw => (wanted_iff.1 hw).2 (h l List.mem_cons_self)]
    exact nothing_to_do fun x hx => h x (List.mem_cons_of_mem _ hx)

/-- C160, from `SRC_URI` to the device: for images from one host with no dots in their paths, the package has what its list says, so
that all of them are loaded. -/
theorem from_recipe {us : List Url} {host : Str} (ht : ∀ u ∈ us, TagOk u) (hh : ∀ u ∈ us, u.host = host) (hp : ∀ u ∈ us, '.' ∉ u.path)
    {ar : Archive} (hok : ∀ f, ar.ok f = true) (har : ∀ f u, unpackAll us (fun _ => none) f = some u → ar.content f = refOf u)
    {del : Bool} {s s' : Dev} (hf : ∀ l ∈ lines us, l.image ∈ s.files) (hl : s.loads = []) (ha : After ar del (lines us) s s') :
    ∀ u ∈ us, refOf u ∈ (run ar del (lines us) s').engine := by
  have hc : ∀ l ∈ lines us, ar.content l.image = l.ref := by
    intro l hlm
    obtain ⟨u, hu, rfl⟩ := List.mem_map.1 hlm
    obtain ⟨v, h1, h2⟩ := unpacked (us := us) (fun a ha b hb e => (imageFile_distinct_partial (ht a ha) (ht b hb) ((hh a ha).trans (hh b hb).symm) (hp a ha) (hp b hb) e).1)
      (fun _ => none) hu
    exact (har _ _ h1).trans h2
  intro u hu
  exact (all_loaded hc (fun l _ => hok _) hf hl ha).1 ⟨imageFile u, refOf u⟩ (List.mem_map.2 ⟨u, hu, rfl⟩)

def exUrl : Url := ⟨"docker.io".toList, "/library/debian".toList, some "12".toList, none⟩
def exUrls : List Url := [exUrl, ⟨"docker.io".toList, "/library/alpine".toList, none, none⟩]
def exArchive : Archive := ⟨fun f => if f = imageFile exUrl then
    "docker.io/library/debian:12".toList else "docker.io/library/alpine:latest".toList, fun _ => true⟩

/-- Beside these: stopped after the first image was loaded and before its file was deleted. -/
example : (∀ l ∈ lines exUrls, exArchive.content l.image = l.ref) ∧
    load exArchive ⟨imageFile exUrl, refOf exUrl⟩ ⟨exUrls.map imageFile, [], []⟩ ∈ states exArchive true (lines exUrls) ⟨exUrls.map imageFile, [], []⟩ ∧
    (run exArchive true (lines exUrls) ⟨exUrls.map imageFile, [], []⟩).files = [] := by decide +kernel

/-- Beside C160: one image that cannot be loaded keeps those after it from being loaded. -/
theorem rest_waits {ar : Archive} {del : Bool} {l : Line} {ls : List Line} {s : Dev} (hw : l.image ∈ s.files ∧ l.ref ∉ s.engine) (hb : ar.ok l.image = false) :
    run ar del (l :: ls) s = s := by
  unfold run states
  rw [if_pos (wanted_iff.2 hw), hb, if_neg nofun]
  rfl

/-- Against C160: with two images in one file, one of them is lost when files are deleted. -/
theorem clash_lost : let u : Url := ⟨"quay.io".toList, "/a/b".toList, none, none⟩
    let v : Url := ⟨"quay.io".toList, "/a.b".toList, none, none⟩
    let ar : Archive := ⟨fun _ => refOf v, fun _ => true⟩
    run ar true (lines [u, v]) ⟨[imageFile u], [], []⟩ = ⟨[], [refOf v], [refOf v]⟩ := by decide +kernel

end Meta.Container
