import Verif.Meta.DebRepoModel
/-!
# Properties of the local package repositories: C126 and C127
-/

namespace Meta.DebRepo
open Py

/-- Entries are where they belong. -/
def Placed (r : Repo) : Prop := ∀ i p o, r i p = some o → o.pkg = p ∧ i ∈ targets o.arch

theorem same_iff {d o : Deb} : same d o = true ↔ o.pkg = d.pkg ∧ o.ver = d.ver ∧ o.arch = d.arch := by
  unfold same; simp [and_assoc]

theorem mem_targets_archs {a i : Str} (h : i ∈ targets a) : i ∈ archs := by
  unfold targets at h
  split at h
  · exact h
  split at h
  · rw [List.mem_singleton.1 h]; assumption
  · cases h

theorem newest_cases (o : Option Deb) (d : Deb) : newest o d = d ∨ ∃ x, o = some x ∧ newest o d = x ∧ d.ver < x.ver := by
  unfold newest
  cases o with
  | none => exact Or.inl rfl
  | some x =>
    by_cases h : d.ver < x.ver
    · exact Or.inr ⟨x, rfl, if_pos h, h⟩
    · exact Or.inl (if_neg h)

theorem newest_ge (o : Option Deb) (d : Deb) : d.ver ≤ (newest o d).ver := by
  rcases newest_cases o d with h | ⟨x, _, h, hlt⟩
  · rw [h]; exact Nat.le_refl _
  · rw [h]; omega

theorem newest_ge_old (o d : Deb) : o.ver ≤ (newest (some o) d).ver := by
  unfold newest
  by_cases h : d.ver < o.ver
  · show o.ver ≤ (if d.ver < o.ver then o else d).ver
    rw [if_pos h]; exact Nat.le_refl _
  · show o.ver ≤ (if d.ver < o.ver then o else d).ver
    rw [if_neg h]; omega

/-- Another file for the same package, version and architecture. -/
def Clash (r : Repo) (d : Deb) : Prop := ∃ i, i ∈ archs ∧ ∃ o, r i d.pkg = some o ∧ same d o = true ∧ o.content ≠ d.content

theorem clash_iff {r : Repo} {d : Deb} : clashes r d = true ↔ Clash r d := by
  unfold clashes Clash
  rw [List.any_eq_true]
  refine exists_congr fun i => and_congr Iff.rfl ?_
  cases r i d.pkg with
  | none => exact ⟨fun h => (nomatch h), fun ⟨o, h, _⟩ => (nomatch h)⟩
  | some o =>
    show (same d o && o.content != d.content) = true ↔ _
    rw [Bool.and_eq_true, bne_iff_ne]
    exact ⟨fun h => ⟨o, rfl, h⟩, fun ⟨x, hx, h⟩ => by cases hx; exact h⟩

theorem include_ok {r : Repo} {d : Deb} (ht : targets d.arch ≠ []) (hc : ¬ Clash r d) :
    includeDeb r d = some (put r d) := by
  unfold includeDeb
  rw [if_neg ht, if_neg fun h => hc (clash_iff.1 h)]

theorem include_some {r r' : Repo} {d : Deb} (h : includeDeb r d = some r') : r' = put r d := by
  unfold includeDeb at h
  split at h
  · cases h
  split at h
  · cases h
  · cases h; rfl

theorem put_other (r : Repo) (d : Deb) (i p : Str) (h : p ≠ d.pkg) : put r d i p = r i p := if_neg fun h' => h h'.2

theorem put_here (r : Repo) (d : Deb) (i : Str) (h : i ∈ targets d.arch) :
    put r d i d.pkg = some (newest (r i d.pkg) d) := if_pos ⟨h, rfl⟩

theorem put_away (r : Repo) (d : Deb) (i p : Str) (h : i ∉ targets d.arch) : put r d i p = r i p := if_neg fun h' => h h'.1

/-! ## `do_deploy_deb` -/

theorem clean_eq : ∀ (ds : List Deb) (r : Repo) (i p : Str), cleanAll r ds i p =
    (r i p).filter fun o => !ds.any fun d => o.pkg == d.pkg && o.arch == d.arch
  | [], r, i, p => by
    show r i p = _
    cases r i p <;> simp [Option.filter]
  | d :: ds, r, i, p => by
    show cleanAll (removeDeb r d) ds i p = _
    rw [clean_eq ds]
    unfold removeDeb
    cases r i p with
    | none => rfl
    | some o =>
      cases h : o.pkg == d.pkg && o.arch == d.arch <;> simp [Option.filter, h]

/-- The lists after the packages were added, if their names are different. -/
def added (r : Repo) (ds : List Deb) : Repo := fun i p =>
  match ds.find? fun d => d.pkg == p with
  | some d => if i ∈ targets d.arch then some (newest (r i p) d) else r i p
  | none => r i p

theorem find_none {ds : List Deb} {p : Str} (h : ∀ d, d ∈ ds → d.pkg ≠ p) : (ds.find? fun d => d.pkg == p) = none :=
  List.find?_eq_none.2 fun d hd => by simpa using h d hd

theorem find_some {ds : List Deb} (hd : ds.Pairwise fun a b => a.pkg ≠ b.pkg) {d : Deb} (h : d ∈ ds) :
    (ds.find? fun x => x.pkg == d.pkg) = some d := by
  induction ds with
  | nil => cases h
  | cons a ds ih =>
    rw [List.find?_cons]
    by_cases e : a.pkg = d.pkg
    · have : a = d := by
        rcases List.mem_cons.1 h with h | h
        · exact h.symm
        · exact absurd e ((List.pairwise_cons.1 hd).1 d h)
      subst this
      rw [show (a.pkg == a.pkg) = true from by simp]
    · rw [show (a.pkg == d.pkg) = false from by simpa using e]
      refine ih (List.pairwise_cons.1 hd).2 ((List.mem_cons.1 h).resolve_left ?_)
      rintro rfl; exact e rfl

theorem added_other (r : Repo) (ds : List Deb) (i p : Str) (h : ∀ d, d ∈ ds → d.pkg ≠ p) : added r ds i p = r i p := by
  unfold added
  rw [find_none h]

theorem added_mem (r : Repo) (ds : List Deb) (hd : ds.Pairwise fun a b => a.pkg ≠ b.pkg) (d : Deb) (h : d ∈ ds) (i : Str) :
    added r ds i d.pkg = if i ∈ targets d.arch then some (newest (r i d.pkg) d) else r i d.pkg := by
  unfold added
  rw [find_some hd h]

theorem addAll_eq : ∀ (ds : List Deb), (ds.Pairwise fun a b => a.pkg ≠ b.pkg) → ∀ (r : Repo),
    (∀ d, d ∈ ds → targets d.arch ≠ [] ∧ ¬ Clash r d) → addAll r ds = some (added r ds)
  | [], _, r, _ => by
    show some r = some _
    congr 1
  | d :: ds, hd, r, h => by
    have h0 := h d List.mem_cons_self
    have hne := (List.pairwise_cons.1 hd).1
    unfold addAll
    rw [include_ok h0.1 h0.2]
    dsimp only
    rw [addAll_eq ds (List.pairwise_cons.1 hd).2 _ ?_]
    · congr 1
      funext i p
      by_cases e : d.pkg = p
      · subst e
        rw [added_other _ ds _ _ fun x hx e => hne x hx e.symm, added_mem r (d :: ds) hd d List.mem_cons_self]
        by_cases hi : i ∈ targets d.arch
        · rw [put_here r d i hi, if_pos hi]
        · rw [put_away r d i _ hi, if_neg hi]
      · unfold added
        rw [List.find?_cons, show (d.pkg == p) = false from by simpa using e, put_other r d i p fun h => e h.symm]
    · intro x hx
      refine ⟨(h x (List.mem_cons_of_mem _ hx)).1, fun ⟨i, hi, o, ho, h'⟩ => ?_⟩
      rw [put_other r d i _ fun h => hne x hx h.symm] at ho
      exact (h x (List.mem_cons_of_mem _ hx)).2 ⟨i, hi, o, ho, h'⟩

theorem addAll_other : ∀ (ds : List Deb) (r r' : Repo), addAll r ds = some r' → ∀ i p, (∀ d, d ∈ ds → d.pkg ≠ p) →
    r' i p = r i p
  | [], r, r', h, i, p, _ => by cases h; rfl
  | d :: ds, r, r', h, i, p, hp => by
    unfold addAll at h
    cases hi : includeDeb r d with
    | none => rw [hi] at h; cases h
    | some r1 =>
      rw [hi] at h
      rw [addAll_other ds r1 r' h i p fun x hx => hp x (List.mem_cons_of_mem _ hx), include_some hi]
      rw [put_other r d i p fun h => hp d List.mem_cons_self h.symm]

theorem clean_other (r : Repo) (hr : Placed r) (ds : List Deb) (i p : Str) (h : ∀ d, d ∈ ds → d.pkg ≠ p) :
    cleanAll r ds i p = r i p := by
  rw [clean_eq]
  cases ho : r i p with
  | none => rfl
  | some o =>
    have hp := (hr i p o ho).1
    have : (ds.any fun d => o.pkg == d.pkg && o.arch == d.arch) = false := by
      rw [List.any_eq_false]
      intro d hd hb
      rw [Bool.and_eq_true] at hb
      exact h d hd (by rw [← hp]; exact (by simpa using hb.1 : o.pkg = d.pkg).symm)
    simp [Option.filter, this]

/-- **C126.**  Deploying the packages of a recipe changes nothing about packages with other names. -/
theorem others_kept (r : Repo) (hr : Placed r) (ds : List Deb) (r' : Repo) (h : deploy r ds = some r') (i p : Str)
    (hp : ∀ d, d ∈ ds → d.pkg ≠ p) : r' i p = r i p := by
  unfold deploy at h
  split at h
  · cases h
  · rw [addAll_other ds _ r' h i p hp, clean_other r hr ds i p hp]

theorem clean_clash (r : Repo) (ds : List Deb) (d : Deb) (h : d ∈ ds) : ¬ Clash (cleanAll r ds) d := by
  rintro ⟨i, _, o, ho, hs, _⟩
  rw [clean_eq] at ho
  have := (Option.filter_eq_some_iff.1 ho).2
  have hs := same_iff.1 hs
  have hany : (ds.any fun d => o.pkg == d.pkg && o.arch == d.arch) = true :=
    List.any_eq_true.2 ⟨d, h, by simp [hs]⟩
  rw [hany] at this; cases this

theorem deploy_eq (r : Repo) (ds : List Deb) (hne : ds ≠ []) (hd : ds.Pairwise fun a b => a.pkg ≠ b.pkg)
    (ht : ∀ d, d ∈ ds → targets d.arch ≠ []) : deploy r ds = some (added (cleanAll r ds) ds) := by
  unfold deploy
  rw [if_neg hne]
  exact addAll_eq ds hd _ fun d h => ⟨ht d h, clean_clash r ds d h⟩

/-- **C126.**  Deploying the packages of a recipe succeeds, and then the repository has these files, in the lists
of their architectures; also if it had other files for the same versions, or newer versions, of these packages
for the same architectures. -/
theorem deployed (r : Repo) (hr : Placed r) (ds : List Deb) (hne : ds ≠ []) (hd : ds.Pairwise fun a b => a.pkg ≠ b.pkg)
    (ht : ∀ d, d ∈ ds → d.arch = "all".toList ∨ d.arch ∈ archs)
    (hn : ∀ d, d ∈ ds → ∀ i o, i ∈ targets d.arch → r i d.pkg = some o → o.arch ≠ d.arch → o.ver ≤ d.ver) :
    ∃ r', deploy r ds = some r' ∧ ∀ d, d ∈ ds → ∀ i, i ∈ targets d.arch → r' i d.pkg = some d := by
  have ht' : ∀ d, d ∈ ds → targets d.arch ≠ [] := by
    intro d h
    unfold targets
    by_cases ha : d.arch = "all".toList
    · rw [if_pos ha]; exact nofun
    · rw [if_neg ha, if_pos ((ht d h).resolve_left ha)]; exact nofun
  refine ⟨_, deploy_eq r ds hne hd ht', fun d h i hi => ?_⟩
  rw [added_mem _ ds hd d h, if_pos hi]
  congr 1
  rcases newest_cases (cleanAll r ds i d.pkg) d with e | ⟨x, hx, e, hlt⟩
  · exact e
  · rw [clean_eq] at hx
    obtain ⟨hx, hf⟩ := Option.filter_eq_some_iff.1 hx
    by_cases a : x.arch = d.arch
    · have hany : (ds.any fun d => x.pkg == d.pkg && x.arch == d.arch) = true :=
        List.any_eq_true.2 ⟨d, h, by simp [a, (hr i _ x hx).1]⟩
      rw [hany] at hf; cases hf
    · have := hn d h i x hi hx a
      omega

/-- For `deployed`: a repository with a newer version and another file of the same name, and a package of
another recipe. -/
def sampleRepo : Repo := fun i p =>
  if p = "hello".toList ∧ i = "amd64".toList then some ⟨p, i, 9, 1⟩
  else if p = "doc".toList ∧ i ∈ archs then some ⟨p, "all".toList, 3, 2⟩
  else if p = "other".toList ∧ i = "arm64".toList then some ⟨p, i, 1, 3⟩
  else none

theorem sample_placed : Placed sampleRepo := by
  intro i p o h
  unfold sampleRepo at h
  split at h
  · rename_i hc
    injection h with h
    subst h
    refine ⟨rfl, ?_⟩
    show i ∈ targets i
    rw [hc.2]; decide
  split at h
  · rename_i hc
    injection h with h
    subst h
    refine ⟨rfl, ?_⟩
    show i ∈ targets "all".toList
    rw [show targets "all".toList = archs from if_pos rfl]; exact hc.2
  split at h
  · rename_i hc
    injection h with h
    subst h
    refine ⟨rfl, ?_⟩
    show i ∈ targets i
    rw [hc.2]; decide
  · cases h

example : ((deploy sampleRepo [⟨"hello".toList, "amd64".toList, 4, 7⟩, ⟨"doc".toList, "all".toList, 3, 8⟩]).map fun r =>
    (r "amd64".toList "hello".toList, r "armhf".toList "doc".toList, r "arm64".toList "other".toList)) =
    some (some ⟨"hello".toList, "amd64".toList, 4, 7⟩, some ⟨"doc".toList, "all".toList, 3, 8⟩,
      some ⟨"other".toList, "arm64".toList, 1, 3⟩) := by decide +kernel

theorem put_placed {r : Repo} (hr : Placed r) (d : Deb) : Placed (put r d) := by
  intro i p o h
  by_cases hp : p = d.pkg
  · subst hp
    by_cases hi : i ∈ targets d.arch
    · rw [put_here r d i hi] at h
      injection h with h
      rcases newest_cases (r i d.pkg) d with e | ⟨x, hx, e, _⟩
      · rw [e] at h; subst h; exact ⟨rfl, hi⟩
      · rw [e] at h; subst h; exact hr i _ x hx
    · rw [put_away r d i _ hi] at h; exact hr i _ o h
  · rw [put_other r d i p hp] at h; exact hr i p o h

theorem addAll_placed : ∀ (ds : List Deb) (r r' : Repo), Placed r → addAll r ds = some r' → Placed r'
  | [], r, r', hr, h => by cases h; exact hr
  | d :: ds, r, r', hr, h => by
    unfold addAll at h
    cases hi : includeDeb r d with
    | none => rw [hi] at h; cases h
    | some r1 =>
      rw [hi] at h
      refine addAll_placed ds r1 r' ?_ h
      rw [include_some hi]
      exact put_placed hr d

/-- The repositories that deploying and cleaning make are as `deployed` and `others_kept` need them. -/
theorem deploy_placed (r r' : Repo) (ds : List Deb) (hr : Placed r) (h : deploy r ds = some r') :
    Placed (cleanAll r ds) ∧ Placed r' := by
  have hc : Placed (cleanAll r ds) := by
    intro i p o ho
    rw [clean_eq] at ho
    exact hr i p o (Option.filter_eq_some_iff.1 ho).1
  refine ⟨hc, ?_⟩
  unfold deploy at h
  split at h
  · cases h
  · exact addAll_placed ds _ r' hc h

/-! ### Crashes -/

theorem filter_filter_sub (o : Option Deb) (f g : Deb → Bool) (h : ∀ x, g x = true → f x = true) :
    (o.filter f).filter g = o.filter g := by
  cases o with
  | none => rfl
  | some x =>
    by_cases hf : f x = true
    · rw [Option.filter_some_pos hf]
    · have hg : ¬ (g x = true) := fun h' => hf (h x h')
      rw [Option.filter_some_neg (Bool.eq_false_iff.2 hf), Option.filter_some_neg (Bool.eq_false_iff.2 hg)]; rfl

/-- **C126.**  If a deployment is stopped anywhere, the next one gives what it would have given. -/
theorem stopped_then_deployed (r : Repo) (ds : List Deb) (hne : ds ≠ [])
    (hd : ds.Pairwise fun a b => a.pkg ≠ b.pkg) (ht : ∀ d, d ∈ ds → targets d.arch ≠ []) (adding : Bool) (n : Nat)
    (r1 : Repo) (h : stopped r ds adding n = some r1) : deploy r1 ds = deploy r ds := by
  rw [deploy_eq r ds hne hd ht, deploy_eq r1 ds hne hd ht]
  congr 1
  unfold stopped at h
  cases adding with
  | false =>
    injection h with h
    subst h
    have : cleanAll (cleanAll r (ds.take n)) ds = cleanAll r ds := by
      funext i p
      rw [clean_eq, clean_eq, clean_eq]
      refine filter_filter_sub _ _ _ fun x hx => ?_
      rw [Bool.not_eq_true'] at hx ⊢
      rw [List.any_eq_false] at hx ⊢
      exact fun d hd => hx d (List.mem_of_mem_take hd)
    rw [this]
  | true =>
    rw [if_pos rfl, addAll_eq (ds.take n) (hd.sublist (List.take_sublist _ _)) _ fun d h =>
      ⟨ht d (List.mem_of_mem_take h), clean_clash r ds d (List.mem_of_mem_take h)⟩] at h
    injection h with h
    subst h
    have hcc : ∀ i p, (cleanAll r ds i p).filter (fun o => !ds.any fun d => o.pkg == d.pkg && o.arch == d.arch) =
        cleanAll r ds i p := by
      intro i p
      rw [clean_eq]
      exact filter_filter_sub _ _ _ fun _ h => h
    funext i p
    by_cases hp : ∃ d, d ∈ ds ∧ d.pkg = p
    · obtain ⟨d, hmem, rfl⟩ := hp
      rw [added_mem _ ds hd d hmem, added_mem _ ds hd d hmem, clean_eq ds (added _ _)]
      by_cases ht' : d ∈ ds.take n
      · rw [added_mem _ (ds.take n) (hd.sublist (List.take_sublist _ _)) d ht']
        by_cases hi : i ∈ targets d.arch
        · rw [if_pos hi, if_pos hi]
          congr 1
          rcases newest_cases (cleanAll r ds i d.pkg) d with e | ⟨x, hx, e, hlt⟩
          · rw [e]
            have : (ds.any fun d' => d.pkg == d'.pkg && d.arch == d'.arch) = true :=
              List.any_eq_true.2 ⟨d, hmem, by simp⟩
            rw [Option.filter_some_neg (by rw [this]; decide)]
            rfl
          · rw [e]
            have := hcc i d.pkg
            rw [hx] at this
            rw [this, ← hx, e]
        · rw [if_neg hi, if_neg hi, hcc]
      · have hno : ∀ x, x ∈ ds.take n → x.pkg ≠ d.pkg := by
          intro x hx e
          have h1 := find_some hd (List.mem_of_mem_take hx)
          have h2 := find_some hd hmem
          rw [e, h2] at h1
          injection h1 with h1
          subst h1
          exact ht' hx
        rw [added_other _ _ _ _ hno, hcc]
    · have hp : ∀ d, d ∈ ds → d.pkg ≠ p := fun d hm e => hp ⟨d, hm, e⟩
      rw [added_other _ ds i p hp, added_other _ ds i p hp, clean_eq ds (added _ _),
        added_other _ _ i p fun d hm => hp d (List.mem_of_mem_take hm), hcc]

/-- Stopped after the removal of one package and after the addition of one. -/
example : ((stopped sampleRepo [⟨"hello".toList, "amd64".toList, 4, 7⟩, ⟨"doc".toList, "all".toList, 3, 8⟩] false 1).map fun r =>
      (r "amd64".toList "hello".toList, r "armhf".toList "doc".toList)) =
      some (none, some ⟨"doc".toList, "all".toList, 3, 2⟩) ∧
    ((stopped sampleRepo [⟨"hello".toList, "amd64".toList, 4, 7⟩, ⟨"doc".toList, "all".toList, 3, 8⟩] true 1).map fun r =>
      (r "amd64".toList "hello".toList, r "armhf".toList "doc".toList)) =
      some (some ⟨"hello".toList, "amd64".toList, 4, 7⟩, none) := by decide +kernel

/-- **C126.**  `do_clean` removes the recipe's packages from the repository, and nothing else. -/
theorem cleaned (r : Repo) (ds : List Deb) (i p : Str) (o : Deb) :
    cleanAll r ds i p = some o ↔ r i p = some o ∧ ¬ ∃ d, d ∈ ds ∧ o.pkg = d.pkg ∧ o.arch = d.arch := by
  rw [clean_eq, Option.filter_eq_some_iff]
  refine and_congr Iff.rfl ?_
  rw [Bool.not_eq_true', List.any_eq_false]
  constructor
  · rintro h ⟨d, hd, h1, h2⟩
    exact h d hd (by simp [h1, h2])
  · intro h d hd hb
    rw [Bool.and_eq_true] at hb
    exact h ⟨d, hd, by simpa using hb.1, by simpa using hb.2⟩

/-- Against C126: a package that the recipe does not build any more stays in the repository. -/
theorem dropped_stays :
    (((deploy empty [⟨"a".toList, "all".toList, 1, 1⟩, ⟨"b".toList, "all".toList, 1, 2⟩]).bind fun r =>
      deploy r [⟨"a".toList, "all".toList, 2, 3⟩]).map fun r => r "amd64".toList "b".toList) =
      some (some ⟨"b".toList, "all".toList, 1, 2⟩) := by decide +kernel

/-- Against C126: if a newer version of a package, built earlier, is still in the work directory, it is the one
in the repository. -/
theorem leftover_wins :
    ((deploy empty [⟨"a".toList, "all".toList, 1, 1⟩, ⟨"a".toList, "all".toList, 2, 2⟩]).map fun r =>
      r "amd64".toList "a".toList) = some (some ⟨"a".toList, "all".toList, 2, 2⟩) ∧
    ((deploy empty [⟨"a".toList, "all".toList, 2, 2⟩, ⟨"a".toList, "all".toList, 1, 1⟩]).map fun r =>
      r "amd64".toList "a".toList) = some (some ⟨"a".toList, "all".toList, 2, 2⟩) := by decide +kernel

/-- Against C126: a package that was for all architectures and is now for one, with a lower version. -/
theorem all_stays :
    (((deploy empty [⟨"a".toList, "all".toList, 2, 1⟩]).bind fun r =>
      deploy r [⟨"a".toList, "amd64".toList, 1, 2⟩]).map fun r => r "amd64".toList "a".toList) =
      some (some ⟨"a".toList, "all".toList, 2, 1⟩) := by decide +kernel

/-! ## `base-apt` -/

/-- What holds for a repository that is only filled from the directory of downloads. -/
structure Filled (r : Repo) : Prop where
  placed : Placed r
  /-- A package for all architectures is in all lists, or a newer version of it. -/
  wide : ∀ i p o, r i p = some o → o.arch = "all".toList → ∀ j, j ∈ archs → ∃ o', r j p = some o' ∧ o.ver ≤ o'.ver
  /-- There is one file for a package, version and architecture. -/
  one : ∀ i j p o o', r i p = some o → r j p = some o' → o.arch = o'.arch → o.ver = o'.ver → o = o'

theorem entry_some {r : Repo} {d o : Deb} (h : entry r d = some o) :
    ∃ i, i ∈ archs ∧ r i d.pkg = some o ∧ same d o = true := by
  unfold entry at h
  obtain ⟨i, hi, h⟩ := List.exists_of_findSome?_eq_some h
  obtain ⟨h1, h2⟩ := Option.filter_eq_some_iff.1 h
  exact ⟨i, hi, h1, h2⟩

theorem entry_none {r : Repo} {d : Deb} (h : entry r d = none) (i : Str) (hi : i ∈ archs) (o : Deb)
    (ho : r i d.pkg = some o) : ¬ (same d o = true) := by
  intro hs
  have := List.findSome?_eq_none_iff.1 h i hi
  rw [ho, Option.filter_some_pos hs] at this
  cases this

theorem deb_ext {d o : Deb} (h : same d o = true) (hc : o.content = d.content) : o = d := by
  have := same_iff.1 h
  obtain ⟨a, b, c, e⟩ := o
  obtain ⟨a', b', c', e'⟩ := d
  obtain ⟨h1, h2, h3⟩ := this
  cases h1; cases h2; cases h3; cases hc; rfl

theorem targets_all {a : Str} (h : a = "all".toList) : targets a = archs := if_pos h

theorem targets_one {a i : Str} (h : a ≠ "all".toList) (hi : i ∈ targets a) : i = a := by
  unfold targets at hi
  rw [if_neg h] at hi
  split at hi
  · exact List.mem_singleton.1 hi
  · cases hi

/-- Adding a package to lists without another file for it. -/
theorem put_filled {r : Repo} {d : Deb} (hr : Placed r) (hone : ∀ i j p o o', r i p = some o → r j p = some o' →
      o.arch = o'.arch → o.ver = o'.ver → o = o') (hc : ¬ Clash r d)
    (hw : ∀ i p o, r i p = some o → o.arch = "all".toList → ∀ j, j ∈ archs →
      (∃ o', r j p = some o' ∧ o.ver ≤ o'.ver) ∨ p = d.pkg ∧ j ∈ targets d.arch ∧ o.ver ≤ d.ver) :
    Filled (put r d) := by
  have cases' : ∀ i p o, put r d i p = some o → r i p = some o ∨ o = d ∧ p = d.pkg ∧ i ∈ targets d.arch := by
    intro i p o h
    by_cases hp : p = d.pkg
    · subst hp
      by_cases hi : i ∈ targets d.arch
      · rw [put_here r d i hi] at h
        injection h with h
        rcases newest_cases (r i d.pkg) d with e | ⟨x, hx, e, _⟩
        · exact Or.inr ⟨by rw [← h, e], rfl, hi⟩
        · exact Or.inl (by rw [← h, e, hx])
      · rw [put_away r d i _ hi] at h; exact Or.inl h
    · rw [put_other r d i p hp] at h; exact Or.inl h
  have ge : ∀ j p o', r j p = some o' → ∃ o'', put r d j p = some o'' ∧ o'.ver ≤ o''.ver := by
    intro j p o' h
    by_cases hp : p = d.pkg
    · subst hp
      by_cases hj : j ∈ targets d.arch
      · rw [put_here r d j hj, h]; exact ⟨_, rfl, newest_ge_old _ _⟩
      · rw [put_away r d j _ hj]; exact ⟨_, h, Nat.le_refl _⟩
    · rw [put_other r d j p hp]; exact ⟨_, h, Nat.le_refl _⟩
  refine ⟨?_, ?_, ?_⟩
  · intro i p o h
    rcases cases' i p o h with h | ⟨rfl, rfl, h'⟩
    · exact hr i p o h
    · exact ⟨rfl, h'⟩
  · intro i p o h ha j hj
    rcases cases' i p o h with h | ⟨rfl, rfl, h⟩
    · rcases hw i p o h ha j hj with ⟨o', h1, h2⟩ | ⟨rfl, h1, h2⟩
      · obtain ⟨o'', h3, h4⟩ := ge j p o' h1
        exact ⟨o'', h3, Nat.le_trans h2 h4⟩
      · rw [put_here r d j h1]
        exact ⟨_, rfl, Nat.le_trans h2 (newest_ge _ _)⟩
    · have hj' : j ∈ targets o.arch := by rw [targets_all ha]; exact hj
      rw [put_here r o j hj']
      exact ⟨_, rfl, newest_ge _ _⟩
  · have clash : ∀ i p o, r i p = some o → p = d.pkg → o.arch = d.arch → o.ver = d.ver → o = d := by
      intro i p o h hp h1 h2
      subst hp
      have hs : same d o = true := same_iff.2 ⟨(hr i _ o h).1, h2, h1⟩
      refine deb_ext hs (Classical.byContradiction fun hne => hc ⟨i, mem_targets_archs (hr i _ o h).2, o, h, hs, hne⟩)
    intro i j p o o' h h' ha hv
    rcases cases' i p o h with k | ⟨e, hp, k⟩
    · rcases cases' j p o' h' with k' | ⟨e', hp, k'⟩
      · exact hone i j p o o' k k' ha hv
      · subst e'; exact clash i p o k hp ha hv
    · rcases cases' j p o' h' with k' | ⟨e', hp', k'⟩
      · subst e; exact (clash j p o' k' hp ha.symm hv.symm).symm
      · rw [e, e']

/-- What adding one downloaded file does. -/
theorem populateOne_spec {r : Repo} (hr : Filled r) {d : Deb} (ht : targets d.arch ≠ []) :
    ∃ r', populateOne r d = some r' ∧ Filled r' ∧
      (∀ i, i ∈ targets d.arch → ∃ o, r' i d.pkg = some o ∧ d.ver ≤ o.ver ∧ (o.ver = d.ver → o.arch = d.arch → o = d)) ∧
      (∀ i p o, r i p = some o → ∃ o', r' i p = some o' ∧ o.ver ≤ o'.ver) ∧
      (∀ i p o, r' i p = some o → r i p = some o ∨ o = d ∧ p = d.pkg) := by
  unfold populateOne
  cases he : entry r d with
  | none =>
    have hct : contains r d = 2 := by unfold contains; rw [he]
    rw [hct, if_neg (by decide), if_neg (by decide)]
    have hc : ¬ Clash r d := fun ⟨i, hi, o, ho, hs, _⟩ => entry_none he i hi o ho hs
    refine ⟨_, include_ok ht hc, put_filled hr.placed hr.one hc fun i p o h ha j hj => Or.inl (hr.wide i p o h ha j hj), ?_, ?_, ?_⟩
    · intro i hi
      rw [put_here r d i hi]
      refine ⟨_, rfl, newest_ge _ _, fun h1 _ => ?_⟩
      rcases newest_cases (r i d.pkg) d with e | ⟨x, hx, e, hlt⟩
      · exact e
      · rw [e] at h1; omega
    · intro i p o h
      by_cases hp : p = d.pkg
      · subst hp
        by_cases hi : i ∈ targets d.arch
        · rw [put_here r d i hi, h]; exact ⟨_, rfl, newest_ge_old _ _⟩
        · rw [put_away r d i _ hi]; exact ⟨_, h, Nat.le_refl _⟩
      · rw [put_other r d i p hp]; exact ⟨_, h, Nat.le_refl _⟩
    · intro i p o h
      by_cases hp : p = d.pkg
      · subst hp
        by_cases hi : i ∈ targets d.arch
        · rw [put_here r d i hi] at h
          injection h with h
          rcases newest_cases (r i d.pkg) d with e | ⟨x, hx, e, _⟩
          · exact Or.inr ⟨by rw [← h, e], rfl⟩
          · exact Or.inl (by rw [← h, e, hx])
        · rw [put_away r d i _ hi] at h; exact Or.inl h
      · rw [put_other r d i p hp] at h; exact Or.inl h
  | some x =>
    obtain ⟨k, hk, hx, hs⟩ := entry_some he
    obtain ⟨hs1, hs2, hs3⟩ := same_iff.1 hs
    have level : ∀ i, i ∈ targets d.arch → ∃ o, r i d.pkg = some o ∧ d.ver ≤ o.ver := by
      intro i hi
      by_cases ha : d.arch = "all".toList
      · obtain ⟨o, h1, h2⟩ := hr.wide k _ x hx (by rw [hs3, ha]) i (mem_targets_archs hi)
        exact ⟨o, h1, by rw [← hs2]; exact h2⟩
      · have e1 := targets_one ha hi
        have hkt := (hr.placed k _ x hx).2
        rw [hs3] at hkt
        have e2 := targets_one ha hkt
        rw [e1, ← e2]
        exact ⟨x, hx, by rw [hs2]; exact Nat.le_refl _⟩
    by_cases hcon : x.content = d.content
    · have hct : contains r d = 0 := by unfold contains; rw [he]; exact if_pos hcon
      rw [hct, if_pos rfl]
      have hxd := deb_ext hs hcon
      subst hxd
      refine ⟨r, rfl, hr, fun i hi => ?_, fun i p o h => ⟨o, h, Nat.le_refl _⟩, fun i p o h => Or.inl h⟩
      obtain ⟨o, h1, h2⟩ := level i hi
      exact ⟨o, h1, h2, fun h3 h4 => hr.one i k _ o x h1 hx h4 h3⟩
    · have hct : contains r d = 1 := by unfold contains; rw [he]; exact if_neg hcon
      rw [hct, if_neg (by decide), if_pos rfl]
      have keep : ∀ i p o, removeDeb r d i p = some o ↔ r i p = some o ∧ ¬ (o.pkg = d.pkg ∧ o.arch = d.arch) := by
        intro i p o
        show (r i p).filter _ = some o ↔ _
        rw [Option.filter_eq_some_iff]
        refine and_congr Iff.rfl ?_
        rw [Bool.not_eq_true']
        constructor
        · rintro h ⟨h1, h2⟩
          rw [h1, h2] at h
          simp at h
        · intro h
          cases hb : o.pkg == d.pkg && o.arch == d.arch with
          | false => rfl
          | true =>
            rw [Bool.and_eq_true] at hb
            exact absurd ⟨by simpa using hb.1, by simpa using hb.2⟩ h
      -- what is removed is not newer
      have gone : ∀ i p o, r i p = some o → o.pkg = d.pkg → o.arch = d.arch →
          p = d.pkg ∧ i ∈ targets d.arch ∧ o.ver ≤ d.ver := by
        intro i p o h h1 h2
        obtain ⟨hp, hi⟩ := hr.placed i p o h
        rw [h1] at hp
        subst hp
        rw [h2] at hi
        refine ⟨rfl, hi, ?_⟩
        by_cases ha : d.arch = "all".toList
        · obtain ⟨o', h3, h4⟩ := hr.wide i _ o h (by rw [h2, ha]) k hk
          rw [hx] at h3
          injection h3 with h3
          subst h3
          rw [← hs2]; exact h4
        · have e1 := targets_one ha hi
          have hkt := (hr.placed k _ x hx).2
          rw [hs3] at hkt
          have e2 := targets_one ha hkt
          rw [e1, ← e2, hx] at h
          injection h with h
          subst h
          rw [hs2]; exact Nat.le_refl _
      have hc : ¬ Clash (removeDeb r d) d := by
        rintro ⟨i, hi, o, ho, hs', _⟩
        have := same_iff.1 hs'
        exact ((keep i _ o).1 ho).2 ⟨this.1, this.2.2⟩
      refine ⟨_, include_ok ht hc, put_filled (fun i p o h => hr.placed i p o ((keep i p o).1 h).1)
        (fun i j p o o' h h' => hr.one i j p o o' ((keep i p o).1 h).1 ((keep j p o').1 h').1) hc ?_, ?_, ?_, ?_⟩
      · intro i p o h ha j hj
        obtain ⟨o', h1, h2⟩ := hr.wide i p o ((keep i p o).1 h).1 ha j hj
        by_cases hrm : o'.pkg = d.pkg ∧ o'.arch = d.arch
        · obtain ⟨g1, g2, g3⟩ := gone j p o' h1 hrm.1 hrm.2
          exact Or.inr ⟨g1, g2, Nat.le_trans h2 g3⟩
        · exact Or.inl ⟨o', (keep j p o').2 ⟨h1, hrm⟩, h2⟩
      · intro i hi
        rw [put_here _ d i hi]
        refine ⟨_, rfl, newest_ge _ _, fun h1 _ => ?_⟩
        rcases newest_cases (removeDeb r d i d.pkg) d with e | ⟨y, hy, e, hlt⟩
        · exact e
        · rw [e] at h1; omega
      · intro i p o h
        by_cases hrm : o.pkg = d.pkg ∧ o.arch = d.arch
        · obtain ⟨rfl, g2, g3⟩ := gone i p o h hrm.1 hrm.2
          rw [put_here _ d i g2]
          exact ⟨_, rfl, Nat.le_trans g3 (newest_ge _ _)⟩
        · have h' := (keep i p o).2 ⟨h, hrm⟩
          by_cases hp : p = d.pkg
          · subst hp
            by_cases hi : i ∈ targets d.arch
            · rw [put_here _ d i hi, h']; exact ⟨_, rfl, newest_ge_old _ _⟩
            · rw [put_away _ d i _ hi]; exact ⟨_, h', Nat.le_refl _⟩
          · rw [put_other _ d i p hp]; exact ⟨_, h', Nat.le_refl _⟩
      · intro i p o h
        by_cases hp : p = d.pkg
        · subst hp
          by_cases hi : i ∈ targets d.arch
          · rw [put_here _ d i hi] at h
            injection h with h
            rcases newest_cases (removeDeb r d i d.pkg) d with e | ⟨y, hy, e, _⟩
            · exact Or.inr ⟨by rw [← h, e], rfl⟩
            · exact Or.inl (by rw [← h, e]; exact ((keep i _ y).1 hy).1)
          · rw [put_away _ d i _ hi] at h; exact Or.inl ((keep i _ o).1 h).1
        · rw [put_other _ d i p hp] at h; exact Or.inl ((keep i _ o).1 h).1

/-- What a directory of downloads has: files of known architectures, one for a package, version and
architecture. -/
structure Downloads (ds : List Deb) : Prop where
  known : ∀ d, d ∈ ds → targets d.arch ≠ []
  one : ∀ d d', d ∈ ds → d' ∈ ds → d.pkg = d'.pkg → d.arch = d'.arch → d.ver = d'.ver → d = d'

theorem populate_spec (all : List Deb) (ha : Downloads all) : ∀ (ds : List Deb), (∀ d, d ∈ ds → d ∈ all) → ∀ (r : Repo),
    Filled r → ∃ r', populate r ds = some r' ∧ Filled r' ∧
      (∀ d, d ∈ all → (d ∈ ds ∨ ∀ i, i ∈ targets d.arch → ∃ o, r i d.pkg = some o ∧ d.ver ≤ o.ver ∧
          (o.ver = d.ver → o.arch = d.arch → o = d)) →
        ∀ i, i ∈ targets d.arch → ∃ o, r' i d.pkg = some o ∧ d.ver ≤ o.ver ∧ (o.ver = d.ver → o.arch = d.arch → o = d)) ∧
      (∀ i p o, r i p = some o → ∃ o', r' i p = some o' ∧ o.ver ≤ o'.ver) ∧
      (∀ i p o, r' i p = some o → r i p = some o ∨ o ∈ ds ∧ p = o.pkg)
  | [], _, r, hr => ⟨r, rfl, hr, fun d _ h => h.resolve_left (fun h => nomatch h), fun i p o h => ⟨o, h, Nat.le_refl _⟩,
      fun i p o h => Or.inl h⟩
  | x :: ds, hsub, r, hr => by
    have hx := hsub x List.mem_cons_self
    obtain ⟨r1, e1, f1, a1, g1, o1⟩ := populateOne_spec hr (ha.known x hx)
    obtain ⟨r', e2, f2, a2, g2, o2⟩ := populate_spec all ha ds (fun d hd => hsub d (List.mem_cons_of_mem _ hd)) r1 f1
    refine ⟨r', ?_, f2, ?_, ?_, ?_⟩
    · unfold populate
      rw [e1]; exact e2
    · intro d hd h
      refine a2 d hd ?_
      by_cases hdx : d = x
      · subst hdx; exact Or.inr a1
      · rcases h with h | h
        · exact Or.inl ((List.mem_cons.1 h).resolve_left hdx)
        · refine Or.inr fun i hi => ?_
          obtain ⟨o, h1, h2, h3⟩ := h i hi
          obtain ⟨o', h4, h5⟩ := g1 i _ o h1
          refine ⟨o', h4, Nat.le_trans h2 h5, fun hv hA => ?_⟩
          rcases o1 i _ o' h4 with h6 | ⟨rfl, h6⟩
          · rw [h1] at h6
            injection h6 with h6
            subst h6
            exact h3 hv hA
          · exact ha.one o' d hx hd h6.symm hA hv
    · intro i p o h
      obtain ⟨o', h1, h2⟩ := g1 i p o h
      obtain ⟨o'', h3, h4⟩ := g2 i p o' h1
      exact ⟨o'', h3, Nat.le_trans h2 h4⟩
    · intro i p o h
      rcases o2 i p o h with h | ⟨h1, h2⟩
      · rcases o1 i p o h with h | ⟨rfl, h2⟩
        · exact Or.inl h
        · exact Or.inr ⟨List.mem_cons_self, h2⟩
      · exact Or.inr ⟨List.mem_cons_of_mem _ h1, h2⟩

/-- A history of `do_cache`: the directory of downloads at each. -/
def history : Repo → List (List Deb) → Option Repo
  | r, [] => some r
  | r, ds :: rest =>
    match populate r ds with
    | some r' => history r' rest
    | none => none

theorem filled_empty : Filled empty := ⟨nofun, nofun, nofun⟩

theorem history_spec : ∀ (runs : List (List Deb)), (∀ ds, ds ∈ runs → Downloads ds) → ∀ (r : Repo), Filled r →
    ∃ r', history r runs = some r' ∧ Filled r' ∧
      (∀ i p o, r' i p = some o → r i p = some o ∨ ∃ ds, ds ∈ runs ∧ o ∈ ds ∧ p = o.pkg)
  | [], _, r, hr => ⟨r, rfl, hr, fun i p o h => Or.inl h⟩
  | ds :: runs, h, r, hr => by
    obtain ⟨r1, e1, f1, _, _, o1⟩ := populate_spec ds (h ds List.mem_cons_self) ds (fun _ h => h) r hr
    obtain ⟨r', e2, f2, o2⟩ := history_spec runs (fun x hx => h x (List.mem_cons_of_mem _ hx)) r1 f1
    refine ⟨r', by unfold history; rw [e1]; exact e2, f2, fun i p o ho => ?_⟩
    rcases o2 i p o ho with h' | ⟨x, h1, h2⟩
    · rcases o1 i p o h' with h' | h'
      · exact Or.inl h'
      · exact Or.inr ⟨ds, List.mem_cons_self, h'⟩
    · exact Or.inr ⟨x, List.mem_cons_of_mem _ h1, h2⟩

/-- **C127.**  Whatever was cached before, and in whatever order the files are found: caching succeeds; then the
lists of a downloaded file's architecture have this package, in this version or a newer one, and if it is this
version and architecture, it is this file; and all that they have was downloaded. -/
theorem cached_partial (runs : List (List Deb)) (h : ∀ ds, ds ∈ runs → Downloads ds) (ds : List Deb) (hd : Downloads ds) :
    ∃ r', history empty (runs ++ [ds]) = some r' ∧
      (∀ d, d ∈ ds → ∀ i, i ∈ targets d.arch →
        ∃ o, r' i d.pkg = some o ∧ d.ver ≤ o.ver ∧ (o.ver = d.ver → o.arch = d.arch → o = d)) ∧
      ∀ i p o, r' i p = some o → p = o.pkg ∧ ∃ l, l ∈ runs ++ [ds] ∧ o ∈ l := by
  have hist : ∀ (runs : List (List Deb)) (r r1 : Repo), history r runs = some r1 →
      history r (runs ++ [ds]) = match populate r1 ds with
        | some r' => some r'
        | none => none := by
    intro runs
    induction runs with
    | nil =>
      intro r r1 h
      cases h
      show history r [ds] = _
      unfold history
      cases populate r ds <;> rfl
    | cons x runs ih =>
      intro r r1 h
      show history r (x :: (runs ++ [ds])) = _
      unfold history at h ⊢
      cases hp : populate r x with
      | none => rw [hp] at h; cases h
      | some r2 =>
        rw [hp] at h
        exact ih r2 r1 h
  obtain ⟨r1, e1, f1, o1⟩ := history_spec runs h empty filled_empty
  obtain ⟨r', e2, f2, a2, _, o2⟩ := populate_spec ds hd ds (fun _ h => h) r1 f1
  refine ⟨r', ?_, fun d hd => a2 d hd (Or.inl hd), fun i p o ho => ?_⟩
  · rw [hist runs empty r1 e1, e2]
  · rcases o2 i p o ho with h' | ⟨h', hp⟩
    · rcases o1 i p o h' with h'' | ⟨l, h1, h2, h3⟩
      · cases h''
      · exact ⟨h3, l, List.mem_append_left _ h1, h2⟩
    · exact ⟨hp, ds, List.mem_append_right _ List.mem_cons_self, h'⟩

/-- A file that was downloaded again with another content, and a new version. -/
example : ((history empty [[⟨"a".toList, "amd64".toList, 1, 1⟩, ⟨"b".toList, "all".toList, 1, 2⟩],
    [⟨"a".toList, "amd64".toList, 1, 5⟩, ⟨"b".toList, "all".toList, 1, 2⟩, ⟨"b".toList, "all".toList, 2, 3⟩]]).map fun r =>
    (r "amd64".toList "a".toList, r "armhf".toList "b".toList)) =
    some (some ⟨"a".toList, "amd64".toList, 1, 5⟩, some ⟨"b".toList, "all".toList, 2, 3⟩) := by decide +kernel

/-- Against C127: a build has used version 1, which is in the directory of downloads; the repository has only
version 2. -/
theorem only_newest :
    ((history empty [[⟨"a".toList, "amd64".toList, 2, 1⟩], [⟨"a".toList, "amd64".toList, 2, 1⟩, ⟨"a".toList, "amd64".toList, 1, 2⟩]]).map
      fun r => r "amd64".toList "a".toList) = some (some ⟨"a".toList, "amd64".toList, 2, 1⟩) := by decide +kernel

end Meta.DebRepo
