import Verif.Bb.ProvSpec
import Verif.Bb.VersionProps
/-!
# Properties of the choice of providers: C128, C129 and C130
-/

namespace Bb.Prov
open Py

/-! ## Sorting -/

theorem mem_sortKeys {l : List Int} {x : Int} : x ∈ sortKeys l ↔ x ∈ l := by
  unfold sortKeys
  rw [(sortBy_perm _ _).mem_iff, List.mem_eraseDups]

theorem sortKeys_sorted (l : List Int) : (sortKeys l).Pairwise (· ≤ ·) := by
  have := sortBy_sorted (le := fun a b : Int => decide (a ≤ b))
    (fun a b c h1 h2 => by rw [decide_eq_true_iff] at *; omega)
    (fun a b => by rw [Bool.or_eq_true, decide_eq_true_iff, decide_eq_true_iff]; omega) l.eraseDups
  exact this.imp fun h => by simpa using h

theorem mem_byPref {c : Cache} {fs : List Str} {f : Str} : f ∈ byPref c fs ↔ f ∈ fs := by
  unfold byPref
  rw [List.mem_flatMap]
  constructor
  · rintro ⟨p, _, h⟩
    exact (List.mem_filter.1 h).1
  · intro h
    exact ⟨c.dp f, mem_sortKeys.2 (List.mem_map_of_mem h), List.mem_filter.2 ⟨h, by simp⟩⟩

theorem foldl_cons {α β : Type} (g : α → β) : ∀ (l : List α) (acc : List β),
    l.foldl (fun acc p => g p :: acc) acc = (l.map g).reverse ++ acc
  | [], acc => rfl
  | a :: l, acc => by
    rw [List.foldl_cons, foldl_cons g l, List.map_cons, List.reverse_cons, List.append_assoc]; rfl

theorem sortPriorities_eq (c : Cache) (fs : List Str) : sortPriorities c fs =
    (sortKeys (fs.map c.prio)).reverse.map fun p => byPref c (fs.filter fun f => c.prio f == p) := by
  unfold sortPriorities
  rw [foldl_cons fun p => byPref c (fs.filter fun f => c.prio f == p), List.append_nil, List.map_reverse]

/-- The sets are those of the priorities. -/
theorem mem_set {c : Cache} {fs : List Str} {p : Int} {f : Str} :
    f ∈ byPref c (fs.filter fun f => c.prio f == p) ↔ f ∈ fs ∧ c.prio f = p := by
  rw [mem_byPref, List.mem_filter, beq_iff_eq]

theorem first_set {c : Cache} {fs : List Str} (h : fs ≠ []) {f : Str} :
    f ∈ (sortPriorities c fs).headD [] ↔ f ∈ fs ∧ ∀ g, g ∈ fs → c.prio g ≤ c.prio f := by
  rw [sortPriorities_eq]
  have hs := sortKeys_sorted (fs.map c.prio)
  have hm : ∀ x, x ∈ (sortKeys (fs.map c.prio)).reverse ↔ x ∈ fs.map c.prio := fun x => by
    rw [List.mem_reverse, mem_sortKeys]
  have hs' : ((sortKeys (fs.map c.prio)).reverse).Pairwise fun a b => b ≤ a := List.pairwise_reverse.2 hs
  cases hk : (sortKeys (fs.map c.prio)).reverse with
  | nil =>
    rw [hk] at hm
    cases fs with
    | nil => exact absurd rfl h
    | cons a fs => exact absurd ((hm (c.prio a)).2 List.mem_cons_self) (fun h => nomatch h)
  | cons p ks =>
    rw [hk] at hm hs'
    rw [List.map_cons, List.headD_cons, mem_set]
    have hmax : ∀ g, g ∈ fs → c.prio g ≤ p := fun g hg => by
      rcases List.mem_cons.1 ((hm _).2 (List.mem_map_of_mem hg)) with e | e
      · omega
      · exact (List.pairwise_cons.1 hs').1 _ e
    constructor
    · rintro ⟨h1, rfl⟩
      exact ⟨h1, hmax⟩
    · rintro ⟨h1, h2⟩
      refine ⟨h1, ?_⟩
      obtain ⟨g, hg, e⟩ := List.mem_map.1 ((hm p).1 List.mem_cons_self)
      have := h2 g hg
      have := hmax f h1
      omega

/-! ## The newest version -/

theorem vercmp_le_total (a b : Int × Str × Str) (h : ¬ Version.vercmp a b < 0) : Version.vercmp b a ≤ 0 := by
  have := (Version.vercmp_swap a b)
  omega

/-- Not better within a layer. -/
def NB (c : Cache) (g f : Str) : Prop :=
  c.dp g < c.dp f ∨ c.dp g = c.dp f ∧ Version.vercmp (vers c g) (vers c f) ≤ 0

theorem NB.refl (c : Cache) (f : Str) : NB c f f := by
  refine Or.inr ⟨rfl, ?_⟩
  have := Version.vercmp_swap (vers c f) (vers c f)
  omega

theorem NB.trans {c : Cache} {a b d : Str} (h1 : NB c a b) (h2 : NB c b d) : NB c a d := by
  rcases h1 with h1 | ⟨h1, h1'⟩
  · rcases h2 with h2 | ⟨h2, _⟩
    · exact Or.inl (by omega)
    · exact Or.inl (by omega)
  · rcases h2 with h2 | ⟨h2, h2'⟩
    · exact Or.inl (by omega)
    · exact Or.inr ⟨by omega, (Version.vercmp_trans h1' h2').1⟩

theorem better_iff {c : Cache} {l f : Str} : better c l f = true → NB c l f := by
  unfold better
  rw [Bool.or_eq_true, Bool.and_eq_true, beq_iff_eq, decide_eq_true_iff, decide_eq_true_iff]
  rintro (⟨h1, h2⟩ | h)
  · exact Or.inr ⟨h1, by omega⟩
  · exact Or.inl h

theorem not_better {c : Cache} {l f : Str} (h : ¬ better c l f = true) : NB c f l := by
  unfold better at h
  rw [Bool.or_eq_true, Bool.and_eq_true, beq_iff_eq, decide_eq_true_iff, decide_eq_true_iff] at h
  by_cases h1 : c.dp l = c.dp f
  · exact Or.inr ⟨h1.symm, vercmp_le_total _ _ fun h2 => h (Or.inl ⟨h1, h2⟩)⟩
  · exact Or.inl (by
      have : ¬ c.dp f > c.dp l := fun h2 => h (Or.inr h2)
      omega)

/-- One step of the loop. -/
def latestStep (c : Cache) (o : Option Str) (f : Str) : Option Str :=
  match o with
  | none => some f
  | some l => if better c l f then some f else some l

theorem latest_fold (c : Cache) : ∀ (fs : List Str) (l : Str), ∃ f, fs.foldl (latestStep c) (some l) = some f ∧
    (f = l ∨ f ∈ fs) ∧ NB c l f ∧ ∀ g, g ∈ fs → NB c g f
  | [], l => ⟨l, rfl, Or.inl rfl, NB.refl c l, nofun⟩
  | x :: fs, l => by
    rw [List.foldl_cons]
    by_cases h : better c l x = true
    · have e : latestStep c (some l) x = some x := if_pos h
      obtain ⟨f, h1, h2, h3, h4⟩ := latest_fold c fs x
      rw [e]
      refine ⟨f, h1, Or.inr ?_, (better_iff h).trans h3, ?_⟩
      · rcases h2 with rfl | h2
        · exact List.mem_cons_self
        · exact List.mem_cons_of_mem _ h2
      · intro g hg
        rcases List.mem_cons.1 hg with rfl | hg
        · exact h3
        · exact h4 g hg
    · have e : latestStep c (some l) x = some l := if_neg h
      obtain ⟨f, h1, h2, h3, h4⟩ := latest_fold c fs l
      rw [e]
      refine ⟨f, h1, h2.imp id (List.mem_cons_of_mem _), h3, ?_⟩
      intro g hg
      rcases List.mem_cons.1 hg with rfl | hg
      · exact (not_better h).trans h3
      · exact h4 g hg

theorem latest_spec (c : Cache) (fs : List Str) (h : fs ≠ []) : ∃ f, findLatest c fs = some f ∧ f ∈ fs ∧
    ∀ g, g ∈ fs → NB c g f := by
  cases fs with
  | nil => exact absurd rfl h
  | cons a fs =>
    obtain ⟨f, h1, h2, h3, h4⟩ := latest_fold c fs a
    refine ⟨f, h1, ?_, ?_⟩
    · rcases h2 with rfl | h2
      · exact List.mem_cons_self
      · exact List.mem_cons_of_mem _ h2
    · intro g hg
      rcases List.mem_cons.1 hg with rfl | hg
      · exact h3
      · exact h4 g hg

theorem latest_best (c : Cache) (fs : List Str) (h : fs ≠ []) :
    ∃ f, findLatest c ((sortPriorities c fs).headD []) = some f ∧ Best c fs f := by
  have hne : (sortPriorities c fs).headD [] ≠ [] := by
    intro he
    -- some file has the highest priority
    have : ∀ (fs : List Str), fs ≠ [] → ∃ f, f ∈ fs ∧ ∀ g, g ∈ fs → c.prio g ≤ c.prio f := by
      intro fs
      induction fs with
      | nil => intro h; exact absurd rfl h
      | cons a fs ih =>
        intro _
        by_cases hf : fs = []
        · subst hf
          exact ⟨a, List.mem_cons_self, fun g hg => by rw [List.mem_singleton.1 hg]; exact Int.le_refl _⟩
        · obtain ⟨f, h1, h2⟩ := ih hf
          by_cases hp : c.prio a ≤ c.prio f
          · refine ⟨f, List.mem_cons_of_mem _ h1, fun g hg => ?_⟩
            rcases List.mem_cons.1 hg with rfl | hg
            · exact hp
            · exact h2 g hg
          · refine ⟨a, List.mem_cons_self, fun g hg => ?_⟩
            rcases List.mem_cons.1 hg with rfl | hg
            · exact Int.le_refl _
            · have := h2 g hg; omega
    obtain ⟨f, hf⟩ := this fs h
    have := (first_set (c := c) h).2 hf
    rw [he] at this
    cases this
  obtain ⟨f, h1, h2, h3⟩ := latest_spec c _ hne
  obtain ⟨h4, h5⟩ := (first_set h).1 h2
  refine ⟨f, h1, h4, fun g hg => ?_⟩
  by_cases hp : c.prio g < c.prio f
  · exact Or.inl hp
  · have hge := h5 g hg
    refine Or.inr ⟨by omega, h3 g ((first_set h).2 ⟨hg, fun x hx => ?_⟩)⟩
    have := h5 x hx
    omega

/-! ## Preferred versions -/

theorem takeWhile_digits {d r : Str} (hd : ∀ x, x ∈ d → Char.isDigit x = true) :
    (d ++ ':' :: r).takeWhile Char.isDigit = d ∧ (d ++ ':' :: r).dropWhile Char.isDigit = ':' :: r := by
  induction d with
  | nil => exact ⟨rfl, rfl⟩
  | cons a d ih =>
    obtain ⟨h1, h2⟩ := ih fun x hx => hd x (List.mem_cons_of_mem _ hx)
    have ha := hd a List.mem_cons_self
    rw [List.cons_append, List.takeWhile_cons, List.dropWhile_cons, if_pos ha, if_pos ha, h1, h2]
    exact ⟨rfl, rfl⟩

theorem hasEpoch_iff {s : Str} :
    (s.takeWhile Char.isDigit ≠ [] ∧ (s.dropWhile Char.isDigit).head? = some ':') ↔ HasEpoch s := by
  constructor
  · rintro ⟨h1, h2⟩
    cases hd : s.dropWhile Char.isDigit with
    | nil => rw [hd] at h2; cases h2
    | cons a r =>
      rw [hd] at h2
      injection h2 with h2
      subst h2
      exact ⟨_, r, h1, fun x hx => Version.takeWhile_all x hx, by rw [← hd, List.takeWhile_append_dropWhile]⟩
  · rintro ⟨d, r, h1, h2, rfl⟩
    obtain ⟨e1, e2⟩ := takeWhile_digits (r := r) h2
    rw [e1, e2]
    exact ⟨h1, rfl⟩

theorem epochs_plain (n : Nat) (e : Option Str) (v : Str) (h : ¬ HasEpoch v) : epochs n e v = (e, v) := by
  cases n with
  | zero => rfl
  | succ n => exact if_neg fun h' => h (hasEpoch_iff.1 h')

theorem parse_names {s v : Str} {e : Option Str} (h : Names s e v) : parsePref s = ⟨e, v, none⟩ := by
  unfold parsePref
  cases h with
  | plain h => rw [epochs_plain _ _ _ h]
  | @epoch e v h1 h2 h3 =>
    obtain ⟨e1, e2⟩ := takeWhile_digits (r := v) h2
    have hl : (e ++ ':' :: v).length = (e.length + v.length) + 1 := by
      rw [List.length_append, List.length_cons]; omega
    have : epochs (e ++ ':' :: v).length none (e ++ ':' :: v) = (some e, v) := by
      rw [hl]
      unfold epochs
      rw [e1, e2]
      rw [if_pos ⟨h1, rfl⟩]
      exact epochs_plain _ _ _ h3
    rw [this]

theorem match_iff {c : Cache} {f : Str} {e : Option Str} {v : Str} :
    versionMatch (c.ver f) ⟨e, v, none⟩ = true ↔ Fits c e v f := by
  unfold versionMatch Fits
  rw [Bool.and_eq_true, Bool.and_eq_true, Bool.or_eq_true, Bool.or_eq_true, Bool.or_eq_true, Bool.and_eq_true]
  have h1 : (((none : Option Str) == some (c.ver f).2.2) = true ∨ ((none : Option Str) == none) = true) ↔ True :=
    ⟨fun _ => trivial, fun _ => Or.inr rfl⟩
  have h2 : ((e == some (c.ver f).1) = true ∨ (e == none) = true) ↔ ∀ x, e = some x → (c.ver f).1 = x := by
    cases e with
    | none => exact ⟨fun _ x h => (nomatch h), fun _ => Or.inr rfl⟩
    | some y =>
      constructor
      · rintro (h | h)
        · intro x hx
          rw [beq_iff_eq] at h
          injection h with h
          injection hx with hx
          rw [← h, hx]
        · cases h
      · intro h
        refine Or.inl ?_
        rw [h y rfl]; simp
  have h3 : (v == (c.ver f).2.1) = true ∨ endsWith v ['%'] = true ∧
      startsWith (c.ver f).2.1 (v.take (v.length - 1)) = true ↔
      (c.ver f).2.1 = v ∨ ∃ p r, v = p ++ ['%'] ∧ (c.ver f).2.1 = p ++ r := by
    refine or_congr (by rw [beq_iff_eq]; exact eq_comm) ?_
    rw [endsWith_iff, startsWith_iff]
    constructor
    · rintro ⟨⟨p, rfl⟩, r, hr⟩
      rw [List.length_append, List.length_singleton, Nat.add_sub_cancel, List.take_left'  rfl] at hr
      exact ⟨p, r, rfl, hr⟩
    · rintro ⟨p, r, rfl, hr⟩
      refine ⟨⟨p, rfl⟩, r, ?_⟩
      rw [List.length_append, List.length_singleton, Nat.add_sub_cancel, List.take_left' rfl]
      exact hr
  show ((_ ∨ _) ∧ (_ ∨ _)) ∧ (_ ∨ _ ∧ _) ↔ _
  rw [h1, h2, h3, true_and]

theorem findMatch_some {c : Cache} {fs : List Str} {e : Option Str} {v f : Str}
    (h : findMatch c (sortPriorities c fs) ⟨e, v, none⟩ = some f) : BestFit c fs e v f := by
  unfold findMatch at h
  rw [sortPriorities_eq] at h
  have hs := sortKeys_sorted (fs.map c.prio)
  have hm : ∀ x, x ∈ (sortKeys (fs.map c.prio)).reverse ↔ x ∈ fs.map c.prio := fun x => by
    rw [List.mem_reverse, mem_sortKeys]
  have hs' : ((sortKeys (fs.map c.prio)).reverse).Pairwise fun a b => b ≤ a := List.pairwise_reverse.2 hs
  obtain ⟨l1, a, l2, hl, ha, hn⟩ := List.findSome?_eq_some_iff.1 h
  obtain ⟨k1, k2', hk, hk1, hk2⟩ := List.map_eq_append_iff.1 hl
  obtain ⟨p, k2, rfl, hp, hk3⟩ := List.map_eq_cons_iff.1 hk2
  subst hp
  have hf := List.find?_some ha
  have hmem := mem_set.1 (List.mem_of_find?_eq_some ha)
  refine ⟨hmem.1, match_iff.1 hf, fun g hg hfit => ?_⟩
  rw [hmem.2]
  have hq := (hm (c.prio g)).2 (List.mem_map_of_mem hg)
  rw [hk] at hq hs'
  rcases List.mem_append.1 hq with hq | hq
  · -- an earlier set had a match
    have := hn _ (by rw [← hk1]; exact List.mem_map_of_mem hq)
    have := List.find?_eq_none.1 this g (mem_set.2 ⟨hg, rfl⟩)
    exact absurd (match_iff.2 hfit) this
  · rcases List.mem_cons.1 hq with hq | hq
    · omega
    · exact (List.pairwise_cons.1 (List.pairwise_append.1 hs').2.1).1 _ hq

theorem findMatch_none {c : Cache} {fs : List Str} {e : Option Str} {v : Str}
    (h : findMatch c (sortPriorities c fs) ⟨e, v, none⟩ = none) (g : Str) (hg : g ∈ fs) : ¬ Fits c e v g := by
  unfold findMatch at h
  rw [sortPriorities_eq] at h
  intro hfit
  have := List.findSome?_eq_none_iff.1 h _ (List.mem_map_of_mem (List.mem_reverse.2 (mem_sortKeys.2 (List.mem_map_of_mem hg))))
  exact List.find?_eq_none.1 this g (mem_set.2 ⟨hg, rfl⟩) (match_iff.2 hfit)

/-- **C128.**  Without a preferred or required version the best file is chosen: of the layer with the highest
priority, with the highest DEFAULT_PREFERENCE there, with the newest version of these. -/
theorem newest_chosen (get : Str → Option Str) (c : Cache) (fs : List Str) (pn : Str) (hne : fs ≠ [])
    (hr : versionVar get "REQUIRED".toList pn = none) (hp : versionVar get "PREFERRED".toList pn = none) :
    ∃ f, findBest get c fs pn = some f ∧ Best c fs f := by
  have : findPreferred get c (sortPriorities c fs) pn = (none, false) := by
    unfold findPreferred; rw [hr, hp]
  unfold findBest
  rw [this]
  exact latest_best c fs hne

/-- **C128.**  With a preferred version, a file with this version is chosen if there is one, from the layer with
the highest priority that has one; and otherwise the best file. -/
theorem preferred_chosen (get : Str → Option Str) (c : Cache) (fs : List Str) (pn text : Str) (hne : fs ≠ [])
    (hr : versionVar get "REQUIRED".toList pn = none) (hp : versionVar get "PREFERRED".toList pn = some text)
    (ht : text ≠ []) (e : Option Str) (v : Str) (hn : Names text e v) :
    ∃ f, findBest get c fs pn = some f ∧
      ((∃ g, g ∈ fs ∧ Fits c e v g) → BestFit c fs e v f) ∧ ((¬ ∃ g, g ∈ fs ∧ Fits c e v g) → Best c fs f) := by
  have htr : truthy (some text) = true := by
    cases text with
    | nil => exact absurd rfl ht
    | cons a b => rfl
  have : findPreferred get c (sortPriorities c fs) pn =
      (findMatch c (sortPriorities c fs) ⟨e, v, none⟩, false) := by
    unfold findPreferred; rw [hr, hp]
    show (if truthy (some text) = true then _ else _, false) = _
    rw [if_pos htr, parse_names hn]
  unfold findBest
  rw [this]
  cases hm : findMatch c (sortPriorities c fs) ⟨e, v, none⟩ with
  | some f =>
    have hb := findMatch_some hm
    exact ⟨f, rfl, fun _ => hb, fun h => absurd ⟨f, hb.1, hb.2.1⟩ h⟩
  | none =>
    obtain ⟨f, h1, h2⟩ := latest_best c fs hne
    exact ⟨f, h1, fun ⟨g, hg, hf⟩ => absurd hf (findMatch_none hm g hg), fun _ => h2⟩

/-- **C128.**  With a required version, whatever is preferred, a file with this version is chosen, from the layer
with the highest priority that has one; and none if there is no such file. -/
theorem required_chosen (get : Str → Option Str) (c : Cache) (fs : List Str) (pn text : Str)
    (hr : versionVar get "REQUIRED".toList pn = some text)
    (ht : text ≠ []) (e : Option Str) (v : Str) (hn : Names text e v) :
    (∀ f, findBest get c fs pn = some f → BestFit c fs e v f) ∧
      (findBest get c fs pn = none → ∀ g, g ∈ fs → ¬ Fits c e v g) := by
  have htr : truthy (some text) = true := by
    cases text with
    | nil => exact absurd rfl ht
    | cons a b => rfl
  have : findPreferred get c (sortPriorities c fs) pn =
      (findMatch c (sortPriorities c fs) ⟨e, v, none⟩, true) := by
    unfold findPreferred; rw [hr]
    show (if truthy (some text) = true then _ else _, true) = _
    rw [if_pos htr, parse_names hn]
  unfold findBest
  rw [this]
  cases hm : findMatch c (sortPriorities c fs) ⟨e, v, none⟩ with
  | some f => exact ⟨fun g hg => by injection hg with hg; subst hg; exact findMatch_some hm, fun h => (nomatch h)⟩
  | none => exact ⟨fun g hg => (nomatch hg), fun _ => findMatch_none hm⟩

/-! ### Which variable counts -/

/-- **C128.**  The variable with the override for the recipe counts first, then the one with its name at the end,
then the one for all; variables that are empty do not count, except the last. -/
theorem version_variable (get : Str → Option Str) (keyword pn : Str) :
    (∀ a t, get (keyword ++ "_VERSION:pn-".toList ++ pn) = some (a :: t) → versionVar get keyword pn = some (a :: t)) ∧
    (∀ a t, (get (keyword ++ "_VERSION:pn-".toList ++ pn)).getD [] = [] →
      get (keyword ++ "_VERSION_".toList ++ pn) = some (a :: t) → versionVar get keyword pn = some (a :: t)) ∧
    ((get (keyword ++ "_VERSION:pn-".toList ++ pn)).getD [] = [] → (get (keyword ++ "_VERSION_".toList ++ pn)).getD [] = [] →
      versionVar get keyword pn = get (keyword ++ "_VERSION".toList)) := by
  have hf : ∀ o : Option Str, o.getD [] = [] → truthy o = false := by
    intro o h
    cases o with
    | none => rfl
    | some s =>
      cases s with
      | nil => rfl
      | cons a b => cases h
  refine ⟨fun a t h => ?_, fun a t h1 h2 => ?_, fun h1 h2 => ?_⟩
  · unfold versionVar
    rw [h]; exact if_pos rfl
  · unfold versionVar
    rw [hf _ h1, h2, if_neg (by decide)]; exact if_pos rfl
  · unfold versionVar
    rw [hf _ h1, hf _ h2, if_neg (by decide), if_neg (by decide)]

/-! ### A sample -/

/-- Two layers: recipe `a` in versions 1.0, 1.9 and 2.0 in the first one, the second with a lower preference, and
in version 3.0 in a layer with a lower priority; recipe `b`, which provides the same. -/
def sample : Cache where
  pn f := if f = "b_1.bb".toList then "b".toList else "a".toList
  ver f := if f = "a_1.0.bb".toList then ([], "1.0".toList, "r1".toList)
    else if f = "a_1.9.bb".toList then ([], "1.9".toList, "r0".toList)
    else if f = "a_2.0.bb".toList then ([], "2.0".toList, "r0".toList)
    else if f = "low/a_3.0.bb".toList then ("1".toList, "3.0".toList, "r0".toList)
    else ([], "1".toList, "r0".toList)
  prio f := if f = "low/a_3.0.bb".toList then 1 else 5
  dp f := if f = "a_1.0.bb".toList then -1 else 0
  provides _ := ["virtual/x".toList]
  epoch e := if e = [] then 0 else 1

def sampleFiles : List Str := ["a_1.9.bb".toList, "a_2.0.bb".toList, "low/a_3.0.bb".toList, "a_1.0.bb".toList]

/-- Set one variable. -/
def only (name value : String) : Str → Option Str := fun n => if n = name.toList then some value.toList else none

example : findBest (fun _ => none) sample sampleFiles "a".toList = some "a_2.0.bb".toList := by decide +kernel
example : findBest (only "PREFERRED_VERSION_a" "1:3.%") sample sampleFiles "a".toList = some "low/a_3.0.bb".toList := by
  decide +kernel
example : findBest (only "REQUIRED_VERSION_a" "4") sample sampleFiles "a".toList = none := by decide +kernel

theorem dot_no_epoch : ¬ HasEpoch "3.%".toList := by
  rintro ⟨d, r, h1, h2, h3⟩
  have h := hasEpoch_iff.2 ⟨d, r, h1, h2, h3⟩
  revert h
  decide

example : Names "1:3.%".toList (some "1".toList) "3.%".toList :=
  Names.epoch (e := "1".toList) (v := "3.%".toList) (by decide) (by decide) dot_no_epoch

/-- Against C128: of several versions that begin with the preferred text, neither the newest nor the one with the
highest DEFAULT_PREFERENCE is chosen, but the one with the lowest. -/
theorem wildcard_lowest :
    findBest (only "PREFERRED_VERSION_a" "1.%") sample sampleFiles "a".toList = some "a_1.0.bb".toList ∧
    sample.dp "a_1.0.bb".toList < sample.dp "a_1.9.bb".toList ∧
    Version.vercmp (vers sample "a_1.0.bb".toList) (vers sample "a_1.9.bb".toList) < 0 := by decide +kernel

/-- Against C128: a preferred version with a revision, as in the name of a package, is never found: the expression
that reads it takes the revision for a part of the version. -/
theorem revision_not_found :
    findBest (only "PREFERRED_VERSION_a" "1.0_r1") sample sampleFiles "a".toList = some "a_2.0.bb".toList ∧
    sample.ver "a_1.0.bb".toList = ([], "1.0".toList, "r1".toList) ∧
    findBest (only "REQUIRED_VERSION_a" "1.0_r1") sample sampleFiles "a".toList = none := by decide +kernel

/-! ## Several recipes -/

/-- What was found for a recipe. -/
def pf (get : Str → Option Str) (c : Cache) (ps : List Str) (pn : Str) : Option Str × Bool :=
  findPreferred get c (sortPriorities c (filesOf c ps pn)) pn

theorem prefLoop_ok (get : Str → Option Str) (c : Cache) (ps : List Str) : ∀ pns : List Str,
    (prefLoop get c ps pns).2 = true → (prefLoop get c ps pns).1 = pns.map fun pn => (pn, (pf get c ps pn).1)
  | [], _ => rfl
  | pn :: pns, h => by
    unfold prefLoop at h ⊢
    by_cases hc : ((findPreferred get c (sortPriorities c (filesOf c ps pn)) pn).2 &&
        (findPreferred get c (sortPriorities c (filesOf c ps pn)) pn).1 == none) = true
    · rw [if_pos hc] at h; cases h
    · rw [if_neg hc] at h ⊢
      dsimp only at h ⊢
      rw [prefLoop_ok get c ps pns h]
      rfl

theorem prefLoop_flag (get : Str → Option Str) (c : Cache) (ps : List Str) : ∀ pns : List Str,
    (prefLoop get c ps pns).2 = true ↔ ∀ pn, pn ∈ pns → ¬ ((pf get c ps pn).2 = true ∧ (pf get c ps pn).1 = none)
  | [] => ⟨fun _ => nofun, fun _ => rfl⟩
  | pn :: pns => by
    unfold prefLoop
    by_cases hc : ((findPreferred get c (sortPriorities c (filesOf c ps pn)) pn).2 &&
        (findPreferred get c (sortPriorities c (filesOf c ps pn)) pn).1 == none) = true
    · rw [if_pos hc]
      rw [Bool.and_eq_true, beq_iff_eq] at hc
      exact ⟨fun h => (nomatch h), fun h => absurd hc (h pn List.mem_cons_self)⟩
    · rw [if_neg hc]
      rw [Bool.and_eq_true, beq_iff_eq] at hc
      dsimp only
      rw [prefLoop_flag get c ps pns]
      constructor
      · intro h x hx
        rcases List.mem_cons.1 hx with rfl | hx
        · exact hc
        · exact h x hx
      · exact fun h x hx => h x (List.mem_cons_of_mem _ hx)

theorem findBest_pf (get : Str → Option Str) (c : Cache) (ps : List Str) (pn : Str) :
    findBest get c (filesOf c ps pn) pn =
      match pf get c ps pn with
      | (some f, _) => some f
      | (none, true) => none
      | (none, false) => latestOf c ps pn := rfl

theorem filesOf_ne {c : Cache} {ps : List Str} {pn : Str} (h : pn ∈ ps.map c.pn) : filesOf c ps pn ≠ [] := by
  obtain ⟨p, hp, rfl⟩ := List.mem_map.1 h
  intro he
  have : p ∈ filesOf c ps (c.pn p) := List.mem_filter.2 ⟨hp, by simp⟩
  rw [he] at this
  cases this

theorem latestOf_some {c : Cache} {ps : List Str} {pn : Str} (h : pn ∈ ps.map c.pn) :
    ∃ f, latestOf c ps pn = some f ∧ f ∈ ps ∧ c.pn f = pn := by
  obtain ⟨f, h1, h2⟩ := latest_best c _ (filesOf_ne h)
  have := List.mem_filter.1 h2.1
  exact ⟨f, h1, this.1, by simpa using this.2⟩

theorem findMatch_mem {c : Cache} {fs : List Str} {p : Pref} {f : Str}
    (h : findMatch c (sortPriorities c fs) p = some f) : f ∈ fs := by
  unfold findMatch at h
  rw [sortPriorities_eq] at h
  obtain ⟨l, hl, h⟩ := List.exists_of_findSome?_eq_some h
  obtain ⟨k, _, rfl⟩ := List.mem_map.1 hl
  exact (mem_set.1 (List.mem_of_find?_eq_some h)).1

theorem findPreferred_mem {get : Str → Option Str} {c : Cache} {fs : List Str} {pn f : Str}
    (h : (findPreferred get c (sortPriorities c fs) pn).1 = some f) : f ∈ fs := by
  unfold findPreferred at h
  split at h
  · dsimp only at h
    split at h
    · exact findMatch_mem h
    · cases h
  · split at h
    · dsimp only at h
      split at h
      · exact findMatch_mem h
      · cases h
    · cases h

theorem pf_mem {get : Str → Option Str} {c : Cache} {ps : List Str} {pn f : Str} (h : (pf get c ps pn).1 = some f) :
    f ∈ ps ∧ c.pn f = pn := by
  have := List.mem_filter.1 (findPreferred_mem h)
  exact ⟨this.1, by simpa using this.2⟩

theorem map_filterMap_pn {c : Cache} {g : Str → Option Str} : ∀ (l : List Str),
    (∀ n, n ∈ l → ∃ f, g n = some f ∧ c.pn f = n) → (l.filterMap g).map c.pn = l
  | [], _ => rfl
  | a :: l, h => by
    obtain ⟨f, h1, h2⟩ := h a List.mem_cons_self
    rw [List.filterMap_cons_some h1, List.map_cons, h2, map_filterMap_pn l fun n hn => h n (List.mem_cons_of_mem _ hn)]

theorem filterMap_filter_isSome {g : Str → Option Str} : ∀ (l : List Str),
    l.filterMap g = (l.filter fun n => (g n).isSome).filterMap g
  | [] => rfl
  | a :: l => by
    cases h : g a with
    | none =>
      rw [List.filterMap_cons_none h, filterMap_filter_isSome l]
      congr 1
      rw [List.filter_cons, h]; rfl
    | some f =>
      have : ((a :: l).filter fun n => (g n).isSome) = a :: l.filter fun n => (g n).isSome := by
        rw [List.filter_cons, h]; rfl
      rw [List.filterMap_cons_some h, filterMap_filter_isSome l, this, List.filterMap_cons_some h]

/-- All required versions are there. -/
def AllFound (get : Str → Option Str) (c : Cache) (ps : List Str) : Prop :=
  ∀ n, n ∈ ps.map c.pn → findBest get c (filesOf c ps n) n ≠ none

theorem allFound_flag {get : Str → Option Str} {c : Cache} {ps : List Str} (h : AllFound get c ps) :
    (prefLoop get c ps (recipes c ps)).2 = true := by
  rw [prefLoop_flag]
  rintro pn hpn ⟨h1, h2⟩
  refine h pn (mem_sortSet.1 hpn) ?_
  rw [findBest_pf]
  have : pf get c ps pn = (none, true) := by rw [← h1, ← h2]
  rw [this]

theorem eligible0_eq {get : Str → Option Str} {c : Cache} {ps : List Str} (h : AllFound get c ps) :
    eligible0 get c ps = (recipes c ps).filterMap (fun n => (pf get c ps n).1) ++
      ((recipes c ps).filter fun n => (pf get c ps n).1 == none).filterMap (latestOf c ps) := by
  unfold eligible0
  rw [if_pos (allFound_flag h), prefLoop_ok get c ps _ (allFound_flag h)]
  rw [List.filterMap_map, List.filter_map, List.filterMap_map]
  rfl

theorem eligible0_names {get : Str → Option Str} {c : Cache} {ps : List Str} (h : AllFound get c ps) :
    ((eligible0 get c ps).map c.pn).Perm (recipes c ps) := by
  rw [eligible0_eq h, List.map_append, filterMap_filter_isSome]
  rw [map_filterMap_pn, map_filterMap_pn]
  · have := List.filter_append_perm (fun n => ((pf get c ps n).1).isSome) (recipes c ps)
    have e : (fun n => (pf get c ps n).1 == none) = fun n => !((pf get c ps n).1).isSome := by
      funext n; cases (pf get c ps n).1 <;> rfl
    rw [e]
    exact this
  · intro n hn
    obtain ⟨f, h1, _, h3⟩ := latestOf_some (mem_sortSet.1 (List.mem_filter.1 hn).1)
    exact ⟨f, h1, h3⟩
  · intro n hn
    obtain ⟨f, hf⟩ := Option.isSome_iff_exists.1 (List.mem_filter.1 hn).2
    exact ⟨f, hf, (pf_mem hf).2⟩

theorem eligible0_mem {get : Str → Option Str} {c : Cache} {ps : List Str} (h : AllFound get c ps) {f : Str}
    (hf : f ∈ eligible0 get c ps) : f ∈ ps ∧ findBest get c (filesOf c ps (c.pn f)) (c.pn f) = some f := by
  rw [eligible0_eq h] at hf
  rcases List.mem_append.1 hf with hf | hf
  · obtain ⟨n, hn, hf⟩ := List.mem_filterMap.1 hf
    obtain ⟨h1, rfl⟩ := pf_mem hf
    refine ⟨h1, ?_⟩
    rw [findBest_pf]
    cases hp : pf get c ps (c.pn f) with
    | mk a b => rw [hp] at hf; dsimp only at hf; subst hf; rfl
  · obtain ⟨n, hn, hf⟩ := List.mem_filterMap.1 hf
    obtain ⟨hn, hno⟩ := List.mem_filter.1 hn
    rw [beq_iff_eq] at hno
    obtain ⟨f', h1, h2, h3⟩ := latestOf_some (mem_sortSet.1 hn)
    rw [hf] at h1
    injection h1 with h1
    subst h1
    subst h3
    refine ⟨h2, ?_⟩
    have hfl := (prefLoop_flag get c ps _).1 (allFound_flag h) _ hn
    rw [findBest_pf]
    cases hp : pf get c ps (c.pn f) with
    | mk a b =>
      rw [hp] at hno hfl
      dsimp only at hno hfl
      subst hno
      cases b with
      | true => exact absurd ⟨rfl, rfl⟩ hfl
      | false => exact hf

theorem front_perm (f : Str) (l : List Str) : (front f l).Perm l := by
  unfold front
  split
  · exact (List.perm_cons_erase ‹_›).symm
  · exact List.Perm.refl _

theorem fileOf_some {c : Cache} {l : List Str} {n f : Str} (h : fileOf c l n = some f) : f ∈ l ∧ c.pn f = n :=
  ⟨List.mem_of_find?_eq_some h, by simpa using List.find?_some h⟩

theorem fileOf_none {c : Cache} {l : List Str} {n : Str} (h : fileOf c l n = none) : n ∉ l.map c.pn := by
  intro hm
  obtain ⟨f, hf, rfl⟩ := List.mem_map.1 hm
  exact List.find?_eq_none.1 h f hf (by simp)

theorem eligible_perm (get : Str → Option Str) (c : Cache) (ps : List Str) (item : Str) :
    (eligible get c ps item).Perm (eligible0 get c (sortBy strLe ps)) := by
  unfold eligible
  split
  · split
    · exact front_perm _ _
    · exact List.Perm.refl _
  · exact List.Perm.refl _

theorem filter_perm (get : Str → Option Str) (c : Cache) (preferred : Str → Option Str) (ps : List Str) (item : Str) :
    (filterProviders get c preferred ps item).1.Perm (eligible get c ps item) := by
  unfold filterProviders
  split
  · split
    · exact front_perm _ _
    · exact List.Perm.refl _
  · exact List.Perm.refl _

/-- **C129.**  Of each recipe that provides an item there is exactly one file: the one that is chosen for this
recipe (see C128). -/
theorem one_of_each (get : Str → Option Str) (c : Cache) (preferred : Str → Option Str) (ps : List Str) (item : Str)
    (h : AllFound get c (sortBy strLe ps)) :
    ((filterProviders get c preferred ps item).1.map c.pn).Nodup ∧
    (∀ n, n ∈ (filterProviders get c preferred ps item).1.map c.pn ↔ n ∈ ps.map c.pn) ∧
    ∀ f, f ∈ (filterProviders get c preferred ps item).1 →
      f ∈ ps ∧ findBest get c (filesOf c (sortBy strLe ps) (c.pn f)) (c.pn f) = some f := by
  have hp := (filter_perm get c preferred ps item).trans (eligible_perm get c ps item)
  have hn := (hp.map c.pn).trans (eligible0_names h)
  refine ⟨hn.nodup_iff.2 (sortSet_nodup _), fun n => ?_, fun f hf => ?_⟩
  · rw [hn.mem_iff]
    unfold recipes
    rw [mem_sortSet, List.mem_map, List.mem_map]
    exact exists_congr fun p => and_congr (sortBy_perm _ _).mem_iff Iff.rfl
  · obtain ⟨h1, h2⟩ := eligible0_mem h (hp.mem_iff.1 hf)
    exact ⟨(sortBy_perm _ _).mem_iff.1 h1, h2⟩

theorem eligible_names {get : Str → Option Str} {c : Cache} {ps : List Str} {item : Str}
    (h : AllFound get c (sortBy strLe ps)) (n : Str) : n ∈ (eligible get c ps item).map c.pn ↔ n ∈ ps.map c.pn := by
  rw [((eligible_perm get c ps item).map c.pn).mem_iff, (eligible0_names h).mem_iff]
  unfold recipes
  rw [mem_sortSet, List.mem_map, List.mem_map]
  exact exists_congr fun p => and_congr (sortBy_perm _ _).mem_iff Iff.rfl

theorem front_head {f : Str} {l : List Str} (h : f ∈ l) : (front f l).head? = some f := by
  unfold front
  rw [if_pos h]; rfl

/-- **C129.**  The preferred provider comes first, if it provides the item, and is then the only choice. -/
theorem preferred_first (get : Str → Option Str) (c : Cache) (preferred : Str → Option Str) (ps : List Str) (item want : Str)
    (h : AllFound get c (sortBy strLe ps))
    (hw : get ("PREFERRED_PROVIDER_".toList ++ item) = some want ∧ want ≠ [] ∨
      get ("PREFERRED_PROVIDER_".toList ++ item) = none ∧ preferred item = some want)
    (hp : want ∈ ps.map c.pn) :
    (filterProviders get c preferred ps item).2 = true ∧
      ∃ f, (filterProviders get c preferred ps item).1.head? = some f ∧ c.pn f = want := by
  have hsel : (if truthy (get ("PREFERRED_PROVIDER_".toList ++ item)) then get ("PREFERRED_PROVIDER_".toList ++ item)
    else preferred item) = some want := by
    rcases hw with ⟨h1, h2⟩ | ⟨h1, h2⟩
    · have : truthy (some want) = true := by
        cases want with
        | nil => exact absurd rfl h2
        | cons a b => rfl
      rw [h1, if_pos this]
    · rw [h1, h2]; rfl
  unfold filterProviders
  rw [hsel]
  dsimp only
  cases hf : fileOf c (eligible get c ps item) want with
  | none => exact absurd ((eligible_names h want).2 hp) (fileOf_none hf)
  | some f =>
    obtain ⟨h1, h2⟩ := fileOf_some hf
    exact ⟨rfl, f, front_head h1, h2⟩

/-- **C129.**  Without a preferred provider, the recipe with the name of the item comes first, if it provides it. -/
theorem same_name_first (get : Str → Option Str) (c : Cache) (preferred : Str → Option Str) (ps : List Str) (item : Str)
    (h : AllFound get c (sortBy strLe ps))
    (hw : get ("PREFERRED_PROVIDER_".toList ++ item) = none ∧ preferred item = none)
    (hp : item ∈ ps.map c.pn) :
    ∃ f, (filterProviders get c preferred ps item).1.head? = some f ∧ c.pn f = item := by
  have hsel : (if truthy (get ("PREFERRED_PROVIDER_".toList ++ item)) then get ("PREFERRED_PROVIDER_".toList ++ item)
    else preferred item) = none := by rw [hw.1, hw.2]; rfl
  unfold filterProviders
  rw [hsel]
  unfold eligible
  dsimp only
  rw [if_pos (allFound_flag h)]
  cases hf : fileOf c (eligible0 get c (sortBy strLe ps)) item with
  | none =>
    refine absurd ?_ (fileOf_none hf)
    rw [(eligible0_names h).mem_iff]
    unfold recipes
    rw [mem_sortSet, List.mem_map]
    obtain ⟨p, h1, h2⟩ := List.mem_map.1 hp
    exact ⟨p, (sortBy_perm _ _).mem_iff.2 h1, h2⟩
  | some f =>
    obtain ⟨h1, h2⟩ := fileOf_some hf
    exact ⟨f, front_head h1, h2⟩

theorem sortBy_congr {l m : List Str} (h : l.Perm m) : sortBy strLe l = sortBy strLe m :=
  List.Perm.eq_of_pairwise (le := fun a b => strLe a b = true) (fun _ _ _ _ h1 h2 => strLe_antisymm h1 h2)
    (sortBy_sorted strLe_trans strLe_total l) (sortBy_sorted strLe_trans strLe_total m)
    (((sortBy_perm _ l).trans h).trans (sortBy_perm _ m).symm)

/-- **C129.**  The order in which recipe files are found does not matter. -/
theorem order_free (get : Str → Option Str) (c : Cache) (preferred : Str → Option Str) (l m : List Str) (h : l.Perm m)
    (item : Str) : filterProviders get c preferred l item = filterProviders get c preferred m item ∧
      filterRunTime get c l item = filterRunTime get c m item := by
  have : eligible get c l item = eligible get c m item := by
    unfold eligible
    rw [sortBy_congr h]
  unfold filterProviders filterRunTime
  rw [this]
  exact ⟨rfl, rfl⟩

example : filterProviders (only "PREFERRED_PROVIDER_virtual/x" "b") sample (fun _ => none) ("b_1.bb".toList :: sampleFiles)
    "virtual/x".toList = (["b_1.bb".toList, "a_2.0.bb".toList], true) ∧
    filterProviders (fun _ => none) sample (fun _ => none) ("b_1.bb".toList :: sampleFiles) "b".toList =
      (["b_1.bb".toList, "a_2.0.bb".toList], false) ∧
    filterProviders (only "PREFERRED_VERSION_b" "1") sample (fun _ => none) ("b_1.bb".toList :: sampleFiles) "virtual/x".toList =
      (["b_1.bb".toList, "a_2.0.bb".toList], false) := by decide +kernel

/-- Against C129: if a required version of one recipe is not there, recipes that provide the same are not used
either, although they could be. -/
theorem required_hides_others :
    filterProviders (only "REQUIRED_VERSION_b" "7") sample (fun _ => none) ("b_1.bb".toList :: sampleFiles) "virtual/x".toList =
      ([], false) ∧
    filterProviders (only "REQUIRED_VERSION_b" "7") sample (fun _ => none) sampleFiles "virtual/x".toList =
      (["a_2.0.bb".toList], false) := by decide +kernel

/-! ## Run time -/

/-- **C130.**  The preferred provider at run time comes first and is the only choice, if it provides the item. -/
theorem rprovider_first (get : Str → Option Str) (c : Cache) (ps : List Str) (item want : Str)
    (h : AllFound get c (sortBy strLe ps)) (hw : get ("PREFERRED_RPROVIDER_".toList ++ item) = some want) (hne : want ≠ [])
    (hp : want ∈ ps.map c.pn) :
    (filterRunTime get c ps item).2 = 1 ∧ ∃ f, (filterRunTime get c ps item).1.head? = some f ∧ c.pn f = want := by
  have htr : truthy (some want) = true := by
    cases want with
    | nil => exact absurd rfl hne
    | cons a b => rfl
  cases hf : fileOf c (eligible get c ps item) want with
  | none => exact absurd ((eligible_names h want).2 hp) (fileOf_none hf)
  | some f =>
    obtain ⟨h1, h2⟩ := fileOf_some hf
    have hsel : (if truthy (get ("PREFERRED_RPROVIDER_".toList ++ item)) then
      (get ("PREFERRED_RPROVIDER_".toList ++ item)).bind (fileOf c (eligible get c ps item)) else none) = some f := by
      rw [hw, if_pos htr]; exact hf
    unfold filterRunTime
    rw [hsel]
    exact ⟨rfl, f, front_head h1, h2⟩

theorem runLoop_perm (get : Str → Option Str) (c : Cache) (all : List Str) : ∀ (fuel : Nat) (iter : List Str) (i : Nat)
    (st : RunState), st.eligible.Perm all → (runLoop get c all fuel iter i st).eligible.Perm all
  | 0, _, _, _, h => h
  | fuel + 1, iter, i, st, h => by
    unfold runLoop
    split
    · exact h
    · split
      · rename_i f hf
        refine runLoop_perm get c all fuel _ _ _ ?_
        have hmem : f ∈ all := by
          unfold runStep at hf
          obtain ⟨v, _, hv⟩ := List.exists_of_findSome?_eq_some hf
          split at hv
          · split at hv
            · rename_i g hg
              split at hv
              · cases hv
              · injection hv with hv
                subst hv
                exact (List.mem_filter.1 (List.mem_of_getLast? hg)).1
            · cases hv
          · cases hv
        exact (List.perm_cons_erase (h.mem_iff.2 hmem)).symm.trans h
      · exact runLoop_perm get c all fuel _ _ _ h

/-- **C130.**  The files for an item at run time are the same as at build time, in another order. -/
theorem runtime_same (get : Str → Option Str) (c : Cache) (preferred : Str → Option Str) (ps : List Str) (item : Str) :
    (filterRunTime get c ps item).1.Perm (filterProviders get c preferred ps item).1 := by
  refine List.Perm.trans ?_ (filter_perm get c preferred ps item).symm
  unfold filterRunTime
  split
  · exact front_perm _ _
  · exact runLoop_perm get c _ _ _ _ _ (List.Perm.refl _)

/-- Two or three recipes, each of which provides something at build time for which it is preferred. -/
def rivals : Cache where
  pn f := f
  ver _ := ([], "1".toList, "r0".toList)
  prio _ := 0
  dp _ := 0
  provides pn := if pn = "a".toList then ["virtual/x".toList] else if pn = "b".toList then ["virtual/y".toList] else
    ["virtual/z".toList]
  epoch _ := 0

def rivalVars : Str → Option Str := fun n =>
  if n = "PREFERRED_PROVIDER_virtual/x".toList then some "a".toList
  else if n = "PREFERRED_PROVIDER_virtual/y".toList then some "b".toList
  else if n = "PREFERRED_PROVIDER_virtual/z".toList then some "c".toList
  else none

/-- Against C130: two recipes are both preferred, and the conflict is not seen, because the list over which the loop
goes is changed meanwhile.  With a third one it is. -/
theorem conflict_missed :
    filterRunTime rivalVars rivals ["a".toList, "b".toList] "item".toList = (["a".toList, "b".toList], 1) ∧
    (filterRunTime rivalVars rivals ["a".toList, "b".toList, "c".toList] "item".toList).2 = 2 := by decide +kernel

end Bb.Prov
