import Verif.Bb.CacheModel
import Verif.Bb.ConfLemmas
/-!
# Nothing old is taken from the cache
-/

namespace Bb.Cache
open Py

namespace Spec

/-- The times of files tell of changes: if a file has the same time at two moments, then nothing has happened to it in
between. -/
def Honest {C : Type} (H : Nat → World C) : Prop :=
  ∀ f t u T, t ≤ u → u ≤ T → (H t).time f = (H T).time f → (H u).content f = (H T).content f

/-- The moments at which a recipe was read: before `T`, and the time of a file is taken before its contents. -/
def Before (T : Nat) (s : List (Nat × Nat)) : Prop := ∀ p, p ∈ s → p.1 ≤ p.2 ∧ p.2 ≤ T

/-- How a recipe is read in a world that does not change. -/
def readIn {C I : Type} (w : World C) : Reader C I → I × List (List Str)
  | .done i files => (i, files)
  | .look f k => readIn w (k (w.content f))

/-- The names of files for checksums: absolute, and `:True` and `:False` not before white space. -/
def Plain (f : Str) : Prop :=
  (∃ t, f = '/' :: t) ∧ ∀ p c q, isWs c = true → f ≠ p ++ ":True".toList ++ c :: q ∧ f ≠ p ++ ":False".toList ++ c :: q

end Spec
open Spec

section
variable {C I : Type}

theorem mem_mark {deps : List (Str × Nat)} {f : Str} {t : Nat} {x : Str × Nat} : x ∈ mark deps f t ↔ x ∈ deps ∨ x = (f, t) := by
  unfold mark
  split
  · rename_i h
    exact ⟨Or.inl, fun hx => hx.elim id fun e => e ▸ h⟩
  · rw [List.mem_append, List.mem_singleton]

theorem read_deps {H : Nat → World C} : ∀ (r : Reader C I) (s : List (Nat × Nat)) (deps : List (Str × Nat)) (x : Str × Nat),
    x ∈ deps → x ∈ (read H s deps r).2.2
  | .done i files, _, _, _, h => h
  | .look f k, s, deps, x, h => read_deps (k _) s.tail _ x (mem_mark.2 (Or.inl h))

theorem headD_before {T : Nat} {s : List (Nat × Nat)} (h : Before T s) : (s.headD (0, 0)).1 ≤ (s.headD (0, 0)).2 ∧ (s.headD (0, 0)).2 ≤ T := by
  cases s with
  | nil => exact ⟨Nat.le_refl _, Nat.zero_le _⟩
  | cons p s => exact h p List.mem_cons_self

/-- If nothing has changed, reading gives the same. -/
theorem read_same {H : Nat → World C} (hh : Honest H) {T : Nat} : ∀ (r : Reader C I) (s : List (Nat × Nat)) (deps : List (Str × Nat)),
    Before T s → (∀ x, x ∈ (read H s deps r).2.2 → (H T).time x.1 = x.2) → (read H s deps r).1 = (readIn (H T) r).1
  | .done i files, _, _, _, _ => rfl
  | .look f k, s, deps, hs, hd => by
    have hb := headD_before hs
    have h1 := read_deps (H := H) (k ((H (s.headD (0, 0)).2).content f)) s.tail (mark deps f ((H (s.headD (0, 0)).1).time f)) _
      (mem_mark.2 (Or.inr rfl))
    have h2 := hd _ h1
    have h3 := hh f _ _ T hb.1 hb.2 h2.symm
    show (read H s.tail (mark deps f ((H (s.headD (0, 0)).1).time f)) (k ((H (s.headD (0, 0)).2).content f))).1 =
      (readIn (H T) (k ((H T).content f))).1
    rw [← h3]
    exact read_same hh _ _ _ (fun p hp => hs p (List.mem_of_mem_tail hp)) hd

/-- The flags that were stored were those of the moment at which reading was done. -/
theorem read_flags {H : Nat → World C} (hh : Honest H) {T : Nat} : ∀ (r : Reader C I) (s : List (Nat × Nat)) (deps : List (Str × Nat)),
    Before T s → (∀ x, x ∈ (read H s deps r).2.2 → (H T).time x.1 = x.2) →
    ∃ u, (read H s deps r).2.1 = (readIn (H T) r).2.map (flags (H u))
  | .done i files, s, _, _, _ => ⟨_, rfl⟩
  | .look f k, s, deps, hs, hd => by
    have hb := headD_before hs
    have h1 := read_deps (H := H) (k ((H (s.headD (0, 0)).2).content f)) s.tail (mark deps f ((H (s.headD (0, 0)).1).time f)) _
      (mem_mark.2 (Or.inr rfl))
    have h2 := hd _ h1
    have h3 := hh f _ _ T hb.1 hb.2 h2.symm
    have ih := read_flags hh (k ((H (s.headD (0, 0)).2).content f)) s.tail _ (fun p hp => hs p (List.mem_of_mem_tail hp)) hd
    show ∃ u, (read H s.tail (mark deps f ((H (s.headD (0, 0)).1).time f)) (k ((H (s.headD (0, 0)).2).content f))).2.1 =
      (readIn (H T) (k ((H T).content f))).2.map (flags (H u))
    rw [← h3]
    exact ih

/-! ## Lists of files -/

theorem flagged_iff {s : Str} : flagged s = true ↔ ∃ p, s = p ++ ":True".toList ∨ s = p ++ ":False".toList := by
  unfold flagged
  rw [Bool.or_eq_true, endsWith_iff, endsWith_iff]
  constructor
  · rintro (⟨p, h⟩ | ⟨p, h⟩)
    · exact ⟨p, Or.inl h⟩
    · exact ⟨p, Or.inr h⟩
  · rintro ⟨p, h | h⟩
    · exact Or.inl ⟨p, h⟩
    · exact Or.inr ⟨p, h⟩

/-- An item is not cut. -/
def Whole (it : Str) : Prop := ∀ a c b, it = a ++ c :: b → isWs c = true → flagged a = false

theorem split_item : ∀ (b a s : Str), Whole (a ++ b) → splitFiles (b ++ s) a false = splitFiles s (a ++ b) false
  | [], a, s, _ => by rw [List.append_nil]; rfl
  | c :: b, a, s, h => by
    rw [List.cons_append, splitFiles]
    have h1 : (isWs c && flagged a) = false := by
      cases hc : isWs c with
      | false => rfl
      | true => exact h a c b rfl hc
    rw [Bool.and_false, if_neg nofun, h1, if_neg nofun, split_item b (a ++ [c]) s (by rw [List.append_assoc]; exact h), List.append_assoc]
    rfl

theorem splitFiles_skip {c : Char} {s : Str} (h : isWs c = false) (cur : Str) : splitFiles (c :: s) cur true = splitFiles (c :: s) cur false := by
  rw [splitFiles, splitFiles, h]
  rfl

theorem split_join : ∀ (its : List Str) (b : Bool), its ≠ [] → (∀ it, it ∈ its → Whole it ∧ flagged it = true ∧ ∃ c t, it = c :: t ∧ isWs c = false) →
    splitFiles (join [' '] its) [] b = its
  | [], _, h, _ => absurd rfl h
  | [it], b, _, h => by
    obtain ⟨h1, h2, c, t, rfl, hc⟩ := h it List.mem_cons_self
    have : splitFiles (c :: t) [] b = splitFiles (c :: t ++ []) [] false := by
      rw [List.append_nil]
      cases b
      · rfl
      · exact splitFiles_skip hc []
    show splitFiles (c :: t) [] b = _
    rw [this, split_item _ _ _ h1]
    rfl
  | it :: it' :: its, b, _, h => by
    obtain ⟨h1, h2, c, t, rfl, hc⟩ := h it List.mem_cons_self
    have ih := split_join (it' :: its) true (List.cons_ne_nil _ _) fun x hx => h x (List.mem_cons_of_mem _ hx)
    show splitFiles (c :: t ++ [' '] ++ join [' '] (it' :: its)) [] b = _
    have e : splitFiles (c :: t ++ [' '] ++ join [' '] (it' :: its)) [] b =
        splitFiles (c :: t ++ (' ' :: join [' '] (it' :: its))) [] false := by
      rw [List.append_assoc]
      cases b
      · rfl
      · exact splitFiles_skip hc []
    rw [e, split_item _ _ _ h1, List.nil_append, splitFiles, h2, Bool.and_false, if_neg nofun, if_pos (by decide), ih]

theorem flag_suffix (b : Bool) : ∃ x, (if b then ":True".toList else ":False".toList) = ':' :: x ∧ ':' ∉ x ∧ ∀ c, c ∈ x → isWs c = false := by
  cases b
  · exact ⟨"False".toList, rfl, by decide, by decide⟩
  · exact ⟨"True".toList, rfl, by decide, by decide⟩

theorem flagged_flag (f : Str) (b : Bool) : flagged (flag f b) = true := by
  rw [flagged_iff]
  cases b
  · exact ⟨f, Or.inr rfl⟩
  · exact ⟨f, Or.inl rfl⟩

theorem whole_flag {f : Str} (h : Plain f) (b : Bool) : Whole (flag f b) := by
  intro a c q e hc
  rw [Bool.eq_false_iff]
  intro hf
  obtain ⟨x, hx, -, hw⟩ := flag_suffix b
  unfold flag at e
  rw [hx] at e
  rcases List.append_eq_append_iff.1 e with ⟨z, h1, h2⟩ | ⟨z, h1, h2⟩
  · -- the white space is in the flag
    have hm : c ∈ ':' :: x := h2 ▸ List.mem_append_right _ List.mem_cons_self
    rcases List.mem_cons.1 hm with hm | hm
    · rw [hm] at hc; exact absurd hc (by decide)
    · rw [hw c hm] at hc; cases hc
  · cases z with
    | nil =>
      rw [List.nil_append] at h2
      injection h2 with h2 h3
      rw [h2] at hc
      exact absurd hc (by decide)
    | cons d z =>
      rw [List.cons_append] at h2
      injection h2 with h2 h3
      rw [← h2] at h1
      obtain ⟨p, hp⟩ := flagged_iff.1 hf
      rcases hp with hp | hp
      · exact (h.2 p c z hc).1 (by rw [h1, hp])
      · exact (h.2 p c z hc).2 (by rw [h1, hp])

theorem flag_head {f : Str} (h : Plain f) (b : Bool) : ∃ c t, flag f b = c :: t ∧ isWs c = false := by
  obtain ⟨⟨t, rfl⟩, -⟩ := h
  exact ⟨'/', _, rfl, by decide⟩

theorem rsplit_flag (f : Str) (b : Bool) : rsplit (flag f b) = some (f, if b then "True".toList else "False".toList) := by
  have key : ∀ x : Str, ':' ∉ x → rsplit (f ++ ':' :: x) = some (f, x) := by
    intro x hx
    unfold rsplit
    rw [if_pos (List.mem_append_right _ List.mem_cons_self)]
    have h1 : (f ++ ':' :: x).reverse = x.reverse ++ ':' :: f.reverse := by
      rw [List.reverse_append, List.reverse_cons, List.append_assoc]
      rfl
    have h2 : ':' ∉ x.reverse := fun h => hx (List.mem_reverse.1 h)
    have h3 : ∀ (y z : Str), ':' ∉ y → (y ++ ':' :: z).takeWhile (· != ':') = y ∧ (y ++ ':' :: z).dropWhile (· != ':') = ':' :: z := by
      intro y z hy
      induction y with
      | nil => exact ⟨rfl, rfl⟩
      | cons c y ih =>
        have hc : (c != ':') = true := bne_iff_ne.2 fun e => hy (e ▸ List.mem_cons_self)
        have ih := ih fun hm => hy (List.mem_cons_of_mem _ hm)
        rw [List.cons_append, List.takeWhile_cons, List.dropWhile_cons, if_pos hc, if_pos hc, ih.1]
        exact ⟨rfl, ih.2⟩
    rw [h1, (h3 _ _ h2).1, (h3 _ _ h2).2, List.tail_cons, List.reverse_reverse, List.reverse_reverse]
  cases b
  · exact key "False".toList (by decide)
  · exact key "True".toList (by decide)

theorem flag_ne_nil (f : Str) (b : Bool) : flag f b ≠ [] := by
  obtain ⟨x, hx, -⟩ := flag_suffix b
  unfold flag
  rw [hx]
  simp

theorem filesChanged_flags {w w' : World C} : ∀ {files : List Str},
    filesChanged w' (files.map fun f => flag f (w.has f)) = some (files.any fun f => w.has f != w'.has f)
  | [] => rfl
  | f :: fs => by
    rw [List.map_cons, filesChanged, if_neg (flag_ne_nil _ _), rsplit_flag]
    dsimp only
    rw [filesChanged_flags, List.any_cons]
    have ht : ("True".toList : Str) ≠ "False".toList := by decide
    cases h1 : w.has f <;> cases h2 : w'.has f
    · rw [if_neg (by rintro (⟨h, -⟩ | ⟨-, h⟩); exact absurd h (Ne.symm ht); cases h)]; rfl
    · rw [if_pos (Or.inr ⟨rfl, rfl⟩)]; rfl
    · rw [if_pos (Or.inl ⟨rfl, rfl⟩)]; rfl
    · rw [if_neg (by rintro (⟨-, h⟩ | ⟨h, -⟩); cases h; exact absurd h ht)]; rfl

theorem strip_id {s : Str} (h1 : ∀ c t, s = c :: t → isWs c = false) (h2 : ∀ c t, s = t ++ [c] → isWs c = false) : strip s = s := by
  unfold strip
  have e : lstrip s = s := by
    unfold lstrip
    cases s with
    | nil => rfl
    | cons c t => rw [List.dropWhile_cons, if_neg (by rw [h1 c t rfl]; exact nofun)]
  rw [e]
  unfold rstrip
  cases hr : s.reverse with
  | nil =>
    have : s = [] := by rw [← List.reverse_reverse s, hr]; rfl
    rw [this]; rfl
  | cons c t =>
    have hs : s = t.reverse ++ [c] := by rw [← List.reverse_reverse s, hr, List.reverse_cons]
    rw [List.dropWhile_cons, if_neg (by rw [h2 c _ hs]; exact nofun), ← hr, List.reverse_reverse]

theorem join_last : ∀ (its : List Str), its ≠ [] → ∃ p it, it ∈ its ∧ join [' '] its = p ++ it
  | [], h => absurd rfl h
  | [it], _ => ⟨[], it, List.mem_cons_self, rfl⟩
  | it :: it' :: its, _ => by
    obtain ⟨p, x, hx, e⟩ := join_last (it' :: its) (List.cons_ne_nil _ _)
    exact ⟨it ++ [' '] ++ p, x, List.mem_cons_of_mem _ hx, by
      show it ++ [' '] ++ join [' '] (it' :: its) = _
      rw [e, ← List.append_assoc]⟩

theorem join_first : ∀ (its : List Str), its ≠ [] → ∃ p it, it ∈ its ∧ join [' '] its = it ++ p
  | [], h => absurd rfl h
  | [it], _ => ⟨[], it, List.mem_cons_self, (List.append_nil _).symm⟩
  | it :: it' :: its, _ => ⟨_, it, List.mem_cons_self, List.append_assoc ..⟩

theorem flag_last (f : Str) (b : Bool) : ∃ t, flag f b = t ++ ['e'] := by
  cases b
  · exact ⟨f ++ ":Fals".toList, by rw [List.append_assoc]; rfl⟩
  · exact ⟨f ++ ":Tru".toList, by rw [List.append_assoc]; rfl⟩

theorem strip_flags {w : World C} {files : List Str} (h : ∀ f, f ∈ files → Plain f) : strip (flags w files) = flags w files := by
  by_cases h0 : files = []
  · rw [h0]; rfl
  have hne : (files.map fun f => flag f (w.has f)) ≠ [] := fun e => h0 (List.map_eq_nil_iff.1 e)
  refine strip_id ?_ ?_
  · intro c t e
    obtain ⟨p, it, hm, e2⟩ := join_first _ hne
    obtain ⟨f, hf, rfl⟩ := List.mem_map.1 hm
    obtain ⟨d, u, h1, h2⟩ := flag_head (h f hf) (w.has f)
    have e3 : c :: t = d :: (u ++ p) := by
      rw [← e]
      exact e2.trans (by rw [h1]; rfl)
    injection e3 with e3 _
    rw [e3]
    exact h2
  · intro c t e
    obtain ⟨p, it, hm, e2⟩ := join_last _ hne
    obtain ⟨f, hf, rfl⟩ := List.mem_map.1 hm
    obtain ⟨u, hu⟩ := flag_last f (w.has f)
    have e3 : t ++ [c] = (p ++ u) ++ ['e'] := by
      rw [← e, List.append_assoc, ← hu]
      exact e2
    have := (List.append_inj' e3 rfl).2
    injection this with this _
    rw [this]
    decide

/-- The check of files whose checksums count: whether one has come or gone. -/
theorem checksums_exact {w w' : World C} : ∀ {tasks : List (List Str)}, (∀ fs, fs ∈ tasks → ∀ f, f ∈ fs → Plain f) →
    checksumsChanged w' (tasks.map (flags w)) = some (tasks.any fun fs => fs.any fun f => w.has f != w'.has f)
  | [], _ => rfl
  | fs :: tasks, h => by
    have ih := checksums_exact (w := w) (w' := w') fun x hx => h x (List.mem_cons_of_mem _ hx)
    have hp := h fs List.mem_cons_self
    rw [List.map_cons, checksumsChanged, strip_flags hp, ih, List.any_cons]
    by_cases h0 : fs = []
    · rw [h0]; rfl
    · have hne : (fs.map fun f => flag f (w.has f)) ≠ [] := fun e => h0 (List.map_eq_nil_iff.1 e)
      have hj : flags w fs ≠ [] := by
        obtain ⟨p, it, hm, e2⟩ := join_first _ hne
        obtain ⟨f, hf, rfl⟩ := List.mem_map.1 hm
        intro e
        have : flag f (w.has f) ++ p = [] := e2.symm.trans e
        exact flag_ne_nil _ _ (List.append_eq_nil_iff.1 this).1
      have hs : splitFiles (flags w fs) [] false = fs.map fun f => flag f (w.has f) := by
        refine split_join _ false hne fun it hit => ?_
        obtain ⟨f, hf, rfl⟩ := List.mem_map.1 hit
        exact ⟨whole_flag (hp f hf) _, flagged_flag _ _, flag_head (hp f hf) _⟩
      rw [if_neg hj, hs, filesChanged_flags]
      cases fs.any fun f => w.has f != w'.has f <;> rfl

theorem dependsChanged_iff {w : World C} {deps : List (Str × Nat)} : dependsChanged w deps = false ↔ ∀ x, x ∈ deps → w.time x.1 = x.2 := by
  unfold dependsChanged
  rw [List.any_eq_false]
  refine forall_congr' fun x => forall_congr' fun _ => ?_
  constructor
  · intro h
    rw [Bool.or_eq_true, not_or] at h
    exact Classical.not_not.1 fun e => h.2 (bne_iff_ne.2 e)
  · intro h hx
    rw [h, Bool.or_eq_true, Bool.and_eq_true, bne_iff_ne, beq_iff_eq, bne_iff_ne] at hx
    rcases hx with ⟨h1, h2⟩ | h2
    · exact h1 h2
    · exact h2 rfl

/-! ## What is valid -/

/-- When an entry is found to be valid. -/
theorem valid_iff {w : World C} {n : Nat} {fn : Str} {appends : List Str} {st : St I} (hc : fn ∉ st.checked) (hcl : fn ∉ st.clean) :
    (∃ st', valid w n fn appends st = some (st', true)) ↔
      ∃ e, st.cached.lookup fn = some e ∧ w.time fn ≠ 0 ∧ w.time fn = e.1.timestamp ∧ (∀ x, x ∈ e.1.depends → w.time x.1 = x.2) ∧
        checksumsChanged w e.1.checksums = some false ∧ appends = e.1.appends ∧
        ∀ v, v ∈ e.1.variants → ∃ e', st.cached.lookup (Virt.ofVariant fn v) = some (e', n) := by
  unfold valid
  rw [if_neg hc]
  unfold validUpdate
  dsimp only
  cases hl : st.cached.lookup fn with
  | none =>
    dsimp only
    rw [decide_eq_false hcl]
    exact ⟨fun ⟨_, h⟩ => (by injection h with h; injection h with _ h; cases h), fun ⟨_, h, _⟩ => (nomatch h)⟩
  | some e =>
    obtain ⟨info, m⟩ := e
    dsimp only
    have hrm : ∀ st0 : St I, fn ∉ (remove st0 fn).clean := fun st0 h => by
      have := (List.mem_filter.1 h).2
      exact of_decide_eq_true this rfl
    have no : ∀ {P : Prop}, ¬ P → ((∃ st', some (remove { st with checked := fn :: st.checked } fn,
        decide (fn ∈ (remove { st with checked := fn :: st.checked } fn).clean)) = some (st', true)) ↔ P) := by
      intro P hP
      rw [decide_eq_false (hrm _)]
      exact ⟨fun ⟨_, h⟩ => (by injection h with h; injection h with _ h; cases h), fun h => absurd h hP⟩
    by_cases h1 : w.time fn = 0
    · rw [if_pos h1]
      exact no fun ⟨e, he, h, _⟩ => h h1
    rw [if_neg h1]
    by_cases h2 : w.time fn = info.timestamp
    · rw [if_neg (fun h => h h2)]
      by_cases h3 : dependsChanged w info.depends = true
      · rw [if_pos h3]
        refine no ?_
        rintro ⟨e, he, -, -, h, -⟩
        injection he with he
        rw [← he, ← dependsChanged_iff, h3] at h
        cases h
      · rw [if_neg h3]
        have h3' := dependsChanged_iff.1 (Bool.eq_false_iff.2 h3)
        cases h4 : checksumsChanged w info.checksums with
        | none =>
          dsimp only
          refine ⟨fun ⟨_, h⟩ => (nomatch h), ?_⟩
          rintro ⟨e, he, -, -, -, h, -⟩
          injection he with he
          rw [← he, h4] at h
          cases h
        | some b =>
          cases b with
          | true =>
            dsimp only
            refine no ?_
            rintro ⟨e, he, -, -, -, h, -⟩
            injection he with he
            rw [← he, h4] at h
            cases h
          | false =>
            dsimp only
            by_cases h5 : appends = info.appends
            · rw [if_neg (fun h => h h5)]
              by_cases h6 : ((info.variants.map (Virt.ofVariant fn)).any fun v => (st.cached.lookup v).map (·.2) ≠ some n) = true
              · rw [if_pos h6]
                dsimp only
                have : fn ∉ (st.clean ++ info.variants.map (Virt.ofVariant fn)).filter
                    (fun x => x ∉ info.variants.map (Virt.ofVariant fn) ∧ x ≠ fn) := fun h => by
                  have := of_decide_eq_true (List.mem_filter.1 h).2
                  exact this.2 rfl
                rw [decide_eq_false this]
                refine ⟨fun ⟨_, h⟩ => (by injection h with h; injection h with _ h; cases h), ?_⟩
                rintro ⟨e, he, -, -, -, -, -, h⟩
                injection he with he
                obtain ⟨x, hx, hx2⟩ := List.any_eq_true.1 h6
                obtain ⟨v, hv, rfl⟩ := List.mem_map.1 hx
                obtain ⟨e', he'⟩ := h v (he ▸ hv)
                rw [he'] at hx2
                exact absurd rfl (of_decide_eq_true hx2)
              · rw [if_neg h6]
                dsimp only
                have : fn ∈ st.clean ++ info.variants.map (Virt.ofVariant fn) ++ [fn] := List.mem_append_right _ List.mem_cons_self
                rw [decide_eq_true this]
                refine ⟨fun _ => ⟨(info, m), rfl, h1, h2, h3', h4, h5, ?_⟩, fun _ => ⟨_, rfl⟩⟩
                intro v hv
                have h7 := List.any_eq_false.1 (Bool.eq_false_iff.2 h6) _ (List.mem_map.2 ⟨v, hv, rfl⟩)
                rw [decide_eq_true_eq] at h7
                have h8 := Classical.not_not.1 h7
                cases hx : st.cached.lookup (Virt.ofVariant fn v) with
                | none => rw [hx] at h8; cases h8
                | some e' =>
                  rw [hx] at h8
                  injection h8 with h8
                  exact ⟨e'.1, by rw [← h8]⟩
            · rw [if_pos h5]
              refine no ?_
              rintro ⟨e, he, -, -, -, -, h, -⟩
              injection he with he
              rw [← he] at h
              exact h5 h
    · rw [if_pos h2]
      refine no ?_
      rintro ⟨e, he, -, h, -⟩
      injection he with he
      rw [← he] at h
      exact h2 h

theorem checked_update {w : World C} {n : Nat} {fn : Str} {appends : List Str} {st st' : St I} {b : Bool}
    (h : validUpdate w n fn appends st = some (st', b)) : fn ∈ st'.checked := by
  unfold validUpdate at h
  dsimp only at h
  have hr : ∀ st0 : St I, fn ∈ st0.checked → fn ∈ (remove st0 fn).checked := fun _ h => h
  repeat' split at h
  all_goals
    first
    | (injection h with h; injection h with h _; rw [← h]; exact List.mem_cons_self)
    | cases h

/-- C147: within a run, the answer for a recipe stays the same, whatever is changed meanwhile. -/
theorem asked_again {w w' : World C} {n n' : Nat} {fn : Str} {appends appends' : List Str} {st st' : St I} {b : Bool}
    (h : valid w n fn appends st = some (st', b)) : valid w' n' fn appends' st' = some (st', b) := by
  unfold valid at h
  split at h
  · rename_i hc
    injection h with h
    injection h with h1 h2
    subst h1
    unfold valid
    rw [if_pos hc, h2]
  · cases hu : validUpdate w n fn appends st with
    | none => rw [hu] at h; cases h
    | some p =>
      rw [hu] at h
      dsimp only at h
      injection h with h
      injection h with h1 h2
      unfold valid
      rw [if_pos (h1 ▸ checked_update (st' := p.1) (b := p.2) hu), ← h1, h2]

/-- C147: an entry that is old is taken out of the cache, so that it is not written again. -/
theorem old_removed {w : World C} {n : Nat} {fn : Str} {appends : List Str} {st st' : St I} {b : Bool} {e : Info I × Nat}
    (hc : fn ∉ st.checked) (he : st.cached.lookup fn = some e) (h : valid w n fn appends st = some (st', b))
    (hold : w.time fn = 0 ∨ w.time fn ≠ e.1.timestamp ∨ (∃ x, x ∈ e.1.depends ∧ w.time x.1 ≠ x.2) ∨
      checksumsChanged w e.1.checksums = some true ∨ appends ≠ e.1.appends) : st'.cached.lookup fn = none ∧ b = false := by
  have hrm : ∀ st0 : St I, (remove st0 fn).cached.lookup fn = none ∧ decide (fn ∈ (remove st0 fn).clean) = false := by
    intro st0
    refine ⟨?_, decide_eq_false fun hm => of_decide_eq_true (List.mem_filter.1 hm).2 rfl⟩
    show (st0.cached.del fn).lookup fn = none
    rw [Dict.lookup_del, if_pos rfl]
  unfold valid at h
  rw [if_neg hc] at h
  unfold validUpdate at h
  dsimp only at h
  rw [he] at h
  dsimp only at h
  have fin : ∀ {st0 : St I}, some (remove st0 fn, decide (fn ∈ (remove st0 fn).clean)) = some (st', b) →
      st'.cached.lookup fn = none ∧ b = false := by
    intro st0 h
    injection h with h
    injection h with h1 h2
    rw [← h1, ← h2]
    exact hrm st0
  by_cases h1 : w.time fn = 0
  · rw [if_pos h1] at h; exact fin h
  rw [if_neg h1] at h
  by_cases h2 : w.time fn = e.1.timestamp
  · rw [if_neg (fun h => h h2)] at h
    by_cases h3 : dependsChanged w e.1.depends = true
    · rw [if_pos h3] at h; exact fin h
    · rw [if_neg h3] at h
      have h3' := dependsChanged_iff.1 (Bool.eq_false_iff.2 h3)
      cases h4 : checksumsChanged w e.1.checksums with
      | none => rw [h4] at h; cases h
      | some c =>
        cases c with
        | true => rw [h4] at h; exact fin h
        | false =>
          rw [h4] at h
          dsimp only at h
          have h5 : appends ≠ e.1.appends := by
            rcases hold with hx | hx | ⟨x, hx, hx2⟩ | hx | hx
            · exact absurd hx h1
            · exact absurd h2 hx
            · exact absurd (h3' x hx) hx2
            · rw [h4] at hx; injection hx with hx; cases hx
            · exact hx
          rw [if_pos h5] at h
          exact fin h
  · rw [if_pos h2] at h; exact fin h

/-! ## The cache and the files -/

/-- A recipe with its variants, and the moments at which they were read. -/
structure Recipe (C I : Type) where
  base : List Str → Reader C I
  variants : List (Str × (List Str → Reader C I))

/-- What is stored for a recipe that was read: its entry and that of the variants. -/
def stored (H : Nat → World C) (r : Recipe C I) (appends : List Str) (t : Nat) (s : List (Nat × Nat)) (sv : Str → List (Nat × Nat)) : Info I :=
  entry t appends (r.variants.map fun v => (v.1, read H (sv v.1) [] (v.2 appends))) (read H s [] (r.base appends))

/-- C147: if an entry is found to be valid, then reading the recipe again would give what was read before, for the recipe and
for each of its variants, and with the same flags for the recipe; whatever was changed, and when, also while the recipe
was read. -/
theorem nothing_old {H : Nat → World C} (hh : Honest H) {T : Nat} {r : Recipe C I} {appends appends' : List Str} {t : Nat}
    {s : List (Nat × Nat)} {sv : Str → List (Nat × Nat)} (hs : Before T s) (hsv : ∀ v, Before T (sv v)) {n m : Nat} {fn : Str} {st : St I}
    (hc : fn ∉ st.checked) (hcl : fn ∉ st.clean) (hst : st.cached.lookup fn = some (stored H r appends' t s sv, m))
    {st' : St I} (hv : valid (H T) n fn appends st = some (st', true)) :
    (read H s [] (r.base appends')).1 = (readIn (H T) (r.base appends)).1 ∧
    (∀ v, v ∈ r.variants → (read H (sv v.1) [] (v.2 appends')).1 = (readIn (H T) (v.2 appends)).1) ∧
    ((∀ fs, fs ∈ (readIn (H T) (r.base appends)).2 → ∀ f, f ∈ fs → Plain f) →
      (read H s [] (r.base appends')).2.1 = (readIn (H T) (r.base appends)).2.map (flags (H T))) := by
  obtain ⟨e, he, -, -, hd, hk, ha, -⟩ := (valid_iff hc hcl).1 ⟨st', hv⟩
  rw [hst] at he
  injection he with he
  subst he
  have ha : appends = appends' := ha
  subst ha
  have hb : ∀ x, x ∈ (read H s [] (r.base appends)).2.2 → (H T).time x.1 = x.2 :=
    fun x hx => hd x (List.mem_append_right _ hx)
  refine ⟨read_same hh _ _ _ hs hb, ?_, ?_⟩
  · intro v hvm
    refine read_same hh _ _ _ (hsv v.1) fun x hx => hd x (List.mem_append_left _ ?_)
    exact List.mem_flatMap.2 ⟨_, List.mem_map.2 ⟨v, hvm, rfl⟩, hx⟩
  · intro hp
    obtain ⟨u, hu⟩ := read_flags hh _ _ _ hs hb
    have hk : checksumsChanged (H T) (read H s [] (r.base appends)).2.1 = some false := hk
    rw [hu] at hk ⊢
    rw [checksums_exact hp] at hk
    injection hk with hk
    refine List.map_congr_left fun fs hfs => ?_
    unfold flags
    congr 1
    refine List.map_congr_left fun f hf => ?_
    have h1 := List.any_eq_false.1 hk fs hfs
    have h2 := List.any_eq_false.1 (Bool.eq_false_iff.2 h1) f hf
    have h3 : (H u).has f = (H T).has f := by
      cases h4 : (H u).has f <;> cases h5 : (H T).has f <;> rw [h4, h5] at h2 <;> first | rfl | exact absurd rfl h2
    rw [h3]

/-- C147: a recipe is not read again if nothing has changed. -/
theorem nothing_new {H : Nat → World C} (hh : Honest H) {T : Nat} {r : Recipe C I} {appends : List Str} {t : Nat}
    {s : List (Nat × Nat)} {sv : Str → List (Nat × Nat)} (hs : Before T s) {n m : Nat} {fn : Str} {st : St I}
    (hc : fn ∉ st.checked) (hcl : fn ∉ st.clean) (hst : st.cached.lookup fn = some (stored H r appends t s sv, m))
    (hall : ∀ v, v ∈ [] :: r.variants.map (·.1) → ∃ e, st.cached.lookup (Virt.ofVariant fn v) = some (e, n))
    (ht : (H T).time fn = t) (h0 : t ≠ 0)
    (hd : ∀ x, x ∈ (read H s [] (r.base appends)).2.2 ∨ (∃ v, v ∈ r.variants ∧ x ∈ (read H (sv v.1) [] (v.2 appends)).2.2) → (H T).time x.1 = x.2)
    (hp : ∀ fs, fs ∈ (readIn (H T) (r.base appends)).2 → ∀ f, f ∈ fs → Plain f ∧ ∀ u, u ≤ T → (H u).has f = (H T).has f) :
    ∃ st', valid (H T) n fn appends st = some (st', true) := by
  refine (valid_iff hc hcl).2 ⟨_, hst, ht ▸ h0, ht, ?_, ?_, rfl, ?_⟩
  · intro x hx
    rcases List.mem_append.1 hx with hx | hx
    · obtain ⟨y, hy, hx⟩ := List.mem_flatMap.1 hx
      obtain ⟨v, hv, rfl⟩ := List.mem_map.1 hy
      exact hd x (Or.inr ⟨v, hv, hx⟩)
    · exact hd x (Or.inl hx)
  · have hb : ∀ x, x ∈ (read H s [] (r.base appends)).2.2 → (H T).time x.1 = x.2 := fun x hx => hd x (Or.inl hx)
    have key : ∀ (rd : Reader C I) (s : List (Nat × Nat)) (deps : List (Str × Nat)), Before T s →
        (∀ x, x ∈ (read H s deps rd).2.2 → (H T).time x.1 = x.2) →
        ∃ u, u ≤ T ∧ (read H s deps rd).2.1 = (readIn (H T) rd).2.map (flags (H u)) := by
      intro rd
      induction rd with
      | done i files => intro s deps hs _; exact ⟨_, Nat.le_trans (headD_before hs).1 (headD_before hs).2, rfl⟩
      | look f k ih =>
        intro s deps hs hd
        have hb := headD_before hs
        have h1 := read_deps (H := H) (k ((H (s.headD (0, 0)).2).content f)) s.tail (mark deps f ((H (s.headD (0, 0)).1).time f)) _
          (mem_mark.2 (Or.inr rfl))
        have h3 := hh f _ _ T hb.1 hb.2 (hd _ h1).symm
        have ih := ih ((H (s.headD (0, 0)).2).content f) s.tail _ (fun p hp => hs p (List.mem_of_mem_tail hp)) hd
        show ∃ u, u ≤ T ∧ (read H s.tail (mark deps f ((H (s.headD (0, 0)).1).time f)) (k ((H (s.headD (0, 0)).2).content f))).2.1 =
          (readIn (H T) (k ((H T).content f))).2.map (flags (H u))
        rw [← h3]
        exact ih
    obtain ⟨u, huT, hu⟩ := key _ _ _ hs hb
    show checksumsChanged (H T) (read H s [] (r.base appends)).2.1 = some false
    rw [hu, checksums_exact fun fs hfs f hf => (hp fs hfs f hf).1]
    congr 1
    rw [List.any_eq_false]
    intro fs hfs hx
    obtain ⟨f, hf, h⟩ := List.any_eq_true.1 hx
    rw [(hp fs hfs f hf).2 u huT] at h
    exact bne_iff_ne.1 h rfl
  · intro v hv
    have hv : v ∈ (r.variants.map fun v => (v.1, read H (sv v.1) [] (v.2 appends))).map (·.1) ++ [[]] := hv
    refine hall v ?_
    rcases List.mem_append.1 hv with hv | hv
    · rw [List.map_map] at hv
      exact List.mem_cons_of_mem _ hv
    · rw [List.mem_singleton.1 hv]
      exact List.mem_cons_self

end

/-! ## A recipe -/

def fn : Str := "/w/a_1.bb".toList
def inc : Str := "/w/a.inc".toList
def patch : Str := "/w/fix:1 b.patch".toList

/-- A recipe that includes a file if it is there; its number is what it finds in them. -/
def recipe : Recipe Nat Nat where
  base := fun _ => .look fn fun a => .look inc fun b => .done (a.getD 0 + b.getD 0) [[patch]]
  variants := [("native".toList, fun _ => .look fn fun a => .look patch fun b => .done (a.getD 0 + b.getD 0) [[]])]

/-- The included file comes at moment 2. -/
def history : Nat → World Nat := fun t =>
  { content := fun f => if f = fn then some 40 else if f = patch then some 1 else if f = inc ∧ 2 ≤ t then some 2 else none
    time := fun f => if f = fn then 5 else if f = patch then 6 else if f = inc ∧ 2 ≤ t then 7 else 0 }

def info0 : Info Nat := stored history recipe [] 5 [(0, 0), (0, 1)] (fun _ => [(0, 1)])
def st0 : St Nat := ⟨[(fn, info0, 1), (Virt.ofVariant fn "native".toList, info0, 1)], [], []⟩

example : info0.depends = [(fn, 5), (patch, 6), (fn, 5), (inc, 0)] ∧ info0.checksums = ["/w/fix:1 b.patch:True".toList] ∧
    info0.variants = ["native".toList, []] := by decide +kernel
example : (valid (history 1) 1 fn [] st0).map (·.2) = some true := by decide +kernel
example : (valid (history 2) 1 fn [] st0).map (·.2) = some false := by decide +kernel
example : Honest history := by
  intro f t u T h1 h2 h
  dsimp only [history] at h ⊢
  by_cases hf : f = fn
  · rw [if_pos hf, if_pos hf]
  · by_cases hp : f = patch
    · rw [if_neg hf, if_neg hf, if_pos hp, if_pos hp]
    · rw [if_neg hf, if_neg hf, if_neg hp, if_neg hp] at h ⊢
      by_cases hi : f = inc
      · by_cases ht : 2 ≤ t
        · rw [if_pos ⟨hi, by omega⟩, if_pos ⟨hi, by omega⟩]
        · by_cases hT : 2 ≤ T
          · rw [if_neg (fun h => ht h.2), if_pos ⟨hi, hT⟩] at h
            cases h
          · rw [if_neg (fun h => hT (by omega)), if_neg (fun h => hT h.2)]
      · rw [if_neg (fun h => hi h.1), if_neg (fun h => hi h.1)]
example : Plain patch := by
  refine ⟨⟨_, rfl⟩, fun p c q hc => ⟨fun e => ?_, fun e => ?_⟩⟩
  · have : isSub ":True".toList patch = true := isSub_iff.2 ⟨p, c :: q, e⟩
    exact absurd this (by decide)
  · have : isSub ":False".toList patch = true := isSub_iff.2 ⟨p, c :: q, e⟩
    exact absurd this (by decide)

/-- Against C147: a change within the same second is not seen.  Times are whole seconds. -/
theorem same_second : ∃ (H : Nat → World Nat) (info : Info Nat), info = stored H recipe [] 5 [] (fun _ => []) ∧
    (valid (H 1) 1 fn [] ⟨[(fn, info, 1), (Virt.ofVariant fn "native".toList, info, 1)], [], []⟩).map (·.2) = some true ∧
    info.info ≠ (readIn (H 1) (recipe.base [])).1 := by
  refine ⟨fun t => { content := fun f => if f = fn then some t else none, time := fun f => if f = fn then 5 else 0 }, _, rfl, ?_, ?_⟩ <;>
    decide +kernel

/-- A recipe with a variant that has a file of its own. -/
def recipe2 : Recipe Nat Nat where
  base := fun _ => .look fn fun _ => .done 0 [[]]
  variants := [("native".toList, fun _ => .look fn fun _ => .done 0 [[patch]])]

/-- Against C147: only the lists of files of the recipe itself are looked at, not those of its variants.  A file of a variant
that has gone is not seen. -/
theorem variant_files : ∃ (H : Nat → World Nat) (info : Info Nat), Honest H ∧ info = stored H recipe2 [] 5 [] (fun _ => []) ∧
    (valid (H 1) 1 fn [] ⟨[(fn, info, 1), (Virt.ofVariant fn "native".toList, info, 1)], [], []⟩).map (·.2) = some true ∧
    ∀ v, v ∈ recipe2.variants → (read H [] [] (v.2 [])).2.1 ≠ (readIn (H 1) (v.2 [])).2.map (flags (H 1)) := by
  refine ⟨fun t => { content := fun f => if f = fn then some 1 else if f = patch ∧ t = 0 then some 1 else none
                     time := fun f => if f = fn then 5 else if f = patch ∧ t = 0 then 1 else 0 }, _, ?_, rfl, ?_, ?_⟩
  · intro f t u T h1 h2 h
    dsimp only at h ⊢
    by_cases hf : f = fn
    · rw [if_pos hf, if_pos hf]
    · rw [if_neg hf, if_neg hf] at h ⊢
      by_cases hp : f = patch
      · by_cases ht : t = 0
        · rw [if_pos ⟨hp, ht⟩] at h
          by_cases hT : T = 0
          · rw [if_pos ⟨hp, by omega⟩, if_pos ⟨hp, hT⟩]
          · rw [if_neg (fun h => hT h.2)] at h
            cases h
        · rw [if_neg (fun h => ht (by omega)), if_neg (fun h => ht (by omega))]
      · rw [if_neg (fun h => hp h.1), if_neg (fun h => hp h.1)]
  · decide +kernel
  · intro v hv
    rw [List.mem_singleton.1 hv]
    decide +kernel

end Bb.Cache
