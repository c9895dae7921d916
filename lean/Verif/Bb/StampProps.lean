import Verif.Bb.StampModel
import Verif.Meta.SsInstProps
import Verif.Meta.ContainerProps

/-
When a task counts as run (C173, C174).
-/

namespace Bb.Stamp
open Py Meta.SsInst Meta.Container

/-! ### Patterns -/

theorem star_iff {f : Str → Bool} : ∀ {n : Str}, star f n = true ↔ ∃ a b, n = a ++ b ∧ '/' ∉ a ∧ f b = true
  | [] => by
    constructor
    · exact fun h => ⟨[], [], rfl, List.not_mem_nil, h⟩
    · rintro ⟨a, b, e, -, h⟩
      rw [(List.append_eq_nil_iff.1 e.symm).2] at h
      exact h
  | c :: n => by
    unfold star
    rw [Bool.or_eq_true, Bool.and_eq_true, star_iff (n := n), bne_iff_ne]
    constructor
    · rintro (h | ⟨hc, a, b, e, ha, h⟩)
      · exact ⟨[], c :: n, rfl, List.not_mem_nil, h⟩
      · exact ⟨c :: a, b, by rw [e]; rfl, fun hm => (List.mem_cons.1 hm).elim (fun e => hc e.symm) ha, h⟩
    · rintro ⟨a, b, e, ha, h⟩
      cases a with
      | nil => exact .inl (by rw [show c :: n = b from e]; exact h)
      | cons x a =>
        obtain ⟨rfl, e2⟩ := List.cons.inj e
        exact .inr ⟨fun e => ha (e ▸ List.mem_cons_self), a, b, e2, fun hm => ha (List.mem_cons_of_mem _ hm), h⟩

theorem glob_lit : ∀ {p q n : Str}, '*' ∉ p → (glob (p ++ q) n = true ↔ ∃ m, n = p ++ m ∧ glob q m = true)
  | [], q, n, _ => ⟨fun h => ⟨n, rfl, h⟩, fun ⟨m, e, h⟩ => by rw [e]; exact h⟩
  | c :: p, q, n, h => by
    have hc : c ≠ '*' := fun e => h (e ▸ List.mem_cons_self)
    have hp : '*' ∉ p := fun hm => h (List.mem_cons_of_mem _ hm)
    rw [List.cons_append]
    cases n with
    | nil =>
      have e : glob (c :: (p ++ q)) [] = false := by conv => lhs; unfold glob
                                                     rw [if_neg hc]
      rw [e]
      constructor
      · exact fun h => nomatch h
      · exact fun ⟨m, e, _⟩ => nomatch e
    | cons d n =>
      have e : glob (c :: (p ++ q)) (d :: n) = (c == d && glob (p ++ q) n) := by conv => lhs; unfold glob
                                                                                 rw [if_neg hc]
      rw [e, Bool.and_eq_true, beq_iff_eq, glob_lit hp]
      constructor
      · rintro ⟨rfl, m, rfl, h⟩; exact ⟨m, rfl, h⟩
      · rintro ⟨m, e, hm⟩
        obtain ⟨rfl, rfl⟩ := List.cons.inj e
        exact ⟨rfl, m, rfl, hm⟩

theorem glob_mask {p s n : Str} (hp : '*' ∉ p) (hs : '*' ∉ s) : glob (p ++ '*' :: s) n = true ↔ ∃ m, n = p ++ m ++ s ∧ '/' ∉ m := by
  rw [glob_lit hp]
  constructor
  · rintro ⟨x, rfl, h⟩
    unfold glob at h
    rw [if_pos rfl, star_iff] at h
    obtain ⟨a, b, rfl, ha, h⟩ := h
    rw [← List.append_nil s, glob_lit hs] at h
    obtain ⟨m, rfl, h⟩ := h
    have : m = [] := by cases m with | nil => rfl | cons => exact nomatch h
    subst this
    exact ⟨a, by rw [List.append_nil, List.append_assoc], ha⟩
  · rintro ⟨m, rfl, hm⟩
    refine ⟨m ++ s, by rw [List.append_assoc], ?_⟩
    unfold glob
    rw [if_pos rfl, star_iff]
    refine ⟨m, s, rfl, hm, ?_⟩
    have := (glob_lit (q := []) (n := s) hs).2 ⟨[], by rw [List.append_nil], rfl⟩
    rw [List.append_nil] at this
    exact this

/-! ### Names -/

/-- A hash: letters and digits. -/
def Hash (h : Str) : Prop := h ≠ [] ∧ ∀ c ∈ h, c.isAlphanum = true

/-- A task of a recipe, with names as they are usual: no dots, slashes and stars in the name of the task, which is no setscene task, and
does not occur in the names of directories, in the version, or in the extra information. -/
structure Usual (r : Recipe) (t : Str) : Prop where
  ne : t ≠ []
  dot : '.' ∉ t
  star : '*' ∉ t
  slash : '/' ∉ t
  scene : ¬ "_setscene".toList <:+: t
  base : '*' ∉ r.base
  inBase : ¬ t <:+: r.base
  extra : '*' ∉ r.extra t
  inExtra : ¬ t <:+: r.extra t
  slashExtra : '/' ∉ r.extra t
  lastExtra : (r.extra t).getLast? ≠ some '.'

/-- What follows the hash. -/
def suf (r : Recipe) (t : Str) : Str := if r.extra t = [] then [] else '.' :: r.extra t

theorem dots_keep {s : Str} {c : Char} (h : c ≠ '.') : dots (s ++ [c]) = s ++ [c] := by
  unfold dots
  rw [List.reverse_append, List.reverse_singleton, List.singleton_append, List.dropWhile_cons_of_neg (by simpa using h), List.reverse_cons, List.reverse_reverse]

theorem dots_drop {s : Str} {c : Char} (h : c ≠ '.') : dots (s ++ [c] ++ ['.']) = s ++ [c] := by
  unfold dots
  rw [List.reverse_append, List.reverse_singleton, List.singleton_append, List.dropWhile_cons_of_pos (by rfl), List.reverse_append, List.reverse_singleton, List.singleton_append,
    List.dropWhile_cons_of_neg (by simpa using h), List.reverse_cons, List.reverse_reverse]

theorem name_eq {r : Recipe} {t u h : Str} (hu : r.extra (flagName u) = r.extra t) (hl : (r.extra t).getLast? ≠ some '.') (hh : h ≠ []) (hd : '.' ∉ h) :
    stampFile r u h = r.base ++ '.' :: (u ++ '.' :: (h ++ suf r t)) := by
  unfold stampFile suf
  rw [hu]
  rcases List.eq_nil_or_concat (r.extra t) with he | ⟨e, c, he⟩
  · rw [he, if_pos rfl, List.append_nil]
    rcases List.eq_nil_or_concat h with e | ⟨h', c, e⟩
    · exact absurd e hh
    · rw [List.concat_eq_append] at e
      have hc : c ≠ '.' := fun e2 => hd (by rw [e, e2]; exact List.mem_append_right _ List.mem_cons_self)
      have := dots_drop (s := r.base ++ '.' :: (u ++ '.' :: h')) hc
      rw [e]
      simp only [List.append_assoc, List.cons_append, List.nil_append] at this ⊢
      exact this
  · rw [List.concat_eq_append] at he
    have hne : r.extra t ≠ [] := by rw [he]; exact List.append_ne_nil_of_right_ne_nil _ (List.cons_ne_nil _ _)
    rw [if_neg hne]
    have hc : c ≠ '.' := fun e2 => hl (by rw [he, e2, List.getLast?_concat])
    have := dots_keep (s := r.base ++ '.' :: (u ++ '.' :: (h ++ '.' :: e))) hc
    rw [he]
    simp only [List.append_assoc, List.cons_append, List.nil_append] at this ⊢
    exact this

theorem flag_plain {t : Str} (h : ¬ "_setscene".toList <:+: t) : flagName t = t := by
  unfold flagName
  rw [if_neg]
  intro he
  obtain ⟨x, hx⟩ := endsWith_iff.1 he
  exact h ⟨x, [], by rw [hx, List.append_nil]⟩

theorem name_plain {r : Recipe} {t h : Str} (ok : Usual r t) (hh : h ≠ []) (hd : '.' ∉ h) : stampFile r t h = r.base ++ '.' :: (t ++ '.' :: (h ++ suf r t)) :=
  name_eq (by rw [flag_plain ok.scene]) ok.lastExtra hh hd

theorem hash_no {h : Str} (hh : Hash h) {c : Char} (hc : c.isAlphanum = false) : c ∉ h := fun hm => by rw [hh.2 c hm] at hc; cases hc

/-- Where a text is found in a longer one it is found in the part that has its characters. -/
theorem infix_cons {p s : Str} {c : Char} (hp : p ≠ []) (hc : c ∉ p) (h : p <:+: c :: s) : p <:+: s := by
  obtain ⟨a, b, e⟩ := h
  cases a with
  | nil =>
    cases p with
    | nil => exact absurd rfl hp
    | cons x p => exact absurd ((List.cons.inj e).1 ▸ List.mem_cons_self) hc
  | cons x a => exact ⟨a, b, (List.cons.inj e).2⟩

theorem prefix_before {c : Char} : ∀ {p a b : Str}, c ∉ p → p <+: a ++ c :: b → p <+: a
  | [], _, _, _, _ => List.nil_prefix
  | x :: p, [], b, hc, h => absurd (by rw [List.nil_append] at h; obtain ⟨t, ht⟩ := h; exact (List.cons.inj ht).1 ▸ List.mem_cons_self) hc
  | x :: p, y :: a, b, hc, h => by
    obtain ⟨t, ht⟩ := h
    obtain ⟨rfl, ht2⟩ := List.cons.inj ht
    obtain ⟨u, hu⟩ := prefix_before (p := p) (a := a) (fun hm => hc (List.mem_cons_of_mem _ hm)) ⟨t, ht2⟩
    exact ⟨u, by rw [← hu]; rfl⟩

theorem replace_mid {p r b : Str} {c : Char} (hp : p ≠ []) (hc : c ∉ p) (hb : ¬ p <:+: b) : ∀ {a : Str}, ¬ p <:+: a → replaceGo p r 0 (a ++ c :: (p ++ b)) = a ++ c :: (r ++ b)
  | [], _ => by
    rw [List.nil_append, List.nil_append]
    conv => lhs; unfold replaceGo
    rw [if_neg, replaceGo_front _ _ _ hp hb]
    intro h
    obtain ⟨x, hx⟩ := startsWith_iff.1 h
    cases p with
    | nil => exact hp rfl
    | cons y p => exact hc ((List.cons.inj hx).1 ▸ List.mem_cons_self)
  | x :: a, ha => by
    rw [List.cons_append]
    conv => lhs; unfold replaceGo
    rw [if_neg, replace_mid hp hc hb (a := a) fun ⟨u, v, e⟩ => ha ⟨x :: u, v, by rw [← e]; rfl⟩]
    · rfl
    · intro h
      obtain ⟨y, hy⟩ := startsWith_iff.1 h
      obtain ⟨z, hz⟩ := prefix_before (p := p) (a := x :: a) (b := p ++ b) hc ⟨y, hy.symm⟩
      exact ha ⟨[], z, by rw [List.nil_append]; exact hz⟩

theorem suf_star {r : Recipe} {t : Str} (ok : Usual r t) : '*' ∉ suf r t := by
  unfold suf
  split
  · exact List.not_mem_nil
  · intro hm
    rcases List.mem_cons.1 hm with h | h
    · exact absurd h (by decide)
    · exact ok.extra h

theorem suf_slash {r : Recipe} {t : Str} (ok : Usual r t) : '/' ∉ suf r t := by
  unfold suf
  split
  · exact List.not_mem_nil
  · intro hm
    rcases List.mem_cons.1 hm with h | h
    · exact absurd h (by decide)
    · exact ok.slashExtra h

/-- The masks of a task. -/
theorem masks_eq {r : Recipe} {t : Str} (ok : Usual r t) :
    masks r t = [r.base ++ '.' :: (t ++ '.' :: ('*' :: suf r t)), r.base ++ '.' :: (t ++ "_setscene".toList ++ '.' :: ('*' :: suf r t))] := by
  unfold masks
  have e1 : replaceGo "_setscene".toList [] 0 t = t := replaceGo_none _ _ _ ok.scene
  have e2 : stampFile r t ['*'] = r.base ++ '.' :: (t ++ '.' :: ('*' :: suf r t)) := name_plain ok (List.cons_ne_nil _ _) (by decide)
  have hb : ¬ t <:+: '.' :: ('*' :: suf r t) := fun h => by
    have h := infix_cons ok.ne ok.star (infix_cons ok.ne ok.dot h)
    unfold suf at h
    split at h
    · obtain ⟨a, b, e⟩ := h
      exact ok.ne (List.append_eq_nil_iff.1 (List.append_eq_nil_iff.1 e).1).2
    · exact ok.inExtra (infix_cons ok.ne ok.dot h)
  dsimp only
  rw [e1, e2, replace_mid ok.ne ok.dot hb ok.inBase]

/-- A file of a task: some text without slashes where the hash is. -/
def FileOf (r : Recipe) (t n : Str) : Prop := ∃ m, '/' ∉ m ∧ n = r.base ++ '.' :: (t ++ '.' :: (m ++ suf r t))

theorem no_star_front {r : Recipe} {t u : Str} (ok : Usual r t) (hu : '*' ∉ u) : '*' ∉ r.base ++ '.' :: (u ++ ['.']) := fun hm => by
  rcases List.mem_append.1 hm with h | h
  · exact ok.base h
  · rcases List.mem_cons.1 h with h | h
    · exact absurd h (by decide)
    · rcases List.mem_append.1 h with h | h
      · exact hu h
      · exact absurd (List.mem_singleton.1 h) (by decide)

theorem matched {r : Recipe} {t u n : Str} (ok : Usual r t) (hu : '*' ∉ u) :
    glob (r.base ++ '.' :: (u ++ '.' :: ('*' :: suf r t))) n = true ↔ ∃ m, '/' ∉ m ∧ n = r.base ++ '.' :: (u ++ '.' :: (m ++ suf r t)) := by
  have e : r.base ++ '.' :: (u ++ '.' :: ('*' :: suf r t)) = (r.base ++ '.' :: (u ++ ['.'])) ++ '*' :: suf r t := by simp only [List.append_assoc, List.cons_append, List.nil_append]
  rw [e, glob_mask (no_star_front ok hu) (suf_star ok)]
  constructor
  · rintro ⟨m, rfl, hm⟩
    exact ⟨m, hm, by simp only [List.append_assoc, List.cons_append, List.nil_append]⟩
  · rintro ⟨m, hm, rfl⟩
    exact ⟨m, by simp only [List.append_assoc, List.cons_append, List.nil_append], hm⟩

theorem scene_star {t : Str} (h : '*' ∉ t) : '*' ∉ t ++ "_setscene".toList := fun hm => (List.mem_append.1 hm).elim h (by decide)

/-- Files of signatures and taints. -/
def Extra (n : Str) : Prop := "sigdata".toList <:+: n ∨ "sigbasedata".toList <:+: n ∨ ".taint".toList <:+ n

theorem kept_iff {n : Str} : kept n = true ↔ Extra n := by
  unfold kept Extra
  rw [Bool.or_eq_true, Bool.or_eq_true, isSub_iff, isSub_iff, endsWith_iff]
  constructor
  · rintro ((⟨a, b, e⟩ | ⟨a, b, e⟩) | ⟨a, e⟩)
    · exact .inl ⟨a, b, e.symm⟩
    · exact .inr (.inl ⟨a, b, e.symm⟩)
    · exact .inr (.inr ⟨a, e.symm⟩)
  · rintro (⟨a, b, e⟩ | ⟨a, b, e⟩ | ⟨a, e⟩)
    · exact .inl (.inl ⟨a, b, e.symm⟩)
    · exact .inl (.inr ⟨a, b, e.symm⟩)
    · exact .inr ⟨a, e.symm⟩

/-- What is in the directory after a task has run. -/
theorem made {r : Recipe} {t h n : Str} {fs : List Str} (ok : Usual r t) :
    n ∈ make r t h fs ↔ n = stampFile r t h ∨ (n ∈ fs ∧ (Extra n ∨ (¬ FileOf r t n ∧ ¬ ∃ m, '/' ∉ m ∧ n = r.base ++ '.' :: (t ++ "_setscene".toList ++ '.' :: (m ++ suf r t))))) := by
  unfold make clean
  rw [List.mem_cons, List.mem_filter, List.mem_filter, masks_eq ok, Bool.or_eq_true, kept_iff]
  simp only [List.any_cons, List.any_nil, Bool.or_false, Bool.not_eq_true', Bool.or_eq_false_iff]
  rw [Bool.eq_false_iff, Bool.eq_false_iff, Ne, Ne, matched ok ok.star, matched ok (scene_star ok.star)]
  constructor
  · rintro (h | ⟨⟨hf, h⟩, _⟩)
    · exact .inl h
    · exact .inr ⟨hf, h.symm⟩
  · rintro (h | ⟨hf, hr⟩)
    · exact .inl h
    · by_cases he : n = stampFile r t h
      · exact .inl he
      · exact .inr ⟨⟨hf, hr.symm⟩, beq_eq_false_iff_ne.2 he⟩

theorem name_inj {r : Recipe} {t h h' : Str} (ok : Usual r t) (hh : Hash h) (hh' : Hash h') (e : stampFile r t h = stampFile r t h') : h = h' := by
  rw [name_plain ok hh.1 (hash_no hh (by decide)), name_plain ok hh'.1 (hash_no hh' (by decide))] at e
  have e := (List.cons.inj (List.append_cancel_left e)).2
  have e := (List.cons.inj (List.append_cancel_left e)).2
  exact List.append_cancel_right e

/-! ### C174 -/

/-- C174: after a task has run with a hash, the files of it that say that it was run are exactly the one with this hash. -/
theorem one_stamp {r : Recipe} {t h h' : Str} {fs : List Str} (ok : Usual r t) (hh : Hash h) (hh' : Hash h') (hx : ¬ Extra (stampFile r t h')) :
    stampFile r t h' ∈ make r t h fs ↔ h' = h := by
  rw [made ok]
  constructor
  · rintro (h | ⟨_, h | ⟨h, _⟩⟩)
    · exact name_inj ok hh' hh h
    · exact absurd h hx
    · exact absurd ⟨h', hash_no hh' (by decide), name_plain ok hh'.1 (hash_no hh' (by decide))⟩ h
  · rintro rfl; exact .inl rfl

/-- C174: files of the setscene task are removed as well. -/
theorem scene_removed {r : Recipe} {t h m : Str} {fs : List Str} (ok : Usual r t) (hm : '/' ∉ m)
    (hx : ¬ Extra (r.base ++ '.' :: (t ++ "_setscene".toList ++ '.' :: (m ++ suf r t)))) (hh : Hash h) :
    r.base ++ '.' :: (t ++ "_setscene".toList ++ '.' :: (m ++ suf r t)) ∉ make r t h fs := fun hf => by
  rcases (made ok).1 hf with e | ⟨_, h | ⟨_, h⟩⟩
  · rw [name_plain ok hh.1 (hash_no hh (by decide))] at e
    have e := (List.cons.inj (List.append_cancel_left e)).2
    have hd : '.' ∉ t ++ "_setscene".toList := fun hm => (List.mem_append.1 hm).elim ok.dot (by decide)
    have e := (first_sep hd ok.dot e).1
    have := congrArg List.length e
    rw [List.length_append, show "_setscene".toList.length = 9 from rfl] at this
    omega
  · exact hx h
  · exact h ⟨m, hm, rfl⟩

/-- C174: the files of other tasks stay. -/
theorem other_task {r : Recipe} {t u h x : Str} {fs : List Str} (ok : Usual r t) (hu : '.' ∉ u) (h1 : u ≠ t) (h2 : u ≠ t ++ "_setscene".toList)
    (hf : r.base ++ '.' :: (u ++ '.' :: x) ∈ fs) : r.base ++ '.' :: (u ++ '.' :: x) ∈ make r t h fs := by
  refine (made ok).2 (.inr ⟨hf, .inr ⟨?_, ?_⟩⟩)
  · rintro ⟨m, _, e⟩
    exact h1 (first_sep hu ok.dot (List.cons.inj (List.append_cancel_left e)).2).1
  · rintro ⟨m, _, e⟩
    exact h2 (first_sep hu (fun hm => (List.mem_append.1 hm).elim ok.dot (by decide)) (List.cons.inj (List.append_cancel_left e)).2).1

/-- C174: and so do the files in other directories, as those of other recipes. -/
theorem other_dir {r : Recipe} {t h d1 f1 d2 f2 : Str} {fs : List Str} (ok : Usual r t) (hb : r.base = d1 ++ '/' :: f1) (hf1 : '/' ∉ f1) (hf2 : '/' ∉ f2) (hd : d2 ≠ d1)
    (hf : d2 ++ '/' :: f2 ∈ fs) : d2 ++ '/' :: f2 ∈ make r t h fs := by
  have key : ∀ (u m : Str), '/' ∉ u → '/' ∉ m → d2 ++ '/' :: f2 ≠ r.base ++ '.' :: (u ++ '.' :: (m ++ suf r t)) := fun u m hu hm e => by
    rw [hb, List.append_assoc, List.cons_append] at e
    refine hd (last_sep hf2 ?_ e).1
    intro hx
    rcases List.mem_append.1 hx with hx | hx
    · exact hf1 hx
    · rcases List.mem_cons.1 hx with hx | hx
      · exact absurd hx (by decide)
      · rcases List.mem_append.1 hx with hx | hx
        · exact hu hx
        · rcases List.mem_cons.1 hx with hx | hx
          · exact absurd hx (by decide)
          · exact (List.mem_append.1 hx).elim hm (suf_slash ok)
  refine (made ok).2 (.inr ⟨hf, .inr ⟨?_, ?_⟩⟩)
  · rintro ⟨m, hm, e⟩; exact key t m ok.slash hm e
  · rintro ⟨m, hm, e⟩; exact key _ m (fun hx => (List.mem_append.1 hx).elim ok.slash (by decide)) hm e

/-- C174: data of signatures stays. -/
theorem extra_stays {r : Recipe} {t h n : Str} {fs : List Str} (ok : Usual r t) (hx : Extra n) (hf : n ∈ fs) : n ∈ make r t h fs :=
  (made ok).2 (.inr ⟨hf, .inl hx⟩)

/-- C174: files that are found to be out of date are exactly those of the task and its setscene task that do not have the hash. -/
theorem out_of_date {r : Recipe} {t h n : Str} {fs : List Str} (ok : Usual r t) :
    n ∈ stale r t h fs ↔ n ∈ fs ∧ ¬ Extra n ∧ (FileOf r t n ∨ ∃ m, '/' ∉ m ∧ n = r.base ++ '.' :: (t ++ "_setscene".toList ++ '.' :: (m ++ suf r t))) ∧
      n ≠ stampFile r t h ∧ n ≠ stampFile r (t ++ "_setscene".toList) h := by
  unfold stale FileOf
  rw [masks_eq ok]
  simp only [List.flatMap_cons, List.flatMap_nil, List.append_nil, List.mem_append, List.mem_filter, Bool.and_eq_true, Bool.not_eq_true', beq_eq_false_iff_ne]
  rw [matched ok ok.star, matched ok (scene_star ok.star), Bool.eq_false_iff, Ne, kept_iff]
  constructor
  · rintro (⟨a, ⟨⟨b, c⟩, d⟩, e⟩ | ⟨a, ⟨⟨b, c⟩, d⟩, e⟩)
    · exact ⟨a, c, .inl b, d, e⟩
    · exact ⟨a, c, .inr b, d, e⟩
  · rintro ⟨a, c, b | b, d, e⟩
    · exact .inl ⟨a, ⟨⟨b, c⟩, d⟩, e⟩
    · exact .inr ⟨a, ⟨⟨b, c⟩, d⟩, e⟩

/-! ### Histories -/

/-- Runs of a task: to the end, or not. -/
inductive Run where
  | finished (h : Str)
  | broken (h : Str)

/-- Files, and the hash of the run that made what is in the directories of the task; none after a run that was broken off. -/
structure State where
  fs : List Str
  work : Option Str

def step (r : Recipe) (t : Str) (s : State) : Run → State
  | .finished h => { fs := make r t h s.fs, work := some h }
  | .broken _ => { s with work := none }

def runs (r : Recipe) (t : Str) (s : State) (l : List Run) : State := l.foldl (step r t) s

/-- The hash of the last run to the end. -/
def lastDone : List Run → Option Str → Option Str
  | [], o => o
  | .finished h :: l, _ => lastDone l (some h)
  | .broken _ :: l, o => lastDone l o

def HashOf : Run → Str
  | .finished h => h
  | .broken h => h

/-- C174: whatever runs there were, the task counts as run for a hash if and only if its last run to the end was with this hash. -/
theorem counts {r : Recipe} {t : Str} (ok : Usual r t) {h : Str} (hh : Hash h) (hx : ¬ Extra (stampFile r t h)) :
    ∀ (l : List Run) (s : State) (o : Option Str), (∀ x ∈ l, Hash (HashOf x)) → (stampFile r t h ∈ s.fs ↔ o = some h) →
      (stampFile r t h ∈ (runs r t s l).fs ↔ lastDone l o = some h)
  | [], _, _, _, hs => hs
  | .finished g :: l, s, o, hl, hs => by
    refine counts ok hh hx l _ (some g) (fun x hx => hl x (List.mem_cons_of_mem _ hx)) ?_
    show stampFile r t h ∈ make r t g s.fs ↔ _
    rw [one_stamp ok (h := g) (hl (.finished g) List.mem_cons_self) hh hx]
    exact ⟨fun e => by rw [e], fun e => by injection e with e; exact e.symm⟩
  | .broken g :: l, s, o, hl, hs => counts ok hh hx l _ o (fun x hx => hl x (List.mem_cons_of_mem _ hx)) hs

/-- C174, where it holds: if no run was broken off and the task counts as run for a hash, what is in its directories was made with it. -/
theorem same_work_partial {r : Recipe} {t : Str} (ok : Usual r t) {h : Str} (hh : Hash h) (hx : ¬ Extra (stampFile r t h)) {l : List Run} (hl : ∀ x ∈ l, ∃ g, Hash g ∧ x = .finished g)
    {fs : List Str} (hfs : ∀ g, Hash g → stampFile r t g ∉ fs) : stampFile r t h ∈ (runs r t ⟨fs, none⟩ l).fs ↔ (runs r t ⟨fs, none⟩ l).work = some h := by
  rw [counts ok hh hx l ⟨fs, none⟩ none (fun x hx => by obtain ⟨g, hg, rfl⟩ := hl x hx; exact hg) ⟨fun hm => absurd hm (hfs h hh), fun e => nomatch e⟩]
  have key : ∀ (l : List Run) (s : State) (o : Option Str), (∀ x ∈ l, ∃ g, Hash g ∧ x = .finished g) → s.work = o → (runs r t s l).work = lastDone l o := by
    intro l
    induction l with
    | nil => exact fun s o _ h => h
    | cons x l ih =>
      intro s o hl hs
      obtain ⟨g, _, rfl⟩ := hl x List.mem_cons_self
      exact ih _ (some g) (fun y hy => hl y (List.mem_cons_of_mem _ hy)) rfl
  rw [key l _ none hl rfl]

/-- A recipe. -/
def sample : Recipe := { base := "/s/d-amd64/hello/1.0-r0".toList, extra := fun _ => [] }

theorem sample_ok : Usual sample "do_compile".toList where
  ne := by decide
  dot := by decide
  star := by decide
  slash := by decide
  scene := by intro ⟨a, b, e⟩; exact absurd (isSub_iff.2 ⟨a, b, e.symm⟩) (by decide)
  base := by decide
  inBase := by intro ⟨a, b, e⟩; exact absurd (isSub_iff.2 ⟨a, b, e.symm⟩) (by decide)
  extra := by decide
  inExtra := by intro ⟨a, b, e⟩; exact absurd (isSub_iff.2 ⟨a, b, e.symm⟩) (by decide)
  slashExtra := by decide
  lastExtra := by decide

theorem sample_extra (h : Str) (hk : kept (stampFile sample "do_compile".toList h) = false) : ¬ Extra (stampFile sample "do_compile".toList h) := fun hx => by
  rw [kept_iff.2 hx] at hk; cases hk

theorem sample_hash : Hash "a1".toList ∧ Hash "b2".toList := ⟨⟨by decide, by decide⟩, ⟨by decide, by decide⟩⟩

example : stampFile sample "do_compile".toList "a1".toList ∈ (runs sample "do_compile".toList ⟨[], none⟩ [.finished "b2".toList, .finished "a1".toList]).fs ↔
    (runs sample "do_compile".toList ⟨[], none⟩ [.finished "b2".toList, .finished "a1".toList]).work = some "a1".toList :=
  same_work_partial sample_ok sample_hash.1 (sample_extra _ (by decide)) (fun x hx => by
    rcases List.mem_cons.1 hx with rfl | hx
    · exact ⟨_, sample_hash.2, rfl⟩
    · rw [List.mem_singleton.1 hx]; exact ⟨_, sample_hash.1, rfl⟩) (fun _ _ h => nomatch h)

example : make sample "do_compile".toList "b2".toList ["/s/d-amd64/hello/1.0-r0.do_compile.a1".toList, "/s/d-amd64/hello/1.0-r0.do_compile_setscene.a1".toList,
      "/s/d-amd64/hello/1.0-r0.do_compile.sigdata.a1".toList, "/s/d-amd64/hello/1.0-r0.do_install.a1".toList] =
    ["/s/d-amd64/hello/1.0-r0.do_compile.b2".toList, "/s/d-amd64/hello/1.0-r0.do_compile.sigdata.a1".toList, "/s/d-amd64/hello/1.0-r0.do_install.a1".toList] := by decide +kernel

/-- Against C174: a run that was broken off may have changed anything, and yet the task counts as run for the hash of the run before. -/
theorem broken_counts : let s := runs sample "do_compile".toList ⟨[], none⟩ [.finished "a1".toList, .broken "b2".toList]
    stampFile sample "do_compile".toList "a1".toList ∈ s.fs ∧ s.work = none := by decide +kernel

/-- Against C174: if `sigdata` occurs in the path, files stay, and the task counts as run for a hash that was not the last one. -/
theorem sigdata_path : let r : Recipe := { base := "/sigdata/1.0-r0".toList, extra := fun _ => [] }
    let s := runs r "do_compile".toList ⟨[], none⟩ [.finished "a1".toList, .finished "b2".toList]
    stampFile r "do_compile".toList "a1".toList ∈ s.fs ∧ s.work = some "b2".toList := by decide +kernel

/-- Against C174: if the name of the task occurs in the path, files of the setscene task stay. -/
theorem task_path : let r : Recipe := { base := "/do_compile/1.0-r0".toList, extra := fun _ => [] }
    stampFile r "do_compile_setscene".toList "a1".toList ∈ make r "do_compile".toList "b2".toList [stampFile r "do_compile_setscene".toList "a1".toList] := by decide +kernel

/-- Against C174: when a setscene task has run with another hash, the file of the task stays. -/
theorem scene_keeps : stampFile sample "do_compile".toList "a1".toList ∈ make sample "do_compile_setscene".toList "b2".toList [stampFile sample "do_compile".toList "a1".toList] := by decide +kernel

end Bb.Stamp
