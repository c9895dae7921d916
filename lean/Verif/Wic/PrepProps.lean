import Verif.Wic.PrepModel
import Verif.Wic.KsLemmas
/-!
# What is included and excluded, and what must not change

The specification: `Name`, `Below`, `Near`, `Gone`.
-/

namespace Isar.Wic.Prep

open Py

/-! ## Specification -/

/-- A name without white space. -/
structure Name (n : Str) : Prop where
  ne : n ≠ []
  dot : n ≠ ['.']
  dots : n ≠ ['.', '.']
  slash : '/' ∉ n
  ws : ∀ c ∈ n, isWs c = false

/-- All names in a path are such. -/
def CleanPath (p : Path) : Prop := ∀ n ∈ p, Name n

/-- All names in a file system are such. -/
def CleanFs (fs : Fs) : Prop := ∀ e ∈ fs, CleanPath e.1

/-- `q` is in the directory `root`, or is it. -/
def Below (root q : Path) : Prop := ∃ r, q = root ++ r

/-- `q` is in a directory beside `root` whose name begins with the name of `root`; `root` itself is one. -/
def Near (root q : Path) : Prop := ∃ a n m b, root = a ++ [n] ∧ q = a ++ (n ++ m) :: b

/-- What is at a path: the node, and its content if it is a file. -/
def look (w : World) (q : Path) : Option (Node × Option Str) :=
  (w.fs.lookup q).map fun n => (n, match n with
    | .file i => w.store.lookup i
    | _ => none)

/-- A path that is to be gone if `p` is excluded: what `p` is, and all in it; with `/` at its end only what is in
it. -/
def Gone (root : Path) (p : Str) (q : Path) : Prop :=
  ∃ r, q = root ++ comps p ++ r ∧ (endsWith p ['/'] = true → r ≠ [])

/-! ## Lookups -/

theorem lookup_filterKey (f : Path → Bool) (q : Path) : ∀ (fs : Fs),
    (fs.filter fun e => f e.1).lookup q = if f q then fs.lookup q else none
  | [] => by split <;> rfl
  | (k, v) :: fs => by
    rw [List.filter_cons, List.lookup_cons]
    by_cases hk : q = k
    · subst hk
      cases hf : f q with
      | true => rw [if_pos (by simpa using hf), List.lookup_cons, beq_self_eq_true]; rfl
      | false => rw [if_neg (by simpa using hf), lookup_filterKey f q fs, hf]; rfl
    · rw [beq_eq_false_iff_ne.2 hk]
      by_cases hf : f k = true
      · rw [if_pos hf, List.lookup_cons, beq_eq_false_iff_ne.2 hk]
        exact lookup_filterKey f q fs
      · rw [if_neg hf]
        exact lookup_filterKey f q fs

theorem lookup_put (fs : Fs) (p q : Path) (n : Node) :
    (put fs p n).lookup q = if q = p then some n else fs.lookup q := by
  unfold put
  rw [List.lookup_cons]
  by_cases h : q = p
  · rw [if_pos h, h, beq_self_eq_true]
  · rw [if_neg h, beq_eq_false_iff_ne.2 h]
    have := lookup_filterKey (fun k => decide (k ≠ p)) q fs
    rw [if_pos (by simpa using h)] at this
    exact this

theorem lookup_mem : ∀ {fs : Fs} {p : Path} {n : Node}, fs.lookup p = some n → (p, n) ∈ fs
  | (j, w) :: fs, k, v, h => by
    rw [List.lookup_cons] at h
    by_cases hk : k = j
    · subst hk
      rw [beq_self_eq_true] at h
      cases h
      exact List.mem_cons_self
    · rw [beq_eq_false_iff_ne.2 hk] at h
      exact List.mem_cons_of_mem _ (lookup_mem h)

theorem lookup_none : ∀ {fs : Fs} {p : Path}, (∀ n, (p, n) ∉ fs) → fs.lookup p = none
  | [], _, _ => rfl
  | (j, w) :: fs, k, h => by
    rw [List.lookup_cons]
    have hk : k ≠ j := fun e => h w (e ▸ List.mem_cons_self)
    rw [beq_eq_false_iff_ne.2 hk]
    exact lookup_none fun n hn => h n (List.mem_cons_of_mem _ hn)

theorem lookup_rmTree (fs : Fs) {p : Path} (hp : p ≠ []) (q : Path) :
    (rmTree fs p).lookup q = if p.isPrefixOf q then none else fs.lookup q := by
  unfold rmTree
  rw [if_neg hp, lookup_filterKey (fun k => !p.isPrefixOf k) q fs]
  cases p.isPrefixOf q <;> rfl

theorem rmTree_sub {fs : Fs} {p : Path} {e : Path × Node} (h : e ∈ rmTree fs p) : e ∈ fs := by
  unfold rmTree at h
  split at h
  · exact h
  · exact (List.mem_filter.1 h).1

/-! ## Texts of paths -/

theorem join_chars {p : Path} {P : Char → Prop} (hs : P '/') (h : ∀ n ∈ p, ∀ c ∈ n, P c) : ∀ c ∈ join ['/'] p, P c := by
  induction p with
  | nil => intro c hc; cases hc
  | cons n p ih =>
    intro c hc
    cases p with
    | nil => exact h n List.mem_cons_self c hc
    | cons m p =>
      have hc : c ∈ n ++ ['/'] ++ join ['/'] (m :: p) := hc
      rcases List.mem_append.1 hc with hc | hc
      · rcases List.mem_append.1 hc with hc | hc
        · exact h n List.mem_cons_self c hc
        · rw [List.mem_singleton.1 hc]; exact hs
      · exact ih (fun x hx => h x (List.mem_cons_of_mem _ hx)) c hc

theorem text_word {p : Path} (h : CleanPath p) : IsWord (text p) := by
  refine ⟨List.cons_ne_nil _ _, fun c hc => ?_⟩
  rcases List.mem_cons.1 hc with rfl | hc
  · rfl
  · exact join_chars (P := fun c => isWs c = false) rfl (fun n hn => (h n hn).ws) c hc

theorem comps_names {p : List Str} (h : ∀ n ∈ p, '/' ∉ n ∧ n ≠ [] ∧ n ≠ ['.']) : comps (join ['/'] p) = p := by
  unfold comps
  cases p with
  | nil => rfl
  | cons n p =>
    rw [splitOn_join '/' (n :: p) (List.cons_ne_nil _ _) fun w hw => (h w hw).1, List.filter_eq_self]
    intro x hx
    simpa using (h x hx).2

theorem comps_text {p : Path} (h : CleanPath p) : comps (text p) = p := by
  have e : splitOn '/' (text p) = [] :: splitOn '/' (join ['/'] p) := by
    have := splitOn_append '/' [] (join ['/'] p)
    exact this
  have h2 := comps_names (p := p) fun n hn => ⟨(h n hn).slash, (h n hn).ne, (h n hn).dot⟩
  unfold comps at h2 ⊢
  rw [e, List.filter_cons_of_neg (by simp)]
  exact h2

theorem rmWords_clean {p : Path} (h : CleanPath p) (cwd : Path) (fs : Fs) : rmWords cwd fs (text p) = rmTree fs p := by
  unfold rmWords
  rw [words_word (text_word h)]
  show rmTree fs (wordPath cwd (text p)) = _
  unfold wordPath
  rw [if_pos (show startsWith (text p) ['/'] = true from startsWith_iff.2 ⟨join ['/'] p, rfl⟩), comps_text h]

theorem comps_noslash {s n : Str} (h : n ∈ comps s) : '/' ∉ n :=
  splitOn_pieces ((List.mem_filter.1 h).1)

theorem prefix_cut : ∀ {n m r : Str}, '/' ∉ n → n <+: m ++ '/' :: r → n <+: m
  | [], m, _, _, _ => ⟨m, rfl⟩
  | c :: n, [], r, h, hp => by
    obtain ⟨t, e⟩ := hp
    have : c = '/' := (List.cons.inj e).1
    exact absurd (this ▸ List.mem_cons_self) h
  | c :: n, d :: m, r, h, hp => by
    obtain ⟨t, e⟩ := hp
    have e : c :: (n ++ t) = d :: (m ++ '/' :: r) := e
    obtain ⟨e1, e2⟩ := List.cons.inj e
    obtain ⟨u, e3⟩ := prefix_cut (n := n) (m := m) (r := r) (fun x => h (List.mem_cons_of_mem _ x)) ⟨t, e2⟩
    exact ⟨u, by rw [e1, ← e3]; rfl⟩

theorem cut_eq : ∀ {x y u v : Str}, '/' ∉ x → '/' ∉ y → x ++ '/' :: u <+: y ++ '/' :: v → x = y ∧ u <+: v
  | [], [], u, v, _, _, ⟨t, e⟩ => by
    have e : '/' :: (u ++ t) = '/' :: v := e
    exact ⟨rfl, t, (List.cons.inj e).2⟩
  | [], d :: y, u, v, _, hy, ⟨t, e⟩ => by
    have e : '/' :: (u ++ t) = d :: (y ++ '/' :: v) := e
    exact absurd ((List.cons.inj e).1 ▸ List.mem_cons_self) hy
  | c :: x, [], u, v, hx, _, ⟨t, e⟩ => by
    have e : c :: (x ++ '/' :: u ++ t) = '/' :: v := e
    exact absurd ((List.cons.inj e).1 ▸ List.mem_cons_self) hx
  | c :: x, d :: y, u, v, hx, hy, ⟨t, e⟩ => by
    have e : c :: (x ++ '/' :: u ++ t) = d :: (y ++ '/' :: v) := e
    obtain ⟨e1, e2⟩ := List.cons.inj e
    obtain ⟨h1, h2⟩ := cut_eq (x := x) (y := y) (fun h => hx (List.mem_cons_of_mem _ h))
      (fun h => hy (List.mem_cons_of_mem _ h)) ⟨t, e2⟩
    exact ⟨by rw [e1, h1], h2⟩

theorem join_two (x y : Str) (l : List Str) : join ['/'] (x :: y :: l) = x ++ '/' :: join ['/'] (y :: l) := by
  show x ++ ['/'] ++ join ['/'] (y :: l) = _
  rw [List.append_assoc]; rfl

theorem near_of_text : ∀ (a : Path) (n : Str) (full : Path), n ≠ [] → (∀ x ∈ a ++ [n], '/' ∉ x) → (∀ x ∈ full, '/' ∉ x) →
    join ['/'] (a ++ [n]) <+: join ['/'] full → ∃ m b, full = a ++ (n ++ m) :: b
  | [], n, full, hn, ha, hf, h => by
    cases full with
    | nil => exact absurd (List.prefix_nil.1 h) hn
    | cons m b =>
      have h : n <+: join ['/'] (m :: b) := h
      have : n <+: m := by
        cases b with
        | nil => exact h
        | cons y b =>
          rw [join_two] at h
          exact prefix_cut (ha n List.mem_cons_self) h
      obtain ⟨t, e⟩ := this
      exact ⟨t, b, by rw [← e]; rfl⟩
  | x :: a, n, full, hn, ha, hf, h => by
    have hj : join ['/'] (x :: a ++ [n]) = x ++ '/' :: join ['/'] (a ++ [n]) := by
      cases a with
      | nil => exact join_two x n []
      | cons y a => exact join_two x y (a ++ [n])
    rw [hj] at h
    have hx := ha x List.mem_cons_self
    cases full with
    | nil =>
      obtain ⟨t, e⟩ := h
      have e : x ++ '/' :: join ['/'] (a ++ [n]) ++ t = [] := e
      simp at e
    | cons y b =>
      have hy := hf y List.mem_cons_self
      cases b with
      | nil =>
        have h : x ++ '/' :: join ['/'] (a ++ [n]) <+: y := h
        obtain ⟨t, e⟩ := h
        exact absurd (by rw [← e]; simp) hy
      | cons z b =>
        rw [join_two] at h
        obtain ⟨e1, h2⟩ := cut_eq hx hy h
        obtain ⟨m, c, e⟩ := near_of_text a n (z :: b) hn (fun w hw => ha w (List.mem_cons_of_mem _ hw))
          (fun w hw => hf w (List.mem_cons_of_mem _ hw)) h2
        exact ⟨m, c, by rw [e, e1]; rfl⟩

/-! ## Where a path leads to -/

theorem comps_good {s n : Str} (h : n ∈ comps s) : '/' ∉ n ∧ n ≠ [] ∧ n ≠ ['.'] := by
  refine ⟨comps_noslash h, ?_⟩
  have := (List.mem_filter.1 h).2
  simpa using this

/-- A path that was resolved has no other names than those of files. -/
theorem real_names {fs : Fs} : ∀ (k : Nat) (path : Path) (rest : List Str) (r : Path), real fs k path rest = some r →
    (∀ n ∈ path, '/' ∉ n ∧ n ≠ [] ∧ n ≠ ['.'] ∧ n ≠ ['.', '.']) → (∀ n ∈ rest, '/' ∉ n ∧ n ≠ [] ∧ n ≠ ['.']) →
    ∀ n ∈ r, '/' ∉ n ∧ n ≠ [] ∧ n ≠ ['.'] ∧ n ≠ ['.', '.']
  | 0, path, [], r, h, h1, _ => by cases h; exact h1
  | 0, path, c :: rest, r, h, _, _ => by cases h
  | k + 1, path, [], r, h, h1, _ => by cases h; exact h1
  | k + 1, path, c :: rest, r, h, h1, h2 => by
    have hr : ∀ n ∈ rest, '/' ∉ n ∧ n ≠ [] ∧ n ≠ ['.'] := fun n hn => h2 n (List.mem_cons_of_mem _ hn)
    unfold real at h
    split at h
    · exact real_names k _ _ r h (fun n hn => h1 n (List.dropLast_subset _ hn)) hr
    · next hd =>
      split at h
      · refine real_names k _ _ r h ?_ ?_
        · split
          · exact fun n hn => nomatch hn
          · exact h1
        · intro n hn
          rcases List.mem_append.1 hn with hn | hn
          · exact comps_good hn
          · exact hr n hn
      · refine real_names k _ _ r h ?_ hr
        intro n hn
        rcases List.mem_append.1 hn with hn | hn
        · exact h1 n hn
        · rw [List.mem_singleton.1 hn]
          obtain ⟨a, b, c⟩ := h2 c List.mem_cons_self
          exact ⟨a, b, c, hd⟩

/-- No link on the way. -/
def NoLink (fs : Fs) (path rest : List Str) : Prop :=
  ∀ a b, rest = a ++ b → a ≠ [] → ∀ t, fs.lookup (path ++ a) ≠ some (.link t)

theorem real_nolink {fs : Fs} : ∀ (k : Nat) (path : Path) (rest : List Str) (r : Path), real fs k path rest = some r →
    ['.', '.'] ∉ rest → NoLink fs path rest → r = path ++ rest
  | 0, path, [], r, h, _, _ => by cases h; rw [List.append_nil]
  | 0, path, c :: rest, r, h, _, _ => by cases h
  | k + 1, path, [], r, h, _, _ => by cases h; rw [List.append_nil]
  | k + 1, path, c :: rest, r, h, h1, h2 => by
    unfold real at h
    have hcd : c ≠ ['.', '.'] := fun e => h1 (e ▸ List.mem_cons_self)
    rw [if_neg hcd] at h
    split at h
    · next t ht => exact absurd ht (h2 [c] rest rfl (List.cons_ne_nil _ _) t)
    · rw [real_nolink k _ _ r h (fun hm => h1 (List.mem_cons_of_mem _ hm)) ?_, List.append_assoc]
      · rfl
      · intro a b e _ t ht
        rw [List.append_assoc] at ht
        exact h2 (c :: a) b (by rw [e]; rfl) (List.cons_ne_nil _ _) t ht

/-- The copy, as a place to work in: no link leads to it. -/
structure Place (fs : Fs) (root : Path) : Prop where
  ne : root ≠ []
  clean : CleanPath root
  direct : NoLink fs [] root

theorem Near.append {root q : Path} (h : Near root q) (r : Path) : Near root (q ++ r) := by
  obtain ⟨a, n, m, b, e1, e2⟩ := h
  exact ⟨a, n, m, b ++ r, e1, by rw [e2, List.append_assoc]; rfl⟩

theorem Near.self {root : Path} (h : root ≠ []) (r : Path) : Near root (root ++ r) := by
  rcases List.eq_nil_or_concat root with h0 | ⟨a, n, e⟩
  · exact absurd h0 h
  · rw [List.concat_eq_append] at e
    exact ⟨a, n, [], r, e, by rw [e, List.append_nil, List.append_assoc]; rfl⟩

theorem Near.ne {root q : Path} (h : Near root q) : q ≠ [] := by
  obtain ⟨a, n, m, b, _, e⟩ := h
  intro h0
  rw [h0] at e
  cases a <;> cases e

/-- A path that passes the check is in the copy, or in a directory beside it with a longer name. -/
theorem validate_near {fs : Fs} {k : Nat} {root full : Path} {p : Str} (hp : Place fs root)
    (h : validate fs k root p = some full) : Near root full ∧ ∀ n ∈ full, '/' ∉ n ∧ n ≠ [] ∧ n ≠ ['.'] ∧ n ≠ ['.', '.'] := by
  unfold validate at h
  split at h
  · cases h
  · split at h
    · next f r e1 e2 =>
      split at h
      · next hs =>
        cases h
        have hr : r = root := real_nolink k [] root r e2 (fun hm => (hp.clean _ hm).dots rfl) hp.direct
        subst hr
        have hf := real_names k [] _ full e1 (fun _ h => nomatch h) fun n hn => by
          rcases List.mem_append.1 hn with hn | hn
          · exact ⟨(hp.clean n hn).slash, (hp.clean n hn).ne, (hp.clean n hn).dot⟩
          · exact comps_good hn
        refine ⟨?_, hf⟩
        rcases List.eq_nil_or_concat r with h0 | ⟨a, n, e⟩
        · exact absurd h0 hp.ne
        · rw [List.concat_eq_append] at e
          subst e
          obtain ⟨t, et⟩ := startsWith_iff.1 hs
          have et : text full = text (a ++ [n]) ++ t := et
          have hpre : join ['/'] (a ++ [n]) <+: join ['/'] full := by
            refine ⟨t, ?_⟩
            have : '/' :: join ['/'] full = '/' :: (join ['/'] (a ++ [n]) ++ t) := et
            exact (List.cons.inj this).2.symm
          obtain ⟨m, b, e⟩ := near_of_text a n full (hp.clean n (List.mem_append_right _ List.mem_cons_self)).ne
            (fun x hx => (hp.clean x hx).slash) (fun x hx => (hf x hx).1) hpre
          exact ⟨a, n, m, b, rfl, e⟩
      · cases h
    · cases h

/-! ## Excluding: nothing else changes -/

/-- What excluding may do. -/
structure Less (root : Path) (fs fs' : Fs) : Prop where
  sub : ∀ e ∈ fs', e ∈ fs
  same : ∀ q, ¬ Near root q → fs'.lookup q = fs.lookup q
  less : ∀ q n, fs'.lookup q = some n → fs.lookup q = some n

theorem Less.refl (root : Path) (fs : Fs) : Less root fs fs := ⟨fun _ h => h, fun _ _ => rfl, fun _ _ h => h⟩

theorem Less.trans {root : Path} {a b c : Fs} (h : Less root a b) (g : Less root b c) : Less root a c :=
  ⟨fun e he => h.sub e (g.sub e he), fun q hq => (g.same q hq).trans (h.same q hq),
    fun q n hn => h.less q n (g.less q n hn)⟩

theorem Less.rmTree {root p : Path} {fs : Fs} (h : Near root p) : Less root fs (rmTree fs p) := by
  refine ⟨fun e he => rmTree_sub he, fun q hq => ?_, fun q n hn => ?_⟩
  · rw [lookup_rmTree fs h.ne, if_neg]
    intro hx
    obtain ⟨r, e⟩ := List.isPrefixOf_iff_prefix.1 hx
    exact hq (e ▸ h.append r)
  · rw [lookup_rmTree fs h.ne] at hn
    split at hn
    · cases hn
    · exact hn

theorem Less.rmAll {root cwd full : Path} : ∀ (l : List Str) (fs : Fs), Near root full →
    (∀ x ∈ l, CleanPath (full ++ [x])) →
    Less root fs (l.foldl (fun f x => rmWords cwd f (text (full ++ [x]))) fs)
  | [], fs, _, _ => .refl root fs
  | x :: l, fs, h, hc => by
    rw [List.foldl_cons, rmWords_clean (hc x List.mem_cons_self)]
    exact (Less.rmTree (h.append [x])).trans (Less.rmAll l _ h fun y hy => hc y (List.mem_cons_of_mem _ hy))

theorem listdir_mem {fs : Fs} {p : Path} {x : Str} (h : x ∈ listdir fs p) : ∃ n, (p ++ [x], n) ∈ fs := by
  unfold listdir at h
  obtain ⟨⟨q, n⟩, he, hx⟩ := List.mem_filterMap.1 h
  split at hx
  · next hd =>
    have hd : q.dropLast = p := hd
    have hx : q.getLast? = some x := hx
    refine ⟨n, ?_⟩
    have hq : q ≠ [] := fun e => by rw [e] at hx; cases hx
    have : q = p ++ [x] := by
      rw [List.getLast?_eq_some_getLast hq] at hx
      rw [← hd, ← Option.some.inj hx, List.dropLast_concat_getLast hq]
    rw [← this]
    exact he
  · cases hx

theorem CleanFs.of_sub {fs fs' : Fs} (h : CleanFs fs) (hs : ∀ e ∈ fs', e ∈ fs) : CleanFs fs' := fun e he => h e (hs e he)

theorem exclude_less {k : Nat} {cwd root : Path} {fs fs' : Fs} {p : Str} (hc : CleanFs fs) (hp : Place fs root)
    (h : excludeOne k cwd root fs p = some fs') : Less root fs fs' := by
  unfold excludeOne at h
  split at h
  · cases h
  · next full hv =>
    have hn := (validate_near hp hv).1
    split at h
    · cases h; exact .refl _ _
    · next n hl =>
      have hfull : CleanPath full := hc _ (lookup_mem hl)
      split at h
      · split at h
        · cases h
          refine Less.rmAll _ _ hn fun x hx => ?_
          obtain ⟨m, hm⟩ := listdir_mem hx
          exact hc _ hm
        · cases h
      · cases h
        rw [rmWords_clean hfull]
        exact Less.rmTree hn

theorem Place.less {root : Path} {fs fs' : Fs} (hp : Place fs root) (h : Less root fs fs') : Place fs' root :=
  ⟨hp.ne, hp.clean, fun a b e ha t ht => hp.direct a b e ha t (h.less _ _ ht)⟩

theorem excludeAll_less {k : Nat} {cwd root : Path} : ∀ (ps : List Str) {fs fs' : Fs}, CleanFs fs → Place fs root →
    excludeAll k cwd root fs ps = some fs' → Less root fs fs'
  | [], fs, fs', _, _, h => by cases h; exact .refl _ _
  | p :: ps, fs, fs', hc, hp, h => by
    unfold excludeAll at h
    split at h
    · cases h
    · next f hf =>
      have h1 := exclude_less hc hp hf
      exact h1.trans (excludeAll_less ps (hc.of_sub h1.sub) (hp.less h1) h)

/-! ## Including: nothing else changes -/

/-- What including may do. -/
structure More (root : Path) (w w' : World) : Prop where
  same : ∀ q, ¬ Near root q → w'.fs.lookup q = w.fs.lookup q
  next : w.next ≤ w'.next
  store : ∀ i, i < w.next → w'.store.lookup i = w.store.lookup i
  dir : w.fs.lookup root = some .dir → w'.fs.lookup root = some .dir

theorem More.refl (root : Path) (w : World) : More root w w := ⟨fun _ _ => rfl, Nat.le_refl _, fun _ _ => rfl, fun h => h⟩

theorem More.trans {root : Path} {a b c : World} (h : More root a b) (g : More root b c) : More root a c :=
  ⟨fun q hq => (g.same q hq).trans (h.same q hq), Nat.le_trans h.next g.next,
    fun i hi => (g.store i (Nat.lt_of_lt_of_le hi h.next)).trans (h.store i hi), fun hd => g.dir (h.dir hd)⟩

theorem More.put {root p : Path} {w : World} {n : Node} (h : Near root p) (hr : w.fs.lookup p ≠ some .dir) :
    More root w { w with fs := put w.fs p n } := by
  refine ⟨fun q hq => ?_, Nat.le_refl _, fun _ _ => rfl, fun hd => ?_⟩
  · show (Prep.put w.fs p n).lookup q = _
    have hqp : q ≠ p := fun e => hq (e ▸ h)
    rw [lookup_put, if_neg hqp]
  · show (Prep.put w.fs p n).lookup root = _
    have hqp : root ≠ p := fun e => hr (e ▸ hd)
    rw [lookup_put, if_neg hqp]
    exact hd

theorem More.putFile {root p : Path} {w : World} {c : Str} (h : Near root p) (hr : w.fs.lookup p ≠ some .dir) :
    More root w (putFile w p c) := by
  refine ⟨(More.put (n := .file w.next) h hr).same, Nat.le_succ _, fun i hi => ?_, (More.put (n := .file w.next) h hr).dir⟩
  show ((w.next, c) :: w.store).lookup i = _
  rw [List.lookup_cons, beq_eq_false_iff_ne.2 (Nat.ne_of_lt hi)]

theorem put_clean {fs : Fs} {p : Path} {n : Node} (hc : CleanFs fs) (hp : CleanPath p) : CleanFs (put fs p n) := by
  intro e he
  rcases List.mem_cons.1 he with rfl | he
  · exact hp
  · exact hc e ((List.mem_filter.1 he).1)

theorem extractOne_more {dest root : Path} {w w' : World} {m : List Str × Member} (hn : Near root dest)
    (hc : CleanFs w.fs) (hd : CleanPath dest) (hm : CleanPath m.1) (h : extractOne dest w m = some w') :
    More root w w' ∧ CleanFs w'.fs := by
  have hp : CleanPath (dest ++ m.1) := fun n hx => (List.mem_append.1 hx).elim (hd n) (hm n)
  unfold extractOne at h
  split at h
  · cases h; exact ⟨.refl _ _, hc⟩
  · next hx =>
    cases h
    exact ⟨More.put (hn.append _) (fun e => hx e), put_clean hc hp⟩
  · cases h
  · next hx =>
    cases h
    exact ⟨More.putFile (hn.append _) (fun e => hx e), put_clean hc hp⟩
  · next hx =>
    cases h
    exact ⟨More.put (hn.append _) (fun e => hx e), put_clean hc hp⟩

theorem extract_more {dest root : Path} : ∀ (ms : List (List Str × Member)) {w w' : World}, Near root dest →
    CleanFs w.fs → CleanPath dest → (∀ m ∈ ms, CleanPath m.1) → extract dest w ms = some w' →
    More root w w' ∧ CleanFs w'.fs
  | [], w, w', _, hc, _, _, h => by cases h; exact ⟨.refl _ _, hc⟩
  | m :: ms, w, w', hn, hc, hd, hm, h => by
    unfold extract at h
    split at h
    · cases h
    · next w1 h1 =>
      obtain ⟨m1, c1⟩ := extractOne_more hn hc hd (hm m List.mem_cons_self) h1
      obtain ⟨m2, c2⟩ := extract_more ms hn c1 hd (fun x hx => hm x (List.mem_cons_of_mem _ hx)) h
      exact ⟨m1.trans m2, c2⟩

/-- The directories above the copy are there. -/
def Above (fs : Fs) (root : Path) : Prop := ∀ a b, root = a ++ b → a ≠ [] → b ≠ [] → fs.lookup a = some .dir

theorem mkdirs_more {root : Path} : ∀ (ns : List Str) (at_ : Path) {w w' : World}, Above w.fs root →
    Near root (at_ ++ ns) → mkdirs w at_ ns = some w' → More root w w'
  | [], at_, w, w', _, _, h => by cases h; exact .refl _ _
  | n :: ns, at_, w, w', ha, hn, h => by
    have e : at_ ++ n :: ns = (at_ ++ [n]) ++ ns := by rw [List.append_assoc]; rfl
    unfold mkdirs at h
    split at h
    · exact mkdirs_more ns _ ha (e ▸ hn) h
    · cases h
    · next hl =>
      have hnear : Near root (at_ ++ [n]) := by
        obtain ⟨a, x, m, b, e1, e2⟩ := hn
        rw [e] at e2
        rcases List.append_eq_append_iff.1 e2 with ⟨c, e3, e4⟩ | ⟨c, e3, e4⟩
        · -- the new directory is above the copy or beside it
          have hne : at_ ++ [n] ≠ [] := by simp
          have := ha (at_ ++ [n]) (c ++ [x]) (by rw [e1, e3, List.append_assoc]) hne (by simp)
          rw [hl] at this
          cases this
        · cases c with
          | nil =>
            rw [List.append_nil] at e3
            rw [List.nil_append] at e4
            have hne : at_ ++ [n] ≠ [] := by simp
            have := ha (at_ ++ [n]) [x] (by rw [e1, e3]) hne (by simp)
            rw [hl] at this
            cases this
          | cons y c =>
            have e4 : (x ++ m) :: b = y :: (c ++ ns) := e4
            obtain ⟨e5, e6⟩ := List.cons.inj e4
            exact ⟨a, x, m, c, e1, by rw [e3, e5]⟩
      have hm := More.put (w := w) (n := .dir) hnear (by rw [hl]; exact fun h => nomatch h)
      refine hm.trans (mkdirs_more ns _ ?_ (e ▸ hn) h)
      intro a b e1 h1 h2
      show (put w.fs (at_ ++ [n]) .dir).lookup a = _
      rw [lookup_put]
      split
      · rfl
      · exact ha a b e1 h1 h2

theorem mkdirs_clean : ∀ (ns : List Str) (at_ : Path) {w w' : World}, CleanFs w.fs → CleanPath (at_ ++ ns) →
    mkdirs w at_ ns = some w' → CleanFs w'.fs
  | [], at_, w, w', hc, _, h => by cases h; exact hc
  | n :: ns, at_, w, w', hc, hn, h => by
    have e : at_ ++ n :: ns = (at_ ++ [n]) ++ ns := by rw [List.append_assoc]; rfl
    rw [e] at hn
    unfold mkdirs at h
    split at h
    · exact mkdirs_clean ns _ hc hn h
    · cases h
    · refine mkdirs_clean ns _ ?_ hn h
      exact put_clean hc fun x hx => hn x (List.mem_append_left _ hx)

theorem one_word {s : Str} (h : words s = [s]) : ∀ c ∈ s, isWs c = false := by
  have := words_isWord (s := s) (w := s) (by rw [h]; exact List.mem_cons_self)
  exact this.2

theorem mem_text {p : Path} {n : Str} (h : n ∈ p) {c : Char} (hc : c ∈ n) : c ∈ text p := by
  refine List.mem_cons_of_mem _ ?_
  induction p with
  | nil => cases h
  | cons m p ih =>
    cases p with
    | nil =>
      rcases List.mem_cons.1 h with rfl | h
      · exact hc
      · cases h
    | cons y p =>
      rw [join_two]
      rcases List.mem_cons.1 h with rfl | h
      · exact List.mem_append_left _ hc
      · exact List.mem_append_right _ (List.mem_cons_of_mem _ (ih h))

/-- What there has to be for the copy to be made. -/
structure Ready (w : World) (root : Path) : Prop where
  clean : CleanFs w.fs
  place : Place w.fs root
  above : Above w.fs root
  dir : w.fs.lookup root = some .dir

theorem Ready.more {w w' : World} {root : Path} (h : Ready w root) (m : More root w w') (hc : CleanFs w'.fs) :
    Ready w' root := by
  have habove : Above w'.fs root := by
    intro a b e ha hb
    rw [m.same]
    · exact h.above a b e ha hb
    · rintro ⟨a', n, x, b', e1, e2⟩
      have := congrArg List.length e
      have e3 := congrArg List.length e1
      have e4 := congrArg List.length e2
      rw [List.length_append] at this e3 e4
      have hb : b.length ≠ 0 := fun h0 => hb (List.length_eq_zero_iff.1 h0)
      simp only [List.length_cons, List.length_nil] at this e3 e4
      omega
  refine ⟨hc, ⟨h.place.ne, h.place.clean, fun a b e ha t ht => ?_⟩, habove, m.dir h.dir⟩
  rw [List.nil_append] at ht
  cases b with
  | nil =>
    rw [List.append_nil] at e
    rw [← e, m.dir h.dir] at ht
    cases ht
  | cons x b =>
    rw [habove a (x :: b) e ha (List.cons_ne_nil _ _)] at ht
    cases ht

theorem include_more {k : Nat} {root : Path} {w w' : World} {i : List (List Str × Member) × Option Str}
    (hr : Ready w root) (hi : ∀ m ∈ i.1, CleanPath m.1) (h : includeOne k root w i = some w') :
    More root w w' ∧ CleanFs w'.fs := by
  unfold includeOne at h
  split at h
  · have hn : Near root root := by simpa using Near.self hr.place.ne []
    exact extract_more _ hn hr.clean hr.place.clean hi h
  · split at h
    · cases h
    · next p _ dest hv =>
      obtain ⟨hn, hg⟩ := validate_near hr.place hv
      split at h
      · cases h
      · next w1 h1 =>
        split at h
        · next hw =>
          have hd : CleanPath dest := fun n hx => by
            obtain ⟨g1, g2, g3, g4⟩ := hg n hx
            exact ⟨g2, g3, g4, g1, fun c hc => one_word hw c (mem_text hx hc)⟩
          have m1 := mkdirs_more dest [] hr.above hn h1
          have c1 := mkdirs_clean dest [] hr.clean hd h1
          obtain ⟨m2, c2⟩ := extract_more _ hn c1 hd hi h
          exact ⟨m1.trans m2, c2⟩
        · cases h

theorem includeAll_more {k : Nat} {root : Path} : ∀ (is : List (List (List Str × Member) × Option Str)) {w w' : World},
    Ready w root → (∀ i ∈ is, ∀ m ∈ i.1, CleanPath m.1) → includeAll k root w is = some w' →
    More root w w' ∧ Ready w' root
  | [], w, w', hr, _, h => by cases h; exact ⟨.refl _ _, hr⟩
  | i :: is, w, w', hr, hi, h => by
    unfold includeAll at h
    split at h
    · cases h
    · next w1 h1 =>
      obtain ⟨m1, c1⟩ := include_more hr (hi i List.mem_cons_self) h1
      obtain ⟨m2, r2⟩ := includeAll_more is (hr.more m1 c1) (fun x hx => hi x (List.mem_cons_of_mem _ hx)) h
      exact ⟨m1.trans m2, r2⟩

/-! ## The whole -/

theorem newRoot_ne (wd : Path) (n : Nat) : newRoot wd n ≠ [] := by unfold newRoot; simp

theorem newRoot_clean {wd : Path} (h : CleanPath wd) (n : Nat) : CleanPath (newRoot wd n) := by
  intro x hx
  unfold newRoot at hx
  rcases List.mem_append.1 hx with hx | hx
  · exact h x hx
  · rw [List.mem_singleton.1 hx]
    have hd : ∀ c ∈ dec n, c.isDigit = true := fun c hc => dec_digits hc
    have e : "rootfs".toList ++ dec n = 'r' :: ("ootfs".toList ++ dec n) := rfl
    refine ⟨by rw [e]; exact List.cons_ne_nil _ _, ?_, ?_, ?_, ?_⟩
    · rw [e]; intro h; have := (List.cons.inj h).1; revert this; decide
    · rw [e]; intro h; have := (List.cons.inj h).1; revert this; decide
    · intro h
      rcases List.mem_append.1 h with h | h
      · revert h; decide
      · have := hd _ h; revert this; decide
    · intro c hc
      rcases List.mem_append.1 hc with hc | hc
      · have : ∀ c ∈ "rootfs".toList, isWs c = false := by decide
        exact this c hc
      · exact Ks.isDigit_not_ws (hd c hc)

theorem copy_lookup_other {fs : Fs} {src dst q : Path} (h : ¬ Below dst q) :
    (copyLinks fs src dst).lookup q = fs.lookup q := by
  unfold copyLinks
  have hd : q ≠ dst := fun e => h ⟨[], by rw [e, List.append_nil]⟩
  rw [List.cons_append, List.lookup_cons, beq_eq_false_iff_ne.2 hd, List.lookup_append]
  rw [lookup_none (p := q), Option.none_or]
  intro n hn
  obtain ⟨e, _, hx⟩ := List.mem_filterMap.1 hn
  split at hx
  · cases hx; exact h ⟨_, rfl⟩
  · cases hx

theorem copy_clean {fs : Fs} {src dst : Path} (hc : CleanFs fs) (hd : CleanPath dst) : CleanFs (copyLinks fs src dst) := by
  intro e he
  unfold copyLinks at he
  rw [List.cons_append] at he
  rcases List.mem_cons.1 he with rfl | he
  · exact hd
  · rcases List.mem_append.1 he with he | he
    · obtain ⟨x, hx, hy⟩ := List.mem_filterMap.1 he
      split at hy
      · cases hy
        intro n hn
        rcases List.mem_append.1 hn with hn | hn
        · exact hd n hn
        · exact hc x hx n (List.mem_of_mem_drop hn)
      · cases hy
    · exact hc e he

theorem above_near {root a b : Path} (e : root = a ++ b) (hb : b ≠ []) : ¬ Near root a := by
  rintro ⟨a', n, x, b', e1, e2⟩
  have h1 := congrArg List.length e
  have e3 := congrArg List.length e1
  have e4 := congrArg List.length e2
  rw [List.length_append] at h1 e3 e4
  have hb : b.length ≠ 0 := fun h0 => hb (List.length_eq_zero_iff.1 h0)
  simp only [List.length_cons, List.length_nil] at h1 e3 e4
  omega

/-- What the rest needs to know of the copy and the changes. -/
theorem prepare_same {k : Nat} {cwd wd r : Path} {w w' : World} {p : Part} (hwd : CleanPath wd) (hc : CleanFs w.fs)
    (habove : Above w.fs (newRoot wd p.lineno)) (hi : ∀ i ∈ p.includePath, ∀ m ∈ i.1, CleanPath m.1)
    (h : prepare k cwd wd w p = some (w', r)) :
    (∀ q, ¬ Near (newRoot wd p.lineno) q → w'.fs.lookup q = w.fs.lookup q) ∧
    ∀ i, i < w.next → w'.store.lookup i = w.store.lookup i := by
  unfold prepare at h
  split at h
  · cases h; exact ⟨fun _ _ => rfl, fun _ _ => rfl⟩
  · dsimp only at h
    generalize hroot : newRoot wd p.lineno = root at *
    have hne : root ≠ [] := hroot ▸ newRoot_ne wd _
    have hclean : CleanPath root := hroot ▸ newRoot_clean hwd _
    have hself : ∀ q, Below root q → Near root q := fun q ⟨x, e⟩ => e ▸ Near.self hne x
    split at h
    · cases h
    · next src _ =>
      have same0 : ∀ q, ¬ Near root q → (copyLinks (rmTree w.fs root) src root).lookup q = w.fs.lookup q := by
        intro q hq
        rw [copy_lookup_other fun hb => hq (hself q hb), lookup_rmTree _ hne, if_neg]
        intro hx
        obtain ⟨x, e⟩ := List.isPrefixOf_iff_prefix.1 hx
        exact hq (hself q ⟨x, e.symm⟩)
      have habove0 : Above (copyLinks (rmTree w.fs root) src root) root := by
        intro a b e ha hb
        rw [same0 a (above_near e hb)]
        exact habove a b e ha hb
      have hdir0 : (copyLinks (rmTree w.fs root) src root).lookup root = some .dir := by
        unfold copyLinks
        rw [List.cons_append, List.lookup_cons, beq_self_eq_true]
      have ready : Ready { w with fs := copyLinks (rmTree w.fs root) src root } root := by
        refine ⟨copy_clean (hc.of_sub fun e he => rmTree_sub he) hclean, ⟨hne, hclean, fun a b e ha t ht => ?_⟩,
          habove0, hdir0⟩
        rw [List.nil_append] at ht
        have ht : (copyLinks (rmTree w.fs root) src root).lookup a = some (.link t) := ht
        cases b with
        | nil =>
          rw [List.append_nil] at e
          rw [← e, hdir0] at ht
          cases ht
        | cons x b =>
          rw [habove0 a (x :: b) e ha (List.cons_ne_nil _ _)] at ht
          cases ht
      split at h
      · cases h
      · next w1 h1 =>
        obtain ⟨m1, r1⟩ := includeAll_more _ ready hi h1
        split at h
        · cases h
        · next fs2 h2 =>
          obtain ⟨e1, _⟩ := Prod.mk.inj (Option.some.inj h)
          subst e1
          have l2 := excludeAll_less _ r1.clean r1.place h2
          have same2 : ∀ q, ¬ Near root q → fs2.lookup q = w.fs.lookup q := fun q hq =>
            (l2.same q hq).trans ((m1.same q hq).trans (same0 q hq))
          have keep : (∀ q, ¬ Near root q → (putFstab { w1 with fs := fs2 } root p.fstab).fs.lookup q = fs2.lookup q) ∧
              ∀ i, i < w1.next → (putFstab { w1 with fs := fs2 } root p.fstab).store.lookup i = w1.store.lookup i := by
            unfold putFstab
            split
            · exact ⟨fun _ _ => rfl, fun _ _ => rfl⟩
            · split
              · exact ⟨fun _ _ => rfl, fun _ _ => rfl⟩
              · refine ⟨fun q hq => ?_, fun i hi => ?_⟩
                · show (put fs2 _ _).lookup q = _
                  have hqp : q ≠ root ++ ["etc".toList, "fstab".toList] := fun e => hq (e ▸ Near.self hne _)
                  rw [lookup_put, if_neg hqp]
                · show ((w1.next, _) :: w1.store).lookup i = _
                  rw [List.lookup_cons, beq_eq_false_iff_ne.2 (Nat.ne_of_lt hi)]
          refine ⟨fun q hq => (keep.1 q hq).trans (same2 q hq), fun i hi => ?_⟩
          rw [keep.2 i (Nat.lt_of_lt_of_le hi m1.next)]
          exact m1.store i hi

/-- **Nothing else changes.** Preparing a partition does not change what is outside its copy, not even through
hard links: the root file system stays as it is.  Proved for all that is not in a directory beside the copy whose
name begins with the name of the copy, and for names without white space. -/
theorem untouched_partial {k : Nat} {cwd wd r : Path} {w w' : World} {p : Part} (hwd : CleanPath wd) (hc : CleanFs w.fs)
    (habove : Above w.fs (newRoot wd p.lineno)) (hinodes : ∀ q i, w.fs.lookup q = some (.file i) → i < w.next)
    (hi : ∀ i ∈ p.includePath, ∀ m ∈ i.1, CleanPath m.1) (h : prepare k cwd wd w p = some (w', r)) (q : Path)
    (hq : ¬ Near (newRoot wd p.lineno) q) : look w' q = look w q := by
  obtain ⟨h1, h2⟩ := prepare_same hwd hc habove hi h
  unfold look
  rw [h1 q hq]
  cases hl : w.fs.lookup q with
  | none => rfl
  | some n =>
    cases n with
    | file i =>
      show some (Node.file i, w'.store.lookup i) = some (Node.file i, w.store.lookup i)
      rw [h2 i (hinodes q i hl)]
    | dir => rfl
    | link t => rfl

theorem Near.of_below {root q : Path} (h : root ≠ []) (hb : Below root q) : Near root q := by
  obtain ⟨r, e⟩ := hb
  exact e ▸ Near.self h r

/-- The only other places: directories beside the copy with longer names. -/
theorem near_iff {wd : Path} {n : Nat} {q : Path} : Near (newRoot wd n) q ↔
    Below (newRoot wd n) q ∨ ∃ m b, m ≠ [] ∧ q = wd ++ ("rootfs".toList ++ dec n ++ m) :: b := by
  constructor
  · rintro ⟨a, x, m, b, e1, e2⟩
    unfold newRoot at e1 ⊢
    obtain ⟨e3, e4⟩ := List.append_inj' e1 rfl
    have e4 := (List.cons.inj e4).1
    rw [e2, ← e3, ← e4]
    cases m with
    | nil => exact Or.inl ⟨b, by rw [List.append_nil, List.append_assoc]; rfl⟩
    | cons c m => exact Or.inr ⟨c :: m, b, List.cons_ne_nil _ _, rfl⟩
  · rintro (h | ⟨m, b, _, e⟩)
    · exact .of_below (newRoot_ne wd n) h
    · exact ⟨wd, _, m, b, rfl, e⟩

/-! ## The copy -/

/-- What is copied is what is in the directory. -/
theorem copied {fs : Fs} {src dst r : Path} (h : ∀ e ∈ fs, ¬ Below dst e.1) :
    (copyLinks fs src dst).lookup (dst ++ r) = if r = [] then some .dir else fs.lookup (src ++ r) := by
  have rest : ∀ (l : Fs), r ≠ [] → (l.filterMap fun e => if src.isPrefixOf e.1 ∧ e.1 ≠ src then
      some (dst ++ e.1.drop src.length, e.2) else none).lookup (dst ++ r) = l.lookup (src ++ r) := by
    intro l hr
    induction l with
    | nil => rfl
    | cons e l ih =>
      obtain ⟨p, n⟩ := e
      rw [List.filterMap_cons, List.lookup_cons]
      by_cases hp : src ++ r = p
      · subst hp
        rw [beq_self_eq_true]
        have h1 : src.isPrefixOf (src ++ r) = true ∧ src ++ r ≠ src := by
          refine ⟨List.isPrefixOf_iff_prefix.2 ⟨r, rfl⟩, fun e => hr ?_⟩
          have := congrArg List.length e
          rw [List.length_append] at this
          exact List.length_eq_zero_iff.1 (by omega)
        rw [if_pos h1]
        dsimp only
        rw [List.lookup_cons, List.drop_left, beq_self_eq_true]
      · rw [beq_eq_false_iff_ne.2 hp]
        by_cases h1 : src.isPrefixOf p = true ∧ p ≠ src
        · rw [if_pos h1]
          dsimp only
          obtain ⟨t, e⟩ := List.isPrefixOf_iff_prefix.1 h1.1
          have hne : dst ++ r ≠ dst ++ p.drop src.length := by
            intro e2
            have e3 := List.append_cancel_left e2
            rw [← e, List.drop_left] at e3
            exact hp (by rw [e3, e])
          rw [List.lookup_cons, beq_eq_false_iff_ne.2 hne]
          exact ih
        · rw [if_neg h1]
          exact ih
  unfold copyLinks
  rw [List.cons_append, List.lookup_cons]
  by_cases hr : r = []
  · rw [if_pos hr, hr, List.append_nil, beq_self_eq_true]
  · rw [if_neg hr]
    have hne : dst ++ r ≠ dst := fun e => hr (by
      have := congrArg List.length e
      rw [List.length_append] at this
      exact List.length_eq_zero_iff.1 (by omega))
    rw [beq_eq_false_iff_ne.2 hne, List.lookup_append, rest fs hr, lookup_none (fs := fs) (p := dst ++ r), Option.or_none]
    exact fun n hn => h _ hn ⟨r, rfl⟩

/-! ## Excluding: what is gone -/

/-- A file system in which each file is in a directory. -/
def Closed (fs : Fs) : Prop := ∀ e ∈ fs, ∀ a n b, e.1 = a ++ n :: b → ∃ x, fs.lookup (a ++ [n]) = some x

/-- A path to be excluded that is taken as it is: relative, without `..`, and no link is on its way. -/
structure Direct (fs : Fs) (root : Path) (p : Str) : Prop where
  rel : startsWith p ['/'] = false
  dots : ['.', '.'] ∉ comps p
  nolink : NoLink fs [] (root ++ comps p)

theorem closed_below {fs : Fs} (h : Closed fs) {full r : Path} {n : Node} (hf : full ≠ [])
    (hm : (full ++ r, n) ∈ fs) : ∃ x, fs.lookup full = some x := by
  rcases List.eq_nil_or_concat full with h0 | ⟨a, m, e⟩
  · exact absurd h0 hf
  · rw [List.concat_eq_append] at e
    subst e
    exact h _ hm a m r (by rw [List.append_assoc]; rfl)

theorem rmTree_closed {fs : Fs} (h : Closed fs) (p : Path) : Closed (rmTree fs p) := by
  by_cases hp : p = []
  · unfold rmTree; rw [if_pos hp]; exact h
  · intro e he a n b e1
    have he' := rmTree_sub he
    obtain ⟨x, hx⟩ := h e he' a n b e1
    refine ⟨x, ?_⟩
    rw [lookup_rmTree fs hp, if_neg]
    · exact hx
    · intro hpre
      unfold rmTree at he
      rw [if_neg hp] at he
      have := (List.mem_filter.1 he).2
      have hpe : p.isPrefixOf e.1 = true := by
        obtain ⟨t, et⟩ := List.isPrefixOf_iff_prefix.1 hpre
        exact List.isPrefixOf_iff_prefix.2 ⟨t ++ b, by rw [← List.append_assoc, et, e1, List.append_assoc]; rfl⟩
      rw [hpe] at this
      cases this

theorem rmAll_lookup {cwd full : Path} : ∀ (l : List Str) (fs : Fs), (∀ x ∈ l, CleanPath (full ++ [x])) → ∀ q,
    (l.foldl (fun f x => rmWords cwd f (text (full ++ [x]))) fs).lookup q =
      if l.any fun x => (full ++ [x]).isPrefixOf q then none else fs.lookup q
  | [], fs, _, q => rfl
  | x :: l, fs, h, q => by
    rw [List.foldl_cons, rmWords_clean (h x List.mem_cons_self),
      rmAll_lookup l _ (fun y hy => h y (List.mem_cons_of_mem _ hy)) q, lookup_rmTree fs (by simp), List.any_cons]
    cases (full ++ [x]).isPrefixOf q <;> cases l.any fun x => (full ++ [x]).isPrefixOf q <;> rfl

theorem rmAll_closed {cwd full : Path} : ∀ (l : List Str) (fs : Fs), (∀ x ∈ l, CleanPath (full ++ [x])) → Closed fs →
    Closed (l.foldl (fun f x => rmWords cwd f (text (full ++ [x]))) fs)
  | [], fs, _, hc => hc
  | x :: l, fs, h, hc => by
    rw [List.foldl_cons, rmWords_clean (h x List.mem_cons_self)]
    exact rmAll_closed l _ (fun y hy => h y (List.mem_cons_of_mem _ hy)) (rmTree_closed hc _)

theorem listdir_of_mem {fs : Fs} {p : Path} {x : Str} {n : Node} (h : (p ++ [x], n) ∈ fs) : x ∈ listdir fs p := by
  unfold listdir
  refine List.mem_filterMap.2 ⟨_, h, ?_⟩
  dsimp only
  rw [List.dropLast_concat, if_pos rfl, List.getLast?_concat]

theorem exclude_iff {k : Nat} {cwd root : Path} {fs fs' : Fs} {p : Str} (hc : CleanFs fs) (hcl : Closed fs)
    (hp : Place fs root) (hd : Direct fs root p) (h : excludeOne k cwd root fs p = some fs') :
    (∀ q, Gone root p q → fs'.lookup q = none) ∧ (∀ q, ¬ Gone root p q → fs'.lookup q = fs.lookup q) ∧ Closed fs' := by
  unfold excludeOne at h
  split at h
  · cases h
  · next full hv =>
    have hfull : full = root ++ comps p := by
      unfold validate at hv
      rw [hd.rel, if_neg Bool.false_ne_true] at hv
      split at hv
      · next f r e1 e2 =>
        split at hv
        · cases hv
          refine real_nolink k [] _ full e1 (fun hm => ?_) hd.nolink
          rcases List.mem_append.1 hm with hm | hm
          · exact (hp.clean _ hm).dots rfl
          · exact hd.dots hm
        · cases hv
      · cases hv
    have hne : full ≠ [] := by rw [hfull]; exact fun h => hp.ne (List.append_eq_nil_iff.1 h).1
    split at h
    · next hl =>
      cases h
      refine ⟨fun q ⟨r, e, _⟩ => ?_, fun _ _ => rfl, hcl⟩
      refine lookup_none fun n hn => ?_
      rw [e, ← hfull] at hn
      obtain ⟨x, hx⟩ := closed_below hcl hne hn
      rw [hl] at hx
      cases hx
    · next n hl =>
      have hfc : CleanPath full := hc _ (lookup_mem hl)
      split at h
      · next hslash =>
        split at h
        · cases h
          have hcl2 : ∀ x ∈ listdir fs full, CleanPath (full ++ [x]) := fun x hx => by
            obtain ⟨m, hm⟩ := listdir_mem hx
            exact hc _ hm
          refine ⟨fun q ⟨r, e, hr⟩ => ?_, fun q hq => ?_, rmAll_closed _ _ hcl2 hcl⟩
          · rw [rmAll_lookup _ _ hcl2]
            by_cases hany : ((listdir fs full).any fun x => (full ++ [x]).isPrefixOf q) = true
            · rw [if_pos hany]
            · rw [if_neg hany]
              refine lookup_none fun m hm => hany ?_
              have hr := hr hslash
              cases r with
              | nil => exact absurd rfl hr
              | cons x r =>
                rw [← hfull] at e
                obtain ⟨y, hy⟩ := hcl _ hm full x r e
                exact List.any_eq_true.2 ⟨x, listdir_of_mem (lookup_mem hy), List.isPrefixOf_iff_prefix.2
                  ⟨r, by rw [e, List.append_assoc]; rfl⟩⟩
          · rw [rmAll_lookup _ _ hcl2, if_neg]
            intro hany
            obtain ⟨x, _, hx⟩ := List.any_eq_true.1 hany
            obtain ⟨r, e⟩ := List.isPrefixOf_iff_prefix.1 hx
            exact hq ⟨x :: r, by rw [← e, hfull, List.append_assoc (root ++ comps p)]; rfl, fun _ => List.cons_ne_nil _ _⟩
        · cases h
      · next hslash =>
        cases h
        rw [rmWords_clean hfc]
        refine ⟨fun q ⟨r, e, _⟩ => ?_, fun q hq => ?_, rmTree_closed hcl _⟩
        · rw [lookup_rmTree fs hne, if_pos (List.isPrefixOf_iff_prefix.2 ⟨r, by rw [e, hfull]⟩)]
        · rw [lookup_rmTree fs hne, if_neg]
          intro hx
          obtain ⟨r, e⟩ := List.isPrefixOf_iff_prefix.1 hx
          exact hq ⟨r, by rw [← e, hfull], fun h => absurd h hslash⟩

/-- **What is excluded is gone, all else stays**, whatever the order of the excluded paths.  Proved for names
without white space and for paths with no link on their way. -/
theorem excluded_partial {k : Nat} {cwd root : Path} : ∀ {ps : List Str} {fs fs' : Fs}, CleanFs fs → Closed fs →
    Place fs root → (∀ p ∈ ps, Direct fs root p) → excludeAll k cwd root fs ps = some fs' → ∀ q,
    ((∃ p ∈ ps, Gone root p q) → fs'.lookup q = none) ∧ ((∀ p ∈ ps, ¬ Gone root p q) → fs'.lookup q = fs.lookup q)
  | [], fs, fs', _, _, _, _, h, q => by
    cases h
    exact ⟨fun ⟨_, hx, _⟩ => (nomatch hx), fun _ => rfl⟩
  | p :: ps, fs, fs', hc, hcl, hp, hd, h, q => by
    unfold excludeAll at h
    split at h
    · cases h
    · next f hf =>
      obtain ⟨g1, g2, g3⟩ := exclude_iff hc hcl hp (hd p List.mem_cons_self) hf
      have l1 := exclude_less hc hp hf
      have hd2 : ∀ x ∈ ps, Direct f root x := fun x hx => by
        obtain ⟨d1, d2, d3⟩ := hd x (List.mem_cons_of_mem _ hx)
        exact ⟨d1, d2, fun a b e ha t ht => d3 a b e ha t (l1.less _ _ ht)⟩
      obtain ⟨i1, i2⟩ := excluded_partial (hc.of_sub l1.sub) g3 (hp.less l1) hd2 h q
      have l2 := excludeAll_less ps (hc.of_sub l1.sub) (hp.less l1) h
      constructor
      · rintro ⟨x, hx, hg⟩
        rcases List.mem_cons.1 hx with rfl | hx
        · cases hl : fs'.lookup q with
          | none => rfl
          | some n =>
            have := l2.less q n hl
            rw [g1 q hg] at this
            cases this
        · exact i1 ⟨x, hx, hg⟩
      · intro hall
        rw [i2 fun x hx => hall x (List.mem_cons_of_mem _ hx)]
        exact g2 q (hall p List.mem_cons_self)

/-! ## Including: what is there -/

/-- What a member of an archive should become. -/
def Is (w : World) (q : Path) : Member → Prop
  | .file c => ∃ i, w.fs.lookup q = some (.file i) ∧ w.store.lookup i = some c
  | .dir => w.fs.lookup q = some .dir
  | .link t => w.fs.lookup q = some (.link t)

theorem extractOne_is {dest : Path} {w w' : World} {m : List Str × Member} (h : extractOne dest w m = some w') :
    Is w' (dest ++ m.1) m.2 ∧ (∀ q, q ≠ dest ++ m.1 → w'.fs.lookup q = w.fs.lookup q) ∧ w.next ≤ w'.next ∧
    ∀ i, i < w.next → w'.store.lookup i = w.store.lookup i := by
  obtain ⟨rel, m⟩ := m
  have hput : ∀ n, (put w.fs (dest ++ rel) n).lookup (dest ++ rel) = some n := fun n => by rw [lookup_put, if_pos rfl]
  have hother : ∀ n q, q ≠ dest ++ rel → (put w.fs (dest ++ rel) n).lookup q = w.fs.lookup q := fun n q hq => by
    rw [lookup_put, if_neg hq]
  unfold extractOne at h
  dsimp only at h ⊢
  split at h
  · next hl => cases h; exact ⟨hl, fun _ _ => rfl, Nat.le_refl _, fun _ _ => rfl⟩
  · cases h; exact ⟨hput _, hother _, Nat.le_refl _, fun _ _ => rfl⟩
  · cases h
  · next c _ =>
    cases h
    refine ⟨⟨w.next, hput _, ?_⟩, hother _, Nat.le_succ _, fun i hi => ?_⟩
    · show ((w.next, c) :: w.store).lookup w.next = _
      rw [List.lookup_cons, beq_self_eq_true]
    · show ((w.next, c) :: w.store).lookup i = _
      rw [List.lookup_cons, beq_eq_false_iff_ne.2 (Nat.ne_of_lt hi)]
  · cases h; exact ⟨hput _, hother _, Nat.le_refl _, fun _ _ => rfl⟩

/-- **What is included is there**, with its content, and all else stays; if no name is twice in the archive. -/
theorem included {dest : Path} : ∀ {ms : List (List Str × Member)} {w w' : World}, (ms.map (·.1)).Nodup →
    (∀ q i, w.fs.lookup q = some (.file i) → i < w.next) → extract dest w ms = some w' →
    (∀ m ∈ ms, Is w' (dest ++ m.1) m.2) ∧ (∀ q, (∀ m ∈ ms, q ≠ dest ++ m.1) → look w' q = look w q)
  | [], w, w', _, _, h => by cases h; exact ⟨fun _ h => (nomatch h), fun _ _ => rfl⟩
  | m :: ms, w, w', hn, hi, h => by
    unfold extract at h
    split at h
    · cases h
    · next w1 h1 =>
      obtain ⟨e1, e2, e3, e4⟩ := extractOne_is h1
      rw [List.map_cons, List.nodup_cons] at hn
      have hi1 : ∀ q i, w1.fs.lookup q = some (.file i) → i < w1.next := by
        intro q i hq
        by_cases hqm : q = dest ++ m.1
        · obtain ⟨rel, x⟩ := m
          unfold extractOne at h1
          dsimp only at h1 hqm
          subst hqm
          split at h1
          · cases h1; exact hi _ i hq
          · cases h1
            have hq : (put w.fs (dest ++ rel) .dir).lookup (dest ++ rel) = _ := hq
            rw [lookup_put, if_pos rfl] at hq
            cases hq
          · cases h1
          · cases h1
            have hq : (put w.fs (dest ++ rel) (.file w.next)).lookup (dest ++ rel) = _ := hq
            rw [lookup_put, if_pos rfl] at hq
            cases hq
            exact Nat.lt_succ_self _
          · cases h1
            have hq : (put w.fs (dest ++ rel) (.link _)).lookup (dest ++ rel) = _ := hq
            rw [lookup_put, if_pos rfl] at hq
            cases hq
        · rw [e2 q hqm] at hq
          exact Nat.lt_of_lt_of_le (hi q i hq) e3
      obtain ⟨i1, i2⟩ := included hn.2 hi1 h
      have later : look w' (dest ++ m.1) = look w1 (dest ++ m.1) := i2 _ fun x hx e =>
        hn.1 (List.mem_map.2 ⟨x, hx, (List.append_cancel_left e).symm⟩)
      refine ⟨fun x hx => ?_, fun q hq => ?_⟩
      · rcases List.mem_cons.1 hx with rfl | hx
        · obtain ⟨rel, x⟩ := x
          dsimp only at e1 later ⊢
          unfold look at later
          cases x with
          | file c =>
            obtain ⟨i, f1, f2⟩ := e1
            rw [f1] at later
            cases hl : w'.fs.lookup (dest ++ rel) with
            | none => rw [hl] at later; cases later
            | some n =>
              rw [hl] at later
              obtain ⟨e5, e6⟩ := Prod.mk.inj (Option.some.inj later)
              subst e5
              have e6 : w'.store.lookup i = w1.store.lookup i := e6
              exact ⟨i, hl, e6.trans f2⟩
          | dir =>
            have e1 : w1.fs.lookup (dest ++ rel) = some .dir := e1
            rw [e1] at later
            cases hl : w'.fs.lookup (dest ++ rel) with
            | none => rw [hl] at later; cases later
            | some n =>
              rw [hl] at later
              obtain ⟨e5, e6⟩ := Prod.mk.inj (Option.some.inj later)
              subst e5
              exact hl
          | link t =>
            have e1 : w1.fs.lookup (dest ++ rel) = some (.link t) := e1
            rw [e1] at later
            cases hl : w'.fs.lookup (dest ++ rel) with
            | none => rw [hl] at later; cases later
            | some n =>
              rw [hl] at later
              obtain ⟨e5, e6⟩ := Prod.mk.inj (Option.some.inj later)
              subst e5
              exact hl
        · exact i1 x hx
      · rw [i2 q fun x hx => hq x (List.mem_cons_of_mem _ hx)]
        unfold look
        rw [e2 q (hq m List.mem_cons_self)]
        cases hl : w.fs.lookup q with
        | none => rfl
        | some n =>
          cases n with
          | file i =>
            show some (Node.file i, w1.store.lookup i) = some (Node.file i, w.store.lookup i)
            rw [e4 i (hi q i hl)]
          | dir => rfl
          | link t => rfl

/-! ## From the beginning to the end -/

theorem apart {root src r : Path} (h1 : ¬ Below src root) (h2 : ¬ Below root src) : ¬ Below root (src ++ r) := by
  rintro ⟨x, e⟩
  rcases List.append_eq_append_iff.1 e with ⟨a, e1, _⟩ | ⟨a, e1, _⟩
  · exact h1 ⟨a, e1⟩
  · exact h2 ⟨a, e1⟩

theorem rmTree_apart {fs : Fs} {root q : Path} (h : ¬ Below root q) : (rmTree fs root).lookup q = fs.lookup q := by
  by_cases hr : root = []
  · unfold rmTree; rw [if_pos hr]
  · rw [lookup_rmTree fs hr, if_neg]
    intro hx
    obtain ⟨x, e⟩ := List.isPrefixOf_iff_prefix.1 hx
    exact h ⟨x, e.symm⟩

theorem rmTree_none {fs : Fs} {root : Path} (hne : root ≠ []) : ∀ e ∈ rmTree fs root, ¬ Below root e.1 := by
  rintro e he ⟨x, hx⟩
  unfold rmTree at he
  rw [if_neg hne] at he
  have := (List.mem_filter.1 he).2
  rw [hx, List.isPrefixOf_iff_prefix.2 ⟨x, rfl⟩] at this
  cases this

/-- The copy of a root file system at its place: what is there. -/
theorem copy_at {fs : Fs} {src root r : Path} (hne : root ≠ []) (h1 : ¬ Below src root) (h2 : ¬ Below root src) (hr : r ≠ []) :
    (copyLinks (rmTree fs root) src root).lookup (root ++ r) = fs.lookup (src ++ r) := by
  rw [copied (rmTree_none hne), if_neg hr, rmTree_apart (apart h1 h2)]

theorem copy_dir {fs : Fs} {src root : Path} : (copyLinks fs src root).lookup root = some .dir := by
  unfold copyLinks
  rw [List.cons_append, List.lookup_cons, beq_self_eq_true]

theorem copy_above {fs : Fs} {src root : Path} (habove : Above fs root) :
    Above (copyLinks (rmTree fs root) src root) root := by
  intro a b e ha hb
  have hnb : ¬ Below root a := by
    rintro ⟨x, ex⟩
    have := congrArg List.length ex
    rw [e, List.length_append, List.length_append] at this
    exact hb (List.length_eq_zero_iff.1 (by omega))
  rw [copy_lookup_other hnb, rmTree_apart hnb]
  exact habove a b e ha hb

theorem copy_place {fs : Fs} {src root : Path} (hne : root ≠ []) (hclean : CleanPath root) (habove : Above fs root) :
    Place (copyLinks (rmTree fs root) src root) root := by
  refine ⟨hne, hclean, fun a b e ha t ht => ?_⟩
  rw [List.nil_append] at ht
  cases b with
  | nil =>
    rw [List.append_nil] at e
    rw [← e, copy_dir] at ht
    cases ht
  | cons x b =>
    rw [copy_above habove a (x :: b) e ha (List.cons_ne_nil _ _)] at ht
    cases ht

/-- In the copy each file is in a directory too. -/
theorem copy_closed {fs : Fs} {src root : Path} (hne : root ≠ []) (hcl : Closed fs) (habove : Above fs root)
    (h1 : ¬ Below src root) (h2 : ¬ Below root src) : Closed (copyLinks (rmTree fs root) src root) := by
  have onroot : ∀ a n b, root = a ++ n :: b → ∃ x, (copyLinks (rmTree fs root) src root).lookup (a ++ [n]) = some x := by
    intro a n b e
    cases b with
    | nil => rw [← e]; exact ⟨_, copy_dir⟩
    | cons m b =>
      exact ⟨_, copy_above habove (a ++ [n]) (m :: b) (by rw [e, List.append_assoc]; rfl) (by simp) (List.cons_ne_nil _ _)⟩
  intro e he a n b e1
  have he' : e ∈ (root, Node.dir) :: ((rmTree fs root).filterMap fun e => if src.isPrefixOf e.1 ∧ e.1 ≠ src then
    some (root ++ e.1.drop src.length, e.2) else none) ++ rmTree fs root := he
  rcases List.mem_append.1 he' with he' | he'
  · rcases List.mem_cons.1 he' with he' | he'
    · subst he'; exact onroot a n b e1
    · obtain ⟨e0, hm, hx⟩ := List.mem_filterMap.1 he'
      by_cases hp : src.isPrefixOf e0.1 = true ∧ e0.1 ≠ src
      · rw [if_pos hp] at hx
        have hx := Option.some.inj hx
        obtain ⟨r, er⟩ := List.isPrefixOf_iff_prefix.1 hp.1
        have e2 : e.1 = root ++ r := by rw [← hx, ← er, List.drop_left]
        rw [e2] at e1
        rcases List.append_eq_append_iff.1 e1 with ⟨x, ex, ey⟩ | ⟨x, ex, ey⟩
        · -- within what is copied
          rw [ex, List.append_assoc, copy_at hne h1 h2 (by simp)]
          obtain ⟨y, hy⟩ := hcl e0 (rmTree_sub hm) (src ++ x) n b (by rw [← er, ey, List.append_assoc])
          exact ⟨y, by rw [← List.append_assoc]; exact hy⟩
        · -- above the copy, or its first name
          cases x with
          | nil =>
            rw [List.append_nil] at ex
            have ey : n :: b = r := ey
            rw [← ex, copy_at hne h1 h2 (List.cons_ne_nil _ _)]
            exact hcl e0 (rmTree_sub hm) src n b (by rw [← er, ey])
          | cons m x =>
            have := (List.cons.inj ey).1
            subst this
            exact onroot a n x ex
      · rw [if_neg hp] at hx; cases hx
  · have hnb : ¬ Below root (a ++ [n]) := by
      rintro ⟨x, ex⟩
      exact rmTree_none hne e he' ⟨x ++ b, by rw [e1, ← List.append_assoc, ← ex, List.append_assoc]; rfl⟩
    obtain ⟨y, hy⟩ := rmTree_closed hcl root e he' a n b e1
    exact ⟨y, by rw [copy_lookup_other hnb]; exact hy⟩

/-- A path to be excluded that is taken as it is: relative, without `..`, and nothing on its way is a link in the
root file system. -/
structure Plain (fs : Fs) (src : Path) (p : Str) : Prop where
  rel : startsWith p ['/'] = false
  dots : ['.', '.'] ∉ comps p
  nolink : ∀ a b, comps p = a ++ b → a ≠ [] → ∀ t, fs.lookup (src ++ a) ≠ some (.link t)

/-- **The content of a partition with paths to exclude.**  It is a copy of the root file system, in which all that is
excluded is gone and all else is there (the `fstab` may be another one). -/
theorem prepared_excluded_partial {k : Nat} {cwd wd r : Path} {w w' : World} {p : Part} (hwd : CleanPath wd)
    (hc : CleanFs w.fs) (hcl : Closed w.fs) (habove : Above w.fs (newRoot wd p.lineno))
    (h1 : ¬ Below p.rootfsDir (newRoot wd p.lineno)) (h2 : ¬ Below (newRoot wd p.lineno) p.rootfsDir)
    (hcd : p.changeDirectory = none) (hinc : p.includePath = []) (hex : p.excludePath ≠ [])
    (hd : ∀ x ∈ p.excludePath, Plain w.fs p.rootfsDir x) (h : prepare k cwd wd w p = some (w', r)) :
    r = newRoot wd p.lineno ∧ ∀ rel, rel ≠ [] → rel ≠ ["etc".toList, "fstab".toList] →
      ((∃ x ∈ p.excludePath, Gone r x (r ++ rel)) → w'.fs.lookup (r ++ rel) = none) ∧
      ((∀ x ∈ p.excludePath, ¬ Gone r x (r ++ rel)) → w'.fs.lookup (r ++ rel) = w.fs.lookup (p.rootfsDir ++ rel)) := by
  unfold prepare at h
  rw [if_neg (fun hx => hex hx.1)] at h
  dsimp only at h
  generalize hroot : newRoot wd p.lineno = root at *
  have hne : root ≠ [] := hroot ▸ newRoot_ne wd _
  have hclean : CleanPath root := hroot ▸ newRoot_clean hwd _
  have ho : origDir (rmTree w.fs root) k p = some p.rootfsDir := by
    unfold origDir; rw [hcd]
  rw [ho, hinc] at h
  dsimp only at h
  unfold includeAll at h
  dsimp only at h
  split at h
  · cases h
  · next fs2 hf =>
    obtain ⟨e1, e2⟩ := Prod.mk.inj (Option.some.inj h)
    subst e2
    refine ⟨rfl, fun rel hrel hfst => ?_⟩
    have hput : w'.fs.lookup (root ++ rel) = fs2.lookup (root ++ rel) := by
      rw [← e1]
      unfold putFstab
      split
      · rfl
      · split
        · rfl
        · show (put fs2 _ _).lookup _ = _
          have hne' : root ++ rel ≠ root ++ ["etc".toList, "fstab".toList] := fun e => hfst (List.append_cancel_left e)
          rw [lookup_put, if_neg hne']
    have hplace := copy_place (fs := w.fs) (src := p.rootfsDir) hne hclean habove
    have hdir : ∀ x ∈ p.excludePath, Direct (copyLinks (rmTree w.fs root) p.rootfsDir root) root x := by
      intro x hx
      obtain ⟨d1, d2, d3⟩ := hd x hx
      refine ⟨d1, d2, fun a b e ha t ht => ?_⟩
      rw [List.nil_append] at ht
      rcases List.append_eq_append_iff.1 e with ⟨y, ey, ez⟩ | ⟨y, ey, ez⟩
      · cases y with
        | nil =>
          rw [List.append_nil] at ey
          rw [ey, copy_dir] at ht; cases ht
        | cons m y =>
          rw [ey, copy_at hne h1 h2 (List.cons_ne_nil _ _)] at ht
          exact d3 (m :: y) b ez (List.cons_ne_nil _ _) t ht
      · exact hplace.direct a y ey ha t (by rw [List.nil_append]; exact ht)
    obtain ⟨i1, i2⟩ := excluded_partial (copy_clean (hc.of_sub fun e he => rmTree_sub he) hclean)
      (copy_closed hne hcl habove h1 h2) hplace hdir hf (root ++ rel)
    rw [hput]
    exact ⟨i1, fun hall => (i2 hall).trans (copy_at hne h1 h2 hrel)⟩

/-- **The content of a partition with an archive to include.**  All members are there with their contents, and all
else is as in the root file system. -/
theorem prepared_included {k : Nat} {cwd wd r : Path} {w w' : World} {p : Part} {ms : List (List Str × Member)}
    (hinodes : ∀ e ∈ w.fs, ∀ i, e.2 = .file i → i < w.next)
    (h1 : ¬ Below p.rootfsDir (newRoot wd p.lineno)) (h2 : ¬ Below (newRoot wd p.lineno) p.rootfsDir)
    (hcd : p.changeDirectory = none) (hinc : p.includePath = [(ms, none)]) (hex : p.excludePath = [])
    (hfs : p.fstab = none) (hn : (ms.map (·.1)).Nodup) (h : prepare k cwd wd w p = some (w', r)) :
    r = newRoot wd p.lineno ∧ (∀ m ∈ ms, Is w' (r ++ m.1) m.2) ∧
    ∀ rel, rel ≠ [] → (∀ m ∈ ms, rel ≠ m.1) → look w' (r ++ rel) = look w (p.rootfsDir ++ rel) := by
  unfold prepare at h
  rw [if_neg (fun hx => by rw [hinc] at hx; exact List.cons_ne_nil _ _ hx.2.1)] at h
  dsimp only at h
  generalize hroot : newRoot wd p.lineno = root at *
  have hne : root ≠ [] := hroot ▸ newRoot_ne wd _
  have ho : origDir (rmTree w.fs root) k p = some p.rootfsDir := by
    unfold origDir; rw [hcd]
  rw [ho, hinc, hex, hfs] at h
  dsimp only at h
  split at h
  · cases h
  · next w1 hw1 =>
    have e1 : excludeAll k cwd root w1.fs [] = some w1.fs := rfl
    rw [e1] at h
    obtain ⟨e2, e3⟩ := Prod.mk.inj (Option.some.inj h)
    have e2 : w1 = w' := e2
    subst e2
    subst e3
    unfold includeAll at hw1
    have hone : includeOne k root { w with fs := copyLinks (rmTree w.fs root) p.rootfsDir root } (ms, none) =
      extract root { w with fs := copyLinks (rmTree w.fs root) p.rootfsDir root } ms := rfl
    rw [hone] at hw1
    split at hw1
    · cases hw1
    · next w2 hw2 =>
      have : w2 = w1 := Option.some.inj hw1
      subst this
      obtain ⟨i1, i2⟩ := included hn (by
        intro q i hq
        have hq : (copyLinks (rmTree w.fs root) p.rootfsDir root).lookup q = some (.file i) := hq
        have hm := lookup_mem hq
        have hm : (q, Node.file i) ∈ (root, Node.dir) :: ((rmTree w.fs root).filterMap fun e =>
          if p.rootfsDir.isPrefixOf e.1 ∧ e.1 ≠ p.rootfsDir then some (root ++ e.1.drop p.rootfsDir.length, e.2)
          else none) ++ rmTree w.fs root := hm
        rcases List.mem_append.1 hm with hm | hm
        · rcases List.mem_cons.1 hm with hm | hm
          · cases hm
          · obtain ⟨e0, g1, g2⟩ := List.mem_filterMap.1 hm
            split at g2
            · have := (Prod.mk.inj (Option.some.inj g2)).2
              exact hinodes e0 (rmTree_sub g1) i this
            · cases g2
        · exact hinodes _ (rmTree_sub hm) i rfl) hw2
      refine ⟨rfl, i1, fun rel hrel hno => ?_⟩
      rw [i2 (root ++ rel) fun m hm e => hno m hm (List.append_cancel_left e)]
      unfold look
      dsimp only
      rw [copy_at hne h1 h2 hrel]

/-! ## Examples and where it goes wrong -/

/-- A path from a text. -/
def pa (s : String) : Path := comps s.toList

/-- A work directory and a root file system. -/
def base : Fs := [(pa "/w", .dir), (pa "/r", .dir), (pa "/r/etc", .dir), (pa "/r/etc/a", .file 0), (pa "/r/var", .dir),
  (pa "/r/var/log", .dir), (pa "/r/var/log/b", .file 1), (pa "/r/var/c", .link "log/b".toList)]

/-- A partition without the logs, and with a file more. -/
def part1 : Part := ⟨3, pa "/r", none, [([([], .dir), (pa "d", .file "D".toList)], some "opt/x".toList)],
  ["var/log/".toList], none⟩

/-- The result. -/
def done1 : Option (World × Path) := prepare 20 (pa "/c") (pa "/w") ⟨base, [(1, "B".toList), (0, "A".toList)], 2⟩ part1

example : done1.map (fun r => ["/w/rootfs3/var/log/b", "/w/rootfs3/var/log", "/w/rootfs3/opt/x/d", "/r/var/log/b",
      "/w/rootfs3/etc/a"].map fun p => look r.1 (pa p)) =
    some [none, some (.dir, none), some (.file 2, some "D".toList), some (.file 1, some "B".toList),
      some (.file 0, some "A".toList)] := by decide +kernel

theorem name_of {n : Str} (h : n ≠ [] ∧ n ≠ ['.'] ∧ n ≠ ['.', '.'] ∧ '/' ∉ n ∧ ∀ c ∈ n, isWs c = false) : Name n :=
  ⟨h.1, h.2.1, h.2.2.1, h.2.2.2.1, h.2.2.2.2⟩

/-- The hypotheses of `untouched_partial` and `excluded_partial` are met. -/
example : CleanPath (pa "/w") ∧ CleanFs base ∧ Above base (newRoot (pa "/w") 3) ∧
    Direct base (pa "/r") "var/log/".toList ∧ Place base (pa "/r") := by
  refine ⟨fun n hn => name_of ?_, fun e he n hn => name_of ?_, ?_, ⟨by decide, by decide, ?_⟩,
    ⟨by decide, fun n hn => name_of ?_, ?_⟩⟩
  · revert n; decide +kernel
  · revert n; revert e; decide +kernel
  · intro a b e ha hb
    have e : pa "/w" ++ ["rootfs3".toList] = a ++ b := e
    match a, e with
    | [x], e =>
      have : [x] = pa "/w" := by
        have := congrArg (List.take 1) e
        exact this.symm
      rw [this]
      decide +kernel
    | [x, y], e =>
      have := congrArg List.length e
      simp only [List.length_append, List.length_cons, List.length_nil] at this
      have h2 : (pa "/w").length = 1 := by decide
      exact absurd (List.length_eq_zero_iff.1 (by omega)) hb
    | x :: y :: z :: a, e =>
      have := congrArg List.length e
      simp only [List.length_append, List.length_cons, List.length_nil] at this
      have h2 : (pa "/w").length = 1 := by decide
      omega
    | [], _ => exact absurd rfl ha
  · intro a b e _ t ht
    have e : pa "/r/var/log" = a ++ b := e
    have : a = (pa "/r/var/log").take a.length := by rw [e, List.take_left]
    rw [this, List.nil_append] at ht
    have hl : a.length ≤ 3 := by
      have := congrArg List.length e
      rw [List.length_append] at this
      have h2 : (pa "/r/var/log").length = 3 := by decide
      omega
    have key : ∀ k, k ≤ 3 → ∀ n, base.lookup ((pa "/r/var/log").take k) = some n → n = .dir := by
      intro k hk n hn
      match k, hk with
      | 0, _ | 1, _ | 2, _ | 3, _ =>
        first
        | (have e1 : base.lookup ((pa "/r/var/log").take 0) = none := by decide +kernel
           rw [e1] at hn; cases hn)
        | (have e1 : base.lookup ((pa "/r/var/log").take 1) = some .dir := by decide +kernel
           rw [e1] at hn; cases hn; rfl)
        | (have e1 : base.lookup ((pa "/r/var/log").take 2) = some .dir := by decide +kernel
           rw [e1] at hn; cases hn; rfl)
        | (have e1 : base.lookup ((pa "/r/var/log").take 3) = some .dir := by decide +kernel
           rw [e1] at hn; cases hn; rfl)
    cases key _ hl _ ht
  · revert n; decide +kernel
  · intro a b e ha t ht
    have hl : a.length ≤ 1 := by
      have := congrArg List.length e
      rw [List.length_append] at this
      have h2 : (pa "/r").length = 1 := by decide
      omega
    have : a = (pa "/r").take a.length := by rw [e, List.take_left]
    have hl1 : a.length = 1 := by
      have : a.length ≠ 0 := fun h => ha (List.length_eq_zero_iff.1 h)
      omega
    rw [this, hl1] at ht
    have e1 : base.lookup ([] ++ (pa "/r").take 1) = some .dir := by decide +kernel
    rw [e1] at ht
    cases ht

example : Closed base := by
  have key : ∀ e ∈ base, ∀ i < e.1.length, (base.lookup (e.1.take (i + 1))).isSome = true := by decide +kernel
  intro e he a n b e1
  have hi : a.length < e.1.length := by rw [e1, List.length_append, List.length_cons]; omega
  have := key e he a.length hi
  have ht : e.1.take (a.length + 1) = a ++ [n] := by
    have e2 : a ++ n :: b = (a ++ [n]) ++ b := by rw [List.append_assoc]; rfl
    have e3 : a.length + 1 = (a ++ [n]).length := by rw [List.length_append]; rfl
    rw [e1, e2, e3, List.take_left]
  rw [ht] at this
  exact Option.isSome_iff_exists.1 this

/-- The other hypotheses of `prepared_excluded_partial` and `prepared_included` are met too. -/
example : ¬ Below (pa "/r") (newRoot (pa "/w") 3) ∧ ¬ Below (newRoot (pa "/w") 3) (pa "/r") ∧
    Plain base (pa "/r") "var/log/".toList ∧ (∀ e ∈ base, ∀ i, e.2 = .file i → i < 2) ∧
    (prepare 20 (pa "/c") (pa "/w") ⟨base, [(1, "B".toList), (0, "A".toList)], 2⟩
      ⟨3, pa "/r", none, [], ["var/log/".toList], none⟩).isSome = true ∧
    (prepare 20 (pa "/c") (pa "/w") ⟨base, [(1, "B".toList), (0, "A".toList)], 2⟩
      ⟨3, pa "/r", none, [([(pa "etc/a", .file "N".toList), (pa "new", .dir)], none)], [], none⟩).isSome = true := by
  refine ⟨?_, ?_, ⟨by decide, by decide, ?_⟩, ?_, by decide +kernel, by decide +kernel⟩
  · rintro ⟨x, e⟩
    have := congrArg List.head? e
    have : some "w".toList = some "r".toList := this
    exact absurd this (by decide)
  · rintro ⟨x, e⟩
    have := congrArg List.head? e
    have : some "r".toList = some "w".toList := this
    exact absurd this (by decide)
  · intro a b e ha t ht
    have e : pa "var/log" = a ++ b := e
    have hl : a.length ≤ 2 := by
      have := congrArg List.length e
      rw [List.length_append] at this
      have h2 : (pa "var/log").length = 2 := by decide
      omega
    have : a = (pa "var/log").take a.length := by rw [e, List.take_left]
    rw [this] at ht
    have h0 : a.length ≠ 0 := fun h => ha (List.length_eq_zero_iff.1 h)
    rcases (by omega : a.length = 1 ∨ a.length = 2) with h | h
    · rw [h] at ht
      have e1 : base.lookup (pa "/r" ++ (pa "var/log").take 1) = some .dir := by decide +kernel
      rw [e1] at ht; cases ht
    · rw [h] at ht
      have e1 : base.lookup (pa "/r" ++ (pa "var/log").take 2) = some .dir := by decide +kernel
      rw [e1] at ht; cases ht
  · intro e he i hi
    have key : ∀ e ∈ base, (match e.2 with | .file i => decide (i < 2) | _ => true) = true := by decide +kernel
    have := key e he
    rw [hi] at this
    simpa using this

/-- The full claim is false: a directory beside the copy with a longer name counts as in it.  What is there is
removed, here from the copy of another partition. -/
theorem beside : (excludeAll 9 [] (pa "/w/rootfs3") [(pa "/w", .dir), (pa "/w/rootfs31", .dir), (pa "/w/rootfs31/a", .file 0)]
    ["../rootfs31/a".toList]) = some [(pa "/w", .dir), (pa "/w/rootfs31", .dir)] := by decide +kernel

/-- As `beside`, for the directory whose content goes into the image. -/
theorem beside_content : origDir [(pa "/t/rootfs", .dir), (pa "/t/rootfs.old", .dir), (pa "/t/rootfs.old/key", .file 0)] 9
    ⟨3, pa "/t/rootfs", some "../rootfs.old".toList, [], [], none⟩ = some (pa "/t/rootfs.old") := by decide +kernel

/-- The full claim is false: the command to remove a file is cut at white space.  With a name that ends with a
space something outside is removed, and what was excluded stays. -/
theorem space_outside : (excludeAll 9 (pa "/c") (pa "/w/rootfs3") [(pa "/w/rootfs3/a /etc", .file 0), (pa "/w", .dir),
      (pa "/etc", .dir), (pa "/etc/passwd", .file 1)] ["a /etc".toList]) =
    some [(pa "/w/rootfs3/a /etc", .file 0), (pa "/w", .dir)] := by decide +kernel

/-- With a space in a name the file stays in the partition. -/
theorem space_stays : (excludeAll 9 (pa "/c") (pa "/w/rootfs3") [(pa "/w/rootfs3/d", .dir), (pa "/w/rootfs3/d/my key", .file 0)]
    ["d/".toList]) = some [(pa "/w/rootfs3/d", .dir), (pa "/w/rootfs3/d/my key", .file 0)] := by decide +kernel

/-- The full claim is false: if an excluded path is a link, it stays, and what it leads to is removed. -/
theorem link_stays : (excludeAll 9 (pa "/c") (pa "/w/rootfs3") [(pa "/w/rootfs3/l", .link "f".toList), (pa "/w/rootfs3/f", .file 0)]
    ["l".toList]) = some [(pa "/w/rootfs3/l", .link "f".toList)] := by decide +kernel

end Isar.Wic.Prep
