import Verif.Meta.HardCopyModel
/-!
# Properties of copying a tree with hard links
-/

namespace Meta.HardCopy

open Py

namespace Spec

/-- What can be seen of a name. -/
inductive View where
  | dir
  | file (content : Str)
  | link (target : Str)

def view (d : Disk) : Node → View
  | .dir => .dir
  | .file i => .file (d.content i)
  | .link t _ => .link t

/-- What is seen at a path of a tree. -/
def see (t : Tree) (d : Disk) (p : Path) : Option View := (t.lookup p).map (view d)

/-- The path begins with a name that is a dot and one more character. -/
def Tiny (p : Path) : Prop := ∃ c, p.head? = some ['.', c]

/-- A tree on the disk: each path is there once, no path is empty or begins with `.`, and files have inodes that are used. -/
structure Ok (t : Tree) (d : Disk) : Prop where
  nodup : (t.map Prod.fst).Nodup
  named : ∀ e, e ∈ t → ∃ n r, e.1 = n :: r ∧ n ≠ [] ∧ n ≠ ['.']
  used : ∀ e i, e ∈ t → e.2 = .file i → i < d.next

/-- The first file of the source can be linked into the destination, where there is no name `testfile`. -/
def Linking (mayLink : Node → Bool) (s : State) : Prop :=
  ∃ a e b, s.src = a ++ e :: b ∧ (∀ x, x ∈ a → x.2 = .dir ∨ ∃ t, x.2 = .link t true) ∧ e.2 ≠ .dir ∧ (∀ t, e.2 ≠ .link t true) ∧
    mayLink e.2 = true ∧ ∀ x, x ∈ s.dst → x.1 ≠ ["testfile".toList]

/-- All that is in the source is in the destination. -/
def Complete (s s' : State) : Prop := ∀ p v, see s.src s.disk p = some v → see s'.dst s'.disk p = some v

def Writes : Op → Prop
  | .write _ _ => True
  | _ => False

end Spec

/-! ## Lists -/

theorem lookup_mem : ∀ {t : Tree} {p : Path} {n : Node}, t.lookup p = some n → (p, n) ∈ t
  | [], _, _, h => by simp at h
  | (q, m) :: t, p, n, h => by
    rw [List.lookup_cons] at h
    by_cases hq : p = q
    · subst hq; simp at h; subst h; exact List.mem_cons_self ..
    · have : (p == q) = false := by simpa using hq
      rw [this] at h
      exact List.mem_cons_of_mem _ (lookup_mem h)

theorem lookup_of_mem : ∀ {t : Tree} {p : Path} {n : Node}, (t.map Prod.fst).Nodup → (p, n) ∈ t → t.lookup p = some n
  | [], _, _, _, h => by simp at h
  | (q, m) :: t, p, n, hn, h => by
    rw [List.lookup_cons]
    rw [List.map_cons, List.nodup_cons] at hn
    rcases List.mem_cons.mp h with h1 | h1
    · cases h1; simp
    · have : p ≠ q := fun e => hn.1 (List.mem_map.mpr ⟨(p, n), h1, e⟩)
      have : (p == q) = false := by simpa using this
      rw [this]
      exact lookup_of_mem hn.2 h1

theorem lookup_none {t : Tree} {p : Path} (h : ∀ e, e ∈ t → e.1 ≠ p) : t.lookup p = none := by
  cases hl : t.lookup p with
  | none => rfl
  | some n => exact absurd rfl (h _ (lookup_mem hl))

theorem lookup_app (a b : Tree) (p : Path) : (a ++ b).lookup p = (a.lookup p).or (b.lookup p) := by
  induction a with
  | nil => simp
  | cons e a ih =>
    obtain ⟨q, n⟩ := e
    rw [List.cons_append, List.lookup_cons, List.lookup_cons]
    cases hq : (p == q) <;> simp [ih]

theorem lookup_map (f : Node → Node) (t : Tree) (p : Path) :
    List.lookup p (t.map fun e => (e.1, f e.2)) = (t.lookup p).map f := by
  induction t with
  | nil => rfl
  | cons e t ih =>
    obtain ⟨q, n⟩ := e
    rw [List.map_cons, List.lookup_cons, List.lookup_cons]
    cases hq : (p == q) <;> simp [ih]

theorem sublist_nodup {a b : Tree} (h : a.Sublist b) (hn : (b.map Prod.fst).Nodup) : (a.map Prod.fst).Nodup :=
  (h.map Prod.fst).nodup hn

/-! ## Names -/

theorem dotted_plain {n : Str} (h : n ≠ []) (h1 : n ≠ ['.']) : dotted n = true ∨ plain n = true ∨ ∃ c, n = ['.', c] := by
  match n, h, h1 with
  | [c], _, h1 =>
    by_cases hc : c = '.'
    · subst hc; exact absurd rfl h1
    · exact Or.inr (Or.inl (by unfold plain; split; · simp_all
                               · rfl))
  | [c, x], _, _ =>
    by_cases hc : c = '.'
    · subst hc; exact Or.inr (Or.inr ⟨x, rfl⟩)
    · exact Or.inr (Or.inl (by unfold plain; split; · simp_all
                               · rfl))
  | c :: x :: y :: r, _, _ =>
    by_cases hc : c = '.'
    · subst hc; exact Or.inl rfl
    · exact Or.inr (Or.inl (by unfold plain; split; · simp_all
                               · rfl))

theorem tiny_not {c : Char} : dotted ['.', c] = false ∧ plain ['.', c] = false := ⟨rfl, rfl⟩

theorem mem_selected {src : Tree} {e : Path × Node} :
    e ∈ selected src ↔ e ∈ src ∧ (dotted (top e.1) = true ∨ plain (top e.1) = true) := by
  unfold selected patterns
  rw [List.mem_filter]
  constructor
  · rintro ⟨h, h1⟩
    refine ⟨h, ?_⟩
    rw [List.any_append, Bool.or_eq_true] at h1
    rcases h1 with h1 | h1
    · split at h1
      · left; simpa using h1
      · simp at h1
    · split at h1
      · right; simpa using h1
      · simp at h1
  · rintro ⟨h, h1⟩
    refine ⟨h, ?_⟩
    rw [List.any_append, Bool.or_eq_true]
    rcases h1 with h1 | h1
    · left
      have : (src.any fun e => dotted (top e.1)) = true := List.any_eq_true.mpr ⟨e, h, h1⟩
      rw [this]; simpa using h1
    · right
      have : (src.any fun e => plain (top e.1)) = true := List.any_eq_true.mpr ⟨e, h, h1⟩
      rw [this]; simpa using h1

theorem selected_iff {src : Tree} {d : Disk} (h : Spec.Ok src d) {e : Path × Node} (he : e ∈ src) :
    e ∈ selected src ↔ ¬ Spec.Tiny e.1 := by
  obtain ⟨n, r, hp, h1, h2⟩ := h.named e he
  rw [mem_selected]
  have ht : top e.1 = n := by rw [hp]; rfl
  have hh : e.1.head? = some n := by rw [hp]; rfl
  rw [ht]
  unfold Spec.Tiny
  rw [hh]
  constructor
  · rintro ⟨-, h3⟩ ⟨c, hc⟩
    cases hc
    rcases h3 with h3 | h3
    · exact absurd h3 (by simp [dotted])
    · exact absurd h3 (by simp [plain])
  · intro h3
    refine ⟨he, ?_⟩
    rcases dotted_plain h1 h2 with h4 | h4 | ⟨c, h4⟩
    · exact Or.inl h4
    · exact Or.inr h4
    · exact absurd ⟨c, by rw [h4]⟩ h3

theorem no_pattern {src : Tree} : (patterns src).isEmpty = true ↔ selected src = [] := by
  constructor
  · intro h
    unfold selected
    rw [List.isEmpty_iff.mp h]
    simp
  · intro h
    unfold patterns
    have h1 : (src.any fun e => dotted (top e.1)) = false := by
      cases hb : src.any fun e => dotted (top e.1) with
      | false => rfl
      | true =>
        obtain ⟨e, he, h2⟩ := List.any_eq_true.mp hb
        have := mem_selected.mpr ⟨he, Or.inl h2⟩
        rw [h] at this; exact absurd this (by simp)
    have h2 : (src.any fun e => plain (top e.1)) = false := by
      cases hb : src.any fun e => plain (top e.1) with
      | false => rfl
      | true =>
        obtain ⟨e, he, h2⟩ := List.any_eq_true.mp hb
        have := mem_selected.mpr ⟨he, Or.inr h2⟩
        rw [h] at this; exact absurd this (by simp)
    rw [h1, h2]; rfl

theorem isDir_iff {n : Node} : isDir n = true ↔ n = .dir := by cases n <;> simp [isDir]

theorem mem_linked {src : Tree} {e : Path × Node} : e ∈ linked src ↔ (e ∈ selected src ∧ e.2 ≠ .dir) ∨ (e ∈ src ∧ e.2 = .dir) := by
  unfold linked
  rw [List.mem_append, List.mem_filter, List.mem_filter, isDir_iff]
  simp [isDir_iff, Bool.eq_false_iff]

theorem linked_sub {src : Tree} {e : Path × Node} (h : e ∈ linked src) : e ∈ src := by
  rcases mem_linked.mp h with h | h
  · exact (mem_selected.mp h.1).1
  · exact h.1

theorem linked_lookup {src : Tree} (hn : (src.map Prod.fst).Nodup) {p : Path} {n : Node} (h : (p, n) ∈ linked src) :
    (linked src).lookup p = some n := by
  cases hl : (linked src).lookup p with
  | none =>
    exfalso
    have h1 : ∀ {t : Tree}, (p, n) ∈ t → t.lookup p ≠ none := by
      intro t
      induction t with
      | nil => simp
      | cons e t ih =>
        obtain ⟨q, m⟩ := e
        intro hm
        rw [List.lookup_cons]
        cases hq : (p == q) with
        | true => simp
        | false =>
          rcases List.mem_cons.mp hm with h2 | h2
          · cases h2; simp at hq
          · exact ih h2
    exact h1 h hl
  | some m =>
    have a := lookup_of_mem hn (linked_sub (lookup_mem hl))
    have b := lookup_of_mem hn (linked_sub h)
    rw [a] at b; exact b

/-! ## The test file -/

theorem linking_iff (m : Node → Bool) (s : State) : canHard m s = true ↔ Spec.Linking m s := by
  have hw : ∀ n : Node, isWalkFile n = true ↔ n ≠ .dir ∧ ∀ t, n ≠ .link t true := by
    intro n
    cases n with
    | dir => simp [isWalkFile]
    | file i => simp [isWalkFile]
    | link t d => cases d <;> simp [isWalkFile]
  have hw' : ∀ n : Node, isWalkFile n = false ↔ n = .dir ∨ ∃ t, n = .link t true := by
    intro n
    cases n with
    | dir => simp [isWalkFile]
    | file i => simp [isWalkFile]
    | link t d => cases d <;> simp [isWalkFile]
  unfold canHard Spec.Linking
  constructor
  · intro h
    split at h
    · simp at h
    · next e he =>
      rw [List.find?_eq_some_iff_append] at he
      obtain ⟨h1, a, b, h2, h3⟩ := he
      rw [Bool.and_eq_true] at h
      refine ⟨a, e, b, h2, fun x hx => (hw' _).mp (by simpa using h3 x hx), ((hw _).mp h1).1, ((hw _).mp h1).2, h.1, ?_⟩
      intro x hx heq
      have := h.2
      rw [Bool.not_eq_true', List.any_eq_false] at this
      exact this x hx (by rw [heq]; simp)
  · rintro ⟨a, e, b, h1, h2, h3, h4, h5, h6⟩
    have : s.src.find? (fun e => isWalkFile e.2) = some e := by
      rw [List.find?_eq_some_iff_append]
      exact ⟨(hw _).mpr ⟨h3, h4⟩, a, b, h1, fun x hx => by simpa using (hw' _).mpr (h2 x hx)⟩
    rw [this]
    simp only [h5, Bool.true_and, Bool.not_eq_true', List.any_eq_false]
    intro x hx heq
    exact h6 x hx (by simpa using heq)

/-! ## The copy -/

theorem copytree_eq {s s' : State} (h : copytree s = some s') : s' = { s with
    dst := s.src.map (fun e => (e.1, fresh s.disk.next e.2)) ++ s.dst
    disk := ⟨fun i => if i < s.disk.next then s.disk.content i else s.disk.content (i - s.disk.next), s.disk.next + s.disk.next⟩ } := by
  unfold copytree at h
  split at h
  · simp at h
  · simp only [Option.some.injEq] at h; exact h.symm

theorem linktree_eq {m : Node → Bool} {s s' : State} (h : linktree m s = some s') : s' = { s with dst := linked s.src ++ s.dst } := by
  unfold linktree at h
  split at h
  · simp at h
  · simp only [Option.some.injEq] at h; exact h.symm

theorem see_old {d : Disk} {n : Node} (h : ∀ i, n = .file i → i < d.next) (f : Nat → Str) (k : Nat) :
    Spec.view ⟨fun i => if i < d.next then d.content i else f i, k⟩ n = Spec.view d n := by
  cases n with
  | dir => rfl
  | link t b => rfl
  | file i => simp [Spec.view, h i rfl]

theorem see_fresh {d : Disk} (n : Node) (k : Nat) :
    Spec.view ⟨fun i => if i < d.next then d.content i else d.content (i - d.next), k⟩ (fresh d.next n) = Spec.view d n := by
  cases n with
  | dir => rfl
  | link t b => rfl
  | file i =>
    have : ¬ d.next + i < d.next := by omega
    simp [Spec.view, fresh, this]

theorem see_some {t : Tree} {d : Disk} {p : Path} {v : Spec.View} (h : Spec.see t d p = some v) :
    ∃ n, t.lookup p = some n ∧ Spec.view d n = v := by
  unfold Spec.see at h
  cases hl : t.lookup p with
  | none => rw [hl] at h; simp at h
  | some n => rw [hl] at h; exact ⟨n, rfl, by simpa using h⟩

/-- C231. What is in the source is in the destination afterwards, with the same contents: all directories, and all else that is not below
a name of a dot and one character. -/
theorem copied_partial (m : Node → Bool) (s s' : State) (hs : Spec.Ok s.src s.disk) (h : copyhardlinktree m s = some s')
    (p : Path) (v : Spec.View) (hp : Spec.see s.src s.disk p = some v) (ht : v = .dir ∨ ¬ Spec.Tiny p) :
    Spec.see s'.dst s'.disk p = some v := by
  obtain ⟨n, hn, hv⟩ := see_some hp
  have hm := lookup_mem hn
  unfold copyhardlinktree at h
  split at h
  · next he => rw [List.isEmpty_iff.mp he] at hm; simp at hm
  split at h
  · rw [linktree_eq h]
    unfold Spec.see
    have : (p, n) ∈ linked s.src := by
      rw [mem_linked]
      by_cases hd : n = .dir
      · exact Or.inr ⟨hm, hd⟩
      · refine Or.inl ⟨(selected_iff hs hm).mpr ?_, hd⟩
        rcases ht with ht | ht
        · exfalso; rw [ht] at hv; cases n <;> simp [Spec.view] at hv hd
        · exact ht
    simp only [lookup_app, linked_lookup hs.nodup this, Option.some_or, Option.map_some, hv]
  · rw [copytree_eq h]
    unfold Spec.see
    simp only [lookup_app, lookup_map, hn, Option.map_some, Option.some_or, see_fresh, hv]

/-- C231. Nothing else of the destination changes. -/
theorem others_kept (m : Node → Bool) (s s' : State) (hd : ∀ e i, e ∈ s.dst → e.2 = .file i → i < s.disk.next)
    (h : copyhardlinktree m s = some s') (p : Path) (hp : ∀ n, (p, n) ∉ s.src) :
    Spec.see s'.dst s'.disk p = Spec.see s.dst s.disk p := by
  have hl : s.src.lookup p = none := lookup_none fun e he heq => hp e.2 (by rw [← heq]; exact he)
  unfold copyhardlinktree at h
  split at h
  · cases h; rfl
  split at h
  · rw [linktree_eq h]
    have : (linked s.src).lookup p = none := lookup_none fun e he heq => hp e.2 (by rw [← heq]; exact linked_sub he)
    unfold Spec.see
    simp only [lookup_app, this, Option.none_or]
  · rw [copytree_eq h]
    unfold Spec.see
    simp only [lookup_app, lookup_map, hl, Option.map_none, Option.none_or]
    cases hl' : s.dst.lookup p with
    | none => rfl
    | some n =>
      simp only [Option.map_some]
      rw [see_old (fun i hi => hd _ i (lookup_mem hl') hi)]

/-- C231. When the destination has none of the names before, all is copied exactly if no hard links are made, or nothing but directories is
below names of a dot and one character. -/
theorem complete_iff (m : Node → Bool) (s s' : State) (hs : Spec.Ok s.src s.disk) (hd : ∀ e n, e ∈ s.src → (e.1, n) ∉ s.dst)
    (h : copyhardlinktree m s = some s') :
    Spec.Complete s s' ↔ ¬ Spec.Linking m s ∨ ∀ e, e ∈ s.src → Spec.Tiny e.1 → e.2 = .dir := by
  constructor
  · intro hc
    by_cases hl : Spec.Linking m s
    · right
      intro e he ht
      cases Decidable.em (e.2 = .dir) with
      | inl hd => exact hd
      | inr hnd =>
        exfalso
        have hlk := lookup_of_mem hs.nodup he
        have := hc e.1 (Spec.view s.disk e.2) (by unfold Spec.see; rw [hlk]; rfl)
        have hne : s.src.isEmpty = false := by
          cases hb : s.src.isEmpty with
          | false => rfl
          | true => rw [List.isEmpty_iff.mp hb] at he; simp at he
        unfold copyhardlinktree at h
        rw [hne, (linking_iff m s).mpr hl] at h
        simp only [Bool.false_eq_true, if_false, if_true] at h
        rw [linktree_eq h] at this
        obtain ⟨n, hn, -⟩ := see_some this
        rcases List.mem_append.mp (lookup_mem hn) with h1 | h1
        · have h2 := lookup_of_mem hs.nodup (linked_sub h1)
          rw [hlk] at h2; cases h2
          rcases mem_linked.mp h1 with h3 | h3
          · exact (selected_iff hs he).mp h3.1 ht
          · exact hnd h3.2
        · exact hd e n he h1
    · exact Or.inl hl
  · intro hc p v hp
    obtain ⟨n, hn, hv⟩ := see_some hp
    have hm := lookup_mem hn
    rcases hc with hc | hc
    · have hne : canHard m s = false := by
        cases hb : canHard m s with
        | false => rfl
        | true => exact absurd ((linking_iff m s).mp hb) hc
      unfold copyhardlinktree at h
      rw [hne] at h
      split at h
      · next he => rw [List.isEmpty_iff.mp he] at hm; simp at hm
      · simp only [Bool.false_eq_true, if_false] at h
        rw [copytree_eq h]
        unfold Spec.see
        simp only [lookup_app, lookup_map, hn, Option.map_some, Option.some_or, see_fresh, hv]
    · refine copied_partial m s s' hs h p v hp ?_
      by_cases ht : Spec.Tiny p
      · left
        have := hc _ hm ht
        simp only at this
        rw [← hv, this]; rfl
      · exact Or.inr ht

/-- C231. Into an empty destination: the copy fails exactly if hard links are made although there are no other names than those of a dot and
one character, or although some file cannot be linked. -/
theorem fails_iff (m : Node → Bool) (s : State) (hs : Spec.Ok s.src s.disk) (hd : s.dst = []) :
    copyhardlinktree m s = none ↔
      Spec.Linking m s ∧ ((∀ e, e ∈ s.src → Spec.Tiny e.1) ∨ ∃ e, e ∈ s.src ∧ ¬ Spec.Tiny e.1 ∧ e.2 ≠ .dir ∧ m e.2 = false) := by
  have hcl : ∀ t, clash t ([] : Tree) = false := by
    intro t
    unfold clash
    rw [List.any_eq_false]
    intro e _
    simp
  unfold copyhardlinktree
  rw [← linking_iff]
  split
  · next he =>
    rw [List.isEmpty_iff.mp he]
    have : canHard m s = false := by unfold canHard; rw [List.isEmpty_iff.mp he]; rfl
    simp [this]
  · split
    · next hc =>
      simp only [hc, true_and]
      unfold linktree
      rw [hd, hcl, Bool.or_false]
      have h1 : ((patterns s.src).isEmpty = true) ↔ ∀ e, e ∈ s.src → Spec.Tiny e.1 := by
        rw [no_pattern]
        constructor
        · intro h e he
          apply Classical.byContradiction
          intro hn
          have := (selected_iff hs he).mpr hn
          rw [h] at this; simp at this
        · intro h
          apply List.eq_nil_iff_forall_not_mem.mpr
          intro e he
          have h2 := (mem_selected.mp he).1
          exact (selected_iff hs h2).mp he (h e h2)
      have h2 : ((selected s.src).any fun e => !isDir e.2 && !m e.2) = true ↔
          ∃ e, e ∈ s.src ∧ ¬ Spec.Tiny e.1 ∧ e.2 ≠ .dir ∧ m e.2 = false := by
        rw [List.any_eq_true]
        constructor
        · rintro ⟨e, he, h3⟩
          have h4 := (mem_selected.mp he).1
          rw [Bool.and_eq_true, Bool.not_eq_true', Bool.not_eq_true'] at h3
          exact ⟨e, h4, (selected_iff hs h4).mp he, fun hd => by rw [isDir_iff.mpr hd] at h3; simp at h3, h3.2⟩
        · rintro ⟨e, he, h3, h4, h5⟩
          refine ⟨e, (selected_iff hs he).mpr h3, ?_⟩
          rw [h5]
          cases hb : isDir e.2 with
          | true => exact absurd (isDir_iff.mp hb) h4
          | false => rfl
      rw [← h1, ← h2]
      split
      · next hx => rw [Bool.or_eq_true] at hx; exact ⟨fun _ => hx, fun _ => rfl⟩
      · next hx => rw [Bool.or_eq_true] at hx; exact ⟨fun h => by simp at h, fun h => absurd h hx⟩
    · next hc =>
      simp only [hc, false_and, iff_false]
      unfold copytree
      rw [hd, hcl]
      simp

/-- An example: a directory with a file, a hidden file, and a file `.a` beside them. -/
def exSrc : State :=
  ⟨[([".a".toList], .file 0), ([".profile".toList], .file 1), (["etc".toList], .dir), (["etc".toList, "fstab".toList], .file 2)], [],
    ⟨fun i => if i = 0 then "x".toList else if i = 1 then "y".toList else "z".toList, 3⟩⟩

theorem exSrc_ok : Spec.Ok exSrc.src exSrc.disk := by
  constructor
  · decide
  · intro e he
    simp only [exSrc, List.mem_cons, List.not_mem_nil, or_false] at he
    rcases he with rfl | rfl | rfl | rfl
    · exact ⟨_, _, rfl, by decide, by decide⟩
    · exact ⟨_, _, rfl, by decide, by decide⟩
    · exact ⟨_, _, rfl, by decide, by decide⟩
    · exact ⟨_, _, rfl, by decide, by decide⟩
  · intro e i he hi
    simp only [exSrc, List.mem_cons, List.not_mem_nil, or_false] at he
    show i < 3
    rcases he with rfl | rfl | rfl | rfl
    · simp only [Node.file.injEq] at hi; omega
    · simp only [Node.file.injEq] at hi; omega
    · simp at hi
    · simp only [Node.file.injEq] at hi; omega

example : ∃ s', copyhardlinktree (fun _ => true) exSrc = some s' ∧ s'.dst.lookup ["etc".toList, "fstab".toList] = some (.file 2) ∧
    s'.dst.lookup [".profile".toList] = some (.file 1) := ⟨_, rfl, by decide, by decide⟩

/-- C231, negation. The file `.a` of the source is not in the destination, and there is no error. -/
theorem tiny_lost : ∃ s', copyhardlinktree (fun _ => true) exSrc = some s' ∧ ¬ Spec.Complete exSrc s' := by
  refine ⟨_, rfl, ?_⟩
  intro h
  have h1 := h [".a".toList] (.file "x".toList) rfl
  obtain ⟨n, hn, -⟩ := see_some h1
  revert hn
  have : ∀ o : Option Node, o = none → ¬ o = some n := by intro o ho; rw [ho]; simp
  exact this _ (by decide)

/-- C231, negation. A directory with nothing but `.a` cannot be copied where hard links can be made, but it can where they cannot. -/
theorem tiny_fails : ∃ src : State, Spec.Ok src.src src.disk ∧ copyhardlinktree (fun _ => true) src = none ∧
    ∃ s', copyhardlinktree (fun _ => false) src = some s' ∧ Spec.Complete src s' := by
  have hok : Spec.Ok [([".a".toList], Node.file 0)] ⟨fun _ => "x".toList, 1⟩ := by
    constructor
    · decide
    · intro e he
      rw [List.mem_singleton] at he
      subst he
      exact ⟨_, _, rfl, by decide, by decide⟩
    · intro e i he hi
      rw [List.mem_singleton] at he
      subst he
      simp only [Node.file.injEq] at hi
      show i < 1
      omega
  refine ⟨⟨[([".a".toList], .file 0)], [], ⟨fun _ => "x".toList, 1⟩⟩, hok, by decide, _, rfl, ?_⟩
  refine (complete_iff (fun _ => false) _ _ hok (by intro e n _; simp) rfl).mpr (Or.inl ?_)
  rintro ⟨a, e, b, -, -, -, -, h, -⟩
  exact absurd h (by simp)

/-! ## Afterwards -/

/-- The numbers of the source are used, and contents of used inodes that are not written to are kept. -/
theorem apply_keeps (keep : Nat → Prop) (s : State) (o : Op) (hk : ∀ i, keep i → i < s.disk.next)
    (hw : ∀ p c i, o = .write p c → s.dst.lookup p = some (.file i) → ¬ keep i) :
    (apply s o).src = s.src ∧ s.disk.next ≤ (apply s o).disk.next ∧ ∀ i, keep i → (apply s o).disk.content i = s.disk.content i := by
  cases o with
  | replace p c =>
    refine ⟨rfl, Nat.le_succ _, fun i hi => ?_⟩
    have : i ≠ s.disk.next := Nat.ne_of_lt (hk i hi)
    simp [apply, this]
  | unlink p => exact ⟨rfl, Nat.le_refl _, fun _ _ => rfl⟩
  | write p c =>
    unfold apply
    dsimp only
    split
    · next i hi =>
      refine ⟨rfl, Nat.le_refl _, fun j hj => ?_⟩
      have : j ≠ i := fun e => hw p c i rfl hi (e ▸ hj)
      simp [this]
    · exact ⟨rfl, Nat.le_refl _, fun _ _ => rfl⟩

theorem see_keep {t : Tree} {d d' : Disk} (h : ∀ e i, e ∈ t → e.2 = .file i → d'.content i = d.content i) (p : Path) :
    Spec.see t d' p = Spec.see t d p := by
  unfold Spec.see
  cases hl : t.lookup p with
  | none => rfl
  | some n =>
    cases n with
    | dir => rfl
    | link t b => rfl
    | file i => simp only [Option.map_some, Spec.view]; rw [h _ i (lookup_mem hl) rfl]

/-- The copy itself leaves the source as it is. -/
theorem copy_keeps (m : Node → Bool) (s s' : State) (h : copyhardlinktree m s = some s') :
    s'.src = s.src ∧ s.disk.next ≤ s'.disk.next ∧ ∀ i, i < s.disk.next → s'.disk.content i = s.disk.content i := by
  unfold copyhardlinktree at h
  split at h
  · cases h; exact ⟨rfl, Nat.le_refl _, fun _ _ => rfl⟩
  split at h
  · rw [linktree_eq h]; exact ⟨rfl, Nat.le_refl _, fun _ _ => rfl⟩
  · rw [copytree_eq h]
    refine ⟨rfl, Nat.le_add_left _ _, fun i hi => ?_⟩
    simp [hi]

theorem replaced_keeps (keep : Nat → Prop) (ops : List Op) (hw : ∀ o, o ∈ ops → ¬ Spec.Writes o) : ∀ s : State,
    (∀ i, keep i → i < s.disk.next) →
    (ops.foldl apply s).src = s.src ∧ ∀ i, keep i → (ops.foldl apply s).disk.content i = s.disk.content i := by
  induction ops with
  | nil => exact fun s _ => ⟨rfl, fun _ _ => rfl⟩
  | cons o ops ih =>
    intro s hk
    obtain ⟨h1, h2, h3⟩ := apply_keeps keep s o hk (by
      intro p c i ho; exact absurd (show Spec.Writes o by rw [ho]; exact trivial) (hw o (List.mem_cons_self ..)))
    obtain ⟨h4, h5⟩ := ih (fun o ho => hw o (List.mem_cons_of_mem _ ho)) (apply s o) (fun i hi => Nat.lt_of_lt_of_le (hk i hi) h2)
    rw [List.foldl_cons]
    exact ⟨h4.trans h1, fun i hi => (h5 i hi).trans (h3 i hi)⟩

/-- C232. Programs that replace and remove files of the copy never change the source. -/
theorem source_kept_partial (m : Node → Bool) (s s' : State) (hs : Spec.Ok s.src s.disk) (h : copyhardlinktree m s = some s')
    (ops : List Op) (hw : ∀ o, o ∈ ops → ¬ Spec.Writes o) (p : Path) :
    Spec.see (ops.foldl apply s').src (ops.foldl apply s').disk p = Spec.see s.src s.disk p := by
  obtain ⟨h1, h2, h3⟩ := copy_keeps m s s' h
  obtain ⟨h4, h5⟩ := replaced_keeps (fun i => i < s.disk.next) ops hw s' (fun i hi => Nat.lt_of_lt_of_le hi h2)
  rw [h4, h1]
  exact see_keep (fun e i he hi => (h5 i (hs.used e i he hi)).trans (h3 i (hs.used e i he hi))) p

/-- No file of the destination is one that is to be kept. -/
def Apart (keep : Nat → Prop) (s : State) : Prop :=
  (∀ i, keep i → i < s.disk.next) ∧ ∀ e i, e ∈ s.dst → e.2 = .file i → ¬ keep i

theorem apart_apply {keep : Nat → Prop} {s : State} (h : Apart keep s) (o : Op) :
    Apart keep (apply s o) ∧ (apply s o).src = s.src ∧ ∀ i, keep i → (apply s o).disk.content i = s.disk.content i := by
  obtain ⟨h1, h2, h3⟩ := apply_keeps keep s o h.1 (fun p c i _ hl => h.2 _ i (lookup_mem hl) rfl)
  refine ⟨⟨fun i hi => Nat.lt_of_lt_of_le (h.1 i hi) h2, ?_⟩, h1, h3⟩
  intro e i he hi
  cases o with
  | replace p c =>
    rcases List.mem_cons.mp he with rfl | he
    · simp only [Node.file.injEq] at hi
      intro hk
      exact absurd (h.1 i hk) (by omega)
    · exact h.2 e i he hi
  | unlink p => exact h.2 e i (List.mem_filter.mp he).1 hi
  | write p c =>
    have : (apply s (.write p c)).dst = s.dst := by unfold apply; dsimp only; split <;> rfl
    rw [this] at he
    exact h.2 e i he hi

theorem apart_ops {keep : Nat → Prop} (ops : List Op) : ∀ {s : State}, Apart keep s →
    (ops.foldl apply s).src = s.src ∧ ∀ i, keep i → (ops.foldl apply s).disk.content i = s.disk.content i := by
  induction ops with
  | nil => exact fun _ => ⟨rfl, fun _ _ => rfl⟩
  | cons o ops ih =>
    intro s h
    obtain ⟨h1, h2, h3⟩ := apart_apply h o
    obtain ⟨h4, h5⟩ := ih h1
    rw [List.foldl_cons]
    exact ⟨h4.trans h2, fun i hi => (h5 i hi).trans (h3 i hi)⟩

/-- C232. Where no hard links can be made, nothing that is done to the copy changes the source, if the destination had no file of the source
before. -/
theorem source_kept_unlinked_partial (m : Node → Bool) (s s' : State) (hs : Spec.Ok s.src s.disk) (hl : ¬ Spec.Linking m s)
    (hd : ∀ e f i, e ∈ s.src → f ∈ s.dst → e.2 = .file i → f.2 ≠ .file i) (h : copyhardlinktree m s = some s')
    (ops : List Op) (p : Path) :
    Spec.see (ops.foldl apply s').src (ops.foldl apply s').disk p = Spec.see s.src s.disk p := by
  have hne : canHard m s = false := by
    cases hb : canHard m s with
    | false => rfl
    | true => exact absurd ((linking_iff m s).mp hb) hl
  obtain ⟨h1, h2, h3⟩ := copy_keeps m s s' h
  have hap : Apart (fun i => ∃ e, e ∈ s.src ∧ e.2 = .file i) s' := by
    refine ⟨fun i ⟨e, he, hi⟩ => Nat.lt_of_lt_of_le (hs.used e i he hi) h2, ?_⟩
    intro f i hf hi ⟨e, he, hei⟩
    unfold copyhardlinktree at h
    rw [hne] at h
    split at h
    · next hx => rw [List.isEmpty_iff.mp hx] at he; simp at he
    simp only [Bool.false_eq_true, if_false] at h
    rw [copytree_eq h] at hf
    rcases List.mem_append.mp hf with hf | hf
    · obtain ⟨g, hg, rfl⟩ := List.mem_map.mp hf
      have := hs.used e i he hei
      cases hn : g.2 with
      | dir => rw [hn] at hi; simp [fresh] at hi
      | link t b => rw [hn] at hi; simp [fresh] at hi
      | file j => rw [hn] at hi; simp [fresh] at hi; omega
    · exact hd e f i he hf hei hi
  obtain ⟨h4, h5⟩ := apart_ops ops hap
  rw [h4, h1]
  exact see_keep (fun e i he hi => (h5 i ⟨e, he, hi⟩).trans (h3 i (hs.used e i he hi))) p

/-- C232, negation. A program that writes to a file of the copy changes the source. -/
theorem write_changes_source : ∃ s', copyhardlinktree (fun _ => true) exSrc = some s' ∧
    Spec.see (apply s' (.write ["etc".toList, "fstab".toList] "new".toList)).src
      (apply s' (.write ["etc".toList, "fstab".toList] "new".toList)).disk ["etc".toList, "fstab".toList] = some (.file "new".toList) :=
  ⟨_, rfl, rfl⟩

example : Spec.see exSrc.src exSrc.disk ["etc".toList, "fstab".toList] = some (.file "z".toList) := rfl

example : (⟨exSrc.src, exSrc.dst, exSrc.disk⟩ : State).dst = [] ∧ ¬ Spec.Linking (fun _ => false) exSrc :=
  ⟨rfl, fun ⟨_, _, _, _, _, _, _, h, _⟩ => absurd h (by simp)⟩

end Meta.HardCopy
