import Verif.Meta.OuthashModel
/-!
# The hash of the output of a task: C210
-/

namespace Isar.Outhash

open Py

/-! ## Specification -/

/-- What `lstat` says of the top of a tree, and if it is or leads to a directory. -/
def Node.about : Node → St × Bool
  | .leaf st b => (st, b)
  | .dir st _ => (st, true)

/-- What is at the path `p` in a tree. -/
inductive At : Node → List Str → St × Bool → Prop
  | here (n : Node) : At n [] n.about
  | inside {st : St} {kids : List (Str × Node)} {k : Str} {n : Node} {p : List Str} {x : St × Bool} :
    (k, n) ∈ kids → At n p x → At (.dir st kids) (k :: p) x

mutual
/-- A tree as a file system has it: the names of a directory are different, not empty and without a slash, and exactly the
directories have entries. -/
def Ok : Node → Prop
  | .leaf st _ => st.kind ≠ .dir
  | .dir st kids => st.kind = .dir ∧ (kids.map Prod.fst).Nodup ∧ OkAll kids
def OkAll : List (Str × Node) → Prop
  | [] => True
  | (k, n) :: l => (k ≠ [] ∧ '/' ∉ k) ∧ Ok n ∧ OkAll l
end

/-- All but the owner, the group, their permissions and the time. -/
def blur (st : St) : St :=
  { st with
    mode := { st.mode with rgrp := false, wgrp := false, xgrp := false, sgid := false, roth := false, woth := false, xoth := false, vtx := false }
    owner := none, group := none, mtime := 0 }

/-- Two trees have the same paths, and what is there differs at most in the owner, the group, their permissions and the
time. -/
def Alike (n m : Node) : Prop :=
  ∀ p s b, (∃ st, At n p (st, b) ∧ blur st = s) ↔ ∃ st, At m p (st, b) ∧ blur st = s

/-! ## Lemmas -/

theorem okAll_mem : ∀ {l : List (Str × Node)}, OkAll l → ∀ {k : Str} {n : Node}, (k, n) ∈ l → (k ≠ [] ∧ '/' ∉ k) ∧ Ok n
  | (k, n) :: l, h, k', n', hm => by
    unfold OkAll at h
    cases hm with
    | head => exact ⟨h.1, h.2.1⟩
    | tail _ hm => exact okAll_mem h.2.2 hm

theorem unique : ∀ {l : List (Str × Node)}, (l.map Prod.fst).Nodup → ∀ {k : Str} {x y : Node}, (k, x) ∈ l → (k, y) ∈ l →
    x = y
  | [], _, _, _, _, h, _ => nomatch h
  | (k, n) :: l, h, k', x, y, hx, hy => by
    rw [List.map_cons, List.nodup_cons] at h
    cases hx with
    | head =>
      cases hy with
      | head => rfl
      | tail _ hy => exact absurd (List.mem_map.2 ⟨_, hy, rfl⟩) h.1
    | tail _ hx =>
      cases hy with
      | head => exact absurd (List.mem_map.2 ⟨_, hx, rfl⟩) h.1
      | tail _ hy => exact unique h.2 hx hy

theorem nodup_of_fst {α : Type} : ∀ {l : List (Str × α)}, (l.map Prod.fst).Nodup → l.Nodup
  | [], _ => List.nodup_nil
  | e :: l, h => by
    rw [List.map_cons, List.nodup_cons] at h
    rw [List.nodup_cons]
    exact ⟨fun he => h.1 (List.mem_map.2 ⟨_, he, rfl⟩), nodup_of_fst h.2⟩

theorem fst_unique {α : Type} : ∀ {l : List (Str × α)}, (l.map Prod.fst).Nodup → ∀ {a b : Str × α}, a ∈ l → b ∈ l → a.1 = b.1 →
    a = b
  | [], _, _, _, h, _, _ => nomatch h
  | e :: l, h, a, b, ha, hb, hab => by
    rw [List.map_cons, List.nodup_cons] at h
    cases ha with
    | head =>
      cases hb with
      | head => rfl
      | tail _ hb => exact absurd (List.mem_map.2 ⟨_, hb, hab.symm⟩) h.1
    | tail _ ha =>
      cases hb with
      | head => exact absurd (List.mem_map.2 ⟨_, ha, hab⟩) h.1
      | tail _ hb => exact fst_unique h.2 ha hb hab

theorem nameLe_trans {α : Type} (a b c : Str × α) (h1 : nameLe a b = true) (h2 : nameLe b c = true) : nameLe a c = true :=
  strLe_trans _ _ _ h1 h2

theorem nameLe_total {α : Type} (a b : Str × α) : (nameLe a b || nameLe b a) = true := strLe_total _ _

/-- Sorting by names forgets the order. -/
theorem sort_ext {α : Type} {l m : List (Str × α)} (hl : (l.map Prod.fst).Nodup) (hm : (m.map Prod.fst).Nodup)
    (h : ∀ e, e ∈ l ↔ e ∈ m) : sortBy nameLe l = sortBy nameLe m := by
  have hp : l.Perm m := (List.perm_ext_iff_of_nodup (nodup_of_fst hl) (nodup_of_fst hm)).2 h
  refine List.Perm.eq_of_pairwise (le := fun a b => nameLe a b = true) ?_
    (sortBy_sorted nameLe_trans nameLe_total l) (sortBy_sorted nameLe_trans nameLe_total m)
    ((sortBy_perm _ _).trans (hp.trans (sortBy_perm _ _).symm))
  intro a b ha hb h1 h2
  exact fst_unique hl ((sortBy_perm _ _).mem_iff.1 ha) ((h b).2 ((sortBy_perm _ _).mem_iff.1 hb)) (strLe_antisymm h1 h2)

theorem insert_map {α β : Type} (f : α → β) (e : Str × α) : ∀ l : List (Str × α),
    (insertBy nameLe e l).map (fun e => (e.1, f e.2)) = insertBy nameLe (e.1, f e.2) (l.map fun e => (e.1, f e.2))
  | [] => rfl
  | a :: l => by
    rw [List.map_cons]
    show List.map _ (if strLe e.1 a.1 then e :: a :: l else a :: insertBy nameLe e l) =
      if strLe e.1 a.1 then _ else _
    split
    · rfl
    · rw [List.map_cons, insert_map f e l]

theorem sort_map {α β : Type} (f : α → β) : ∀ l : List (Str × α),
    (sortBy nameLe l).map (fun e => (e.1, f e.2)) = sortBy nameLe (l.map fun e => (e.1, f e.2))
  | [] => rfl
  | a :: l => by
    show List.map _ (insertBy nameLe a (sortBy nameLe l)) = insertBy nameLe _ (sortBy nameLe _)
    rw [insert_map, sort_map f l]

/-- The names with what counts of them. -/
def blurred (l : List (Str × St)) : List (Str × St) := l.map fun e => (e.1, blur e.2)

theorem mem_files : ∀ {l : List (Str × Node)} {k : Str} {st : St}, (k, st) ∈ filesOf l ↔ (k, .leaf st false) ∈ l
  | [], _, _ => ⟨nofun, nofun⟩
  | (n, .leaf s false) :: l, k, st => by
    show _ ∈ (n, s) :: filesOf l ↔ _
    rw [List.mem_cons, List.mem_cons, mem_files]
    simp only [Prod.mk.injEq, Node.leaf.injEq, and_true]
  | (n, .leaf s true) :: l, k, st => by
    show _ ∈ filesOf l ↔ _
    rw [List.mem_cons, mem_files]
    simp only [Prod.mk.injEq, Node.leaf.injEq, Bool.false_eq_true, and_false, false_or]
  | (n, .dir s d) :: l, k, st => by
    show _ ∈ filesOf l ↔ _
    rw [List.mem_cons, mem_files]
    simp only [Prod.mk.injEq, reduceCtorEq, and_false, false_or]

theorem mem_links : ∀ {l : List (Str × Node)} {k : Str} {st : St}, (k, st) ∈ linksOf l ↔ (k, .leaf st true) ∈ l
  | [], _, _ => ⟨nofun, nofun⟩
  | (n, .leaf s true) :: l, k, st => by
    show _ ∈ (n, s) :: linksOf l ↔ _
    rw [List.mem_cons, List.mem_cons, mem_links]
    simp only [Prod.mk.injEq, Node.leaf.injEq, and_true]
  | (n, .leaf s false) :: l, k, st => by
    show _ ∈ linksOf l ↔ _
    rw [List.mem_cons, mem_links]
    simp only [Prod.mk.injEq, Node.leaf.injEq, Bool.true_eq_false, and_false, false_or]
  | (n, .dir s d) :: l, k, st => by
    show _ ∈ linksOf l ↔ _
    rw [List.mem_cons, mem_links]
    simp only [Prod.mk.injEq, reduceCtorEq, and_false, false_or]

theorem mem_dirs {c : Cfg} {root : Str} : ∀ {l : List (Str × Node)} {k : Str} {v : List (Str × St)},
    (k, v) ∈ visitAll c root l ↔ ∃ st ks, (k, .dir st ks) ∈ l ∧ v = visit c (pathJoin root k) (.dir st ks)
  | [], _, _ => by
    show _ ∈ [] ↔ _
    exact ⟨nofun, fun ⟨_, _, h, _⟩ => nomatch h⟩
  | (n, .leaf s b) :: l, k, v => by
    have e : visitAll c root ((n, .leaf s b) :: l) = visitAll c root l := by conv => lhs; unfold visitAll
    rw [e, mem_dirs]
    simp only [List.mem_cons, Prod.mk.injEq, reduceCtorEq, and_false, false_or]
  | (n, .dir s d) :: l, k, v => by
    have e : visitAll c root ((n, .dir s d) :: l) =
        (n, visit c (pathJoin root n) (.dir s d)) :: visitAll c root l := by conv => lhs; unfold visitAll
    rw [e, List.mem_cons, mem_dirs]
    constructor
    · rintro (h | ⟨st, ks, h1, h2⟩)
      · cases h
        exact ⟨s, d, List.mem_cons_self, rfl⟩
      · exact ⟨st, ks, List.mem_cons_of_mem _ h1, h2⟩
    · rintro ⟨st, ks, h1, h2⟩
      cases h1 with
      | head => exact Or.inl (by rw [h2])
      | tail _ h1 => exact Or.inr ⟨st, ks, h1, h2⟩

theorem files_names : ∀ l : List (Str × Node), ((filesOf l).map Prod.fst).Sublist (l.map Prod.fst)
  | [] => List.Sublist.refl _
  | (n, .leaf s false) :: l => (files_names l).cons_cons n
  | (n, .leaf s true) :: l => (files_names l).cons n
  | (n, .dir s d) :: l => (files_names l).cons n

theorem links_names : ∀ l : List (Str × Node), ((linksOf l).map Prod.fst).Sublist (l.map Prod.fst)
  | [] => List.Sublist.refl _
  | (n, .leaf s true) :: l => (links_names l).cons_cons n
  | (n, .leaf s false) :: l => (links_names l).cons n
  | (n, .dir s d) :: l => (links_names l).cons n

theorem dirs_names (c : Cfg) (root : Str) : ∀ l : List (Str × Node),
    ((visitAll c root l).map Prod.fst).Sublist (l.map Prod.fst)
  | [] => by unfold visitAll; exact List.Sublist.refl _
  | (n, .leaf s b) :: l => by unfold visitAll; exact (dirs_names c root l).cons n
  | (n, .dir s d) :: l => by unfold visitAll; exact (dirs_names c root l).cons_cons n

theorem map_fst {α β : Type} (f : α → β) (l : List (Str × α)) :
    (l.map fun e => (e.1, f e.2)).map Prod.fst = l.map Prod.fst := by
  rw [List.map_map]
  rfl

theorem at_nil {n : Node} {x : St × Bool} : At n [] x ↔ x = n.about :=
  ⟨fun h => by cases h; rfl, fun h => h ▸ .here n⟩

theorem at_cons {st : St} {kids : List (Str × Node)} {k : Str} {p : List Str} {x : St × Bool} :
    At (.dir st kids) (k :: p) x ↔ ∃ n, (k, n) ∈ kids ∧ At n p x :=
  ⟨fun h => by cases h with | inside h1 h2 => exact ⟨_, h1, h2⟩, fun ⟨_, h1, h2⟩ => .inside h1 h2⟩

theorem Alike.symm {n m : Node} (h : Alike n m) : Alike m n := fun p s b => (h p s b).symm

/-- Entries with the same name in two trees that are alike are alike. -/
theorem Alike.kid {s s' : St} {l l' : List (Str × Node)} (h : Alike (.dir s l) (.dir s' l')) (hl : (l.map Prod.fst).Nodup)
    (hl' : (l'.map Prod.fst).Nodup) {k : Str} {x : Node} (hx : (k, x) ∈ l) : ∃ y, (k, y) ∈ l' ∧ Alike x y := by
  obtain ⟨st, h1, -⟩ := (h [k] (blur x.about.1) x.about.2).1 ⟨x.about.1, at_cons.2 ⟨x, hx, .here x⟩, rfl⟩
  obtain ⟨y, hy, -⟩ := at_cons.1 h1
  refine ⟨y, hy, fun p s0 b => ?_⟩
  have := h (k :: p) s0 b
  constructor
  · rintro ⟨st, ha, hb⟩
    obtain ⟨st', h2, h3⟩ := this.1 ⟨st, at_cons.2 ⟨x, hx, ha⟩, hb⟩
    obtain ⟨y', hy', h2⟩ := at_cons.1 h2
    rw [unique hl' hy hy']
    exact ⟨st', h2, h3⟩
  · rintro ⟨st, ha, hb⟩
    obtain ⟨st', h2, h3⟩ := this.2 ⟨st, at_cons.2 ⟨y, hy, ha⟩, hb⟩
    obtain ⟨x', hx', h2⟩ := at_cons.1 h2
    rw [unique hl hx hx']
    exact ⟨st', h2, h3⟩

theorem Alike.top {n m : Node} (h : Alike n m) : blur n.about.1 = blur m.about.1 ∧ n.about.2 = m.about.2 := by
  obtain ⟨st, h1, h2⟩ := (h [] (blur n.about.1) n.about.2).1 ⟨n.about.1, .here n, rfl⟩
  have := at_nil.1 h1
  rw [← this]
  exact ⟨h2.symm, rfl⟩

theorem blur_kind {a b : St} (h : blur a = blur b) : a.kind = b.kind := by
  have := congrArg St.kind h
  exact this

/-- What stands in the place of an entry. -/
theorem Alike.shape {n m : Node} (h : Alike n m) (hn : Ok n) (hm : Ok m) :
    (∃ s s' b, n = .leaf s b ∧ m = .leaf s' b ∧ blur s = blur s') ∨
      ∃ s s' l l', n = .dir s l ∧ m = .dir s' l' ∧ blur s = blur s' := by
  obtain ⟨h1, h2⟩ := h.top
  cases n with
  | leaf s b =>
    cases m with
    | leaf s' b' =>
      cases h2
      exact Or.inl ⟨s, s', b, rfl, rfl, h1⟩
    | dir s' l' =>
      unfold Ok at hn hm
      exact absurd ((blur_kind h1).trans hm.1) hn
  | dir s l =>
    cases m with
    | leaf s' b' =>
      unfold Ok at hn hm
      exact absurd ((blur_kind h1).symm.trans hn.1) hm
    | dir s' l' => exact Or.inr ⟨s, s', l, l', rfl, rfl, h1⟩

theorem blurred_inDir (root : Str) (l : List (Str × St)) : blurred (inDir root l) = inDir root (blurred l) := by
  unfold blurred inDir
  rw [List.map_map, List.map_map]
  rfl

theorem blurred_filter (f : Str → Bool) (l : List (Str × St)) :
    blurred (l.filter fun e => f e.1) = (blurred l).filter fun e => f e.1 := by
  unfold blurred
  rw [List.filter_map]
  rfl

theorem files_alike {s s' : St} {l l' : List (Str × Node)} (h : Alike (.dir s l) (.dir s' l')) (hl : (l.map Prod.fst).Nodup)
    (hl' : (l'.map Prod.fst).Nodup) (ho : OkAll l) (ho' : OkAll l') {e : Str × St} (he : e ∈ blurred (filesOf l)) :
    e ∈ blurred (filesOf l') := by
  unfold blurred at *
  obtain ⟨⟨k, st⟩, h1, rfl⟩ := List.mem_map.1 he
  have h2 := mem_files.1 h1
  obtain ⟨y, hy, ha⟩ := h.kid hl hl' h2
  rcases ha.shape (okAll_mem ho h2).2 (okAll_mem ho' hy).2 with ⟨a, a', b, e1, e2, e3⟩ | ⟨_, _, _, _, e1, -, -⟩
  · cases e1
    subst e2
    exact List.mem_map.2 ⟨(k, a'), mem_files.2 hy, by rw [e3]⟩
  · cases e1

theorem links_alike {s s' : St} {l l' : List (Str × Node)} (h : Alike (.dir s l) (.dir s' l')) (hl : (l.map Prod.fst).Nodup)
    (hl' : (l'.map Prod.fst).Nodup) (ho : OkAll l) (ho' : OkAll l') {e : Str × St} (he : e ∈ blurred (linksOf l)) :
    e ∈ blurred (linksOf l') := by
  unfold blurred at *
  obtain ⟨⟨k, st⟩, h1, rfl⟩ := List.mem_map.1 he
  have h2 := mem_links.1 h1
  obtain ⟨y, hy, ha⟩ := h.kid hl hl' h2
  rcases ha.shape (okAll_mem ho h2).2 (okAll_mem ho' hy).2 with ⟨a, a', b, e1, e2, e3⟩ | ⟨_, _, _, _, e1, -, -⟩
  · cases e1
    subst e2
    exact List.mem_map.2 ⟨(k, a'), mem_links.2 hy, by rw [e3]⟩
  · cases e1

/-- What is proved by induction over a tree. -/
def Visited (c : Cfg) (n : Node) : Prop :=
  ∀ m root, Ok n → Ok m → Alike n m → blurred (visit c root n) = blurred (visit c root m)

theorem dirs_alike {c : Cfg} {root : Str} {s s' : St} {l l' : List (Str × Node)} (h : Alike (.dir s l) (.dir s' l'))
    (hl : (l.map Prod.fst).Nodup) (hl' : (l'.map Prod.fst).Nodup) (ho : OkAll l) (ho' : OkAll l')
    (ih : ∀ k x y, (k, x) ∈ l → (k, y) ∈ l' → Alike x y →
      blurred (visit c (pathJoin root k) x) = blurred (visit c (pathJoin root k) y))
    {e : Str × List (Str × St)} (he : e ∈ (visitAll c root l).map fun e => (e.1, blurred e.2)) :
    e ∈ (visitAll c root l').map fun e => (e.1, blurred e.2) := by
  obtain ⟨⟨k, v⟩, h1, rfl⟩ := List.mem_map.1 he
  obtain ⟨st, ks, h2, rfl⟩ := mem_dirs.1 h1
  obtain ⟨y, hy, ha⟩ := h.kid hl hl' h2
  rcases ha.shape (okAll_mem ho h2).2 (okAll_mem ho' hy).2 with ⟨_, _, _, e1, -, -⟩ | ⟨a, a', b, b', e1, e2, e3⟩
  · cases e1
  · refine List.mem_map.2 ⟨(k, visit c (pathJoin root k) y), ?_, ?_⟩
    · subst e2
      exact mem_dirs.2 ⟨a', b', hy, rfl⟩
    · dsimp only
      rw [ih k _ y h2 hy ha]

theorem visit_dir (c : Cfg) (root : Str) (st : St) (kids : List (Str × Node)) :
    visit c root (.dir st kids) = (if includeRoot c || root != ".".toList then [(root, st)] else []) ++
      inDir root ((sortBy nameLe (filesOf kids)).filter fun f => f.1 ≠ "fixmepath".toList) ++
      inDir root (sortBy nameLe (linksOf kids)) ++
      ((sortBy nameLe (visitAll c root kids)).map Prod.snd).flatten := by
  conv => lhs; unfold visit

theorem blurred_flat (v : List (Str × List (Str × St))) :
    blurred (v.map Prod.snd).flatten = ((v.map fun e => (e.1, blurred e.2)).map Prod.snd).flatten := by
  unfold blurred
  rw [List.map_flatten, List.map_map, List.map_map]
  rfl

theorem visited_dir {c : Cfg} {st : St} {kids : List (Str × Node)} (ih : ∀ e ∈ kids, Visited c e.2) :
    Visited c (.dir st kids) := by
  intro m root hn hm h
  rcases h.shape hn hm with ⟨_, _, _, e1, -, -⟩ | ⟨s, s', l, l', e1, e2, e3⟩
  · cases e1
  · cases e1
    subst e2
    unfold Ok at hn hm
    obtain ⟨-, d1, o1⟩ := hn
    obtain ⟨-, d2, o2⟩ := hm
    have hroot : blurred (if includeRoot c || root != ".".toList then [(root, st)] else []) =
        blurred (if includeRoot c || root != ".".toList then [(root, s')] else []) := by
      split
      · show [(root, blur st)] = [(root, blur s')]
        rw [e3]
      · rfl
    have hf : blurred (sortBy nameLe (filesOf kids)) = blurred (sortBy nameLe (filesOf l')) := by
      unfold blurred
      rw [sort_map, sort_map]
      refine sort_ext ?_ ?_ fun e => ⟨fun he => ?_, fun he => ?_⟩
      · rw [map_fst]; exact d1.sublist (files_names _)
      · rw [map_fst]; exact d2.sublist (files_names _)
      · exact files_alike h d1 d2 o1 o2 he
      · exact files_alike h.symm d2 d1 o2 o1 he
    have hk : blurred (sortBy nameLe (linksOf kids)) = blurred (sortBy nameLe (linksOf l')) := by
      unfold blurred
      rw [sort_map, sort_map]
      refine sort_ext ?_ ?_ fun e => ⟨fun he => ?_, fun he => ?_⟩
      · rw [map_fst]; exact d1.sublist (links_names _)
      · rw [map_fst]; exact d2.sublist (links_names _)
      · exact links_alike h d1 d2 o1 o2 he
      · exact links_alike h.symm d2 d1 o2 o1 he
    have hd : blurred ((sortBy nameLe (visitAll c root kids)).map Prod.snd).flatten =
        blurred ((sortBy nameLe (visitAll c root l')).map Prod.snd).flatten := by
      rw [blurred_flat, blurred_flat, sort_map, sort_map]
      refine congrArg (fun v => (List.map Prod.snd v).flatten) ?_
      refine sort_ext ?_ ?_ fun e => ⟨fun he => ?_, fun he => ?_⟩
      · rw [map_fst]; exact d1.sublist (dirs_names _ _ _)
      · rw [map_fst]; exact d2.sublist (dirs_names _ _ _)
      · exact dirs_alike h d1 d2 o1 o2 (fun k x y hx hy ha =>
          ih _ hx y _ (okAll_mem o1 hx).2 (okAll_mem o2 hy).2 ha) he
      · exact dirs_alike h.symm d2 d1 o2 o1 (fun k x y hx hy ha =>
          (ih _ hy x _ (okAll_mem o1 hy).2 (okAll_mem o2 hx).2 ha.symm).symm) he
    have app : ∀ a b, blurred (a ++ b) = blurred a ++ blurred b := fun a b => List.map_append
    rw [visit_dir, visit_dir, app, app, app, app, app, app, hroot, blurred_inDir, blurred_inDir, blurred_inDir, blurred_inDir,
      blurred_filter (fun k => k ≠ "fixmepath".toList), blurred_filter (fun k => k ≠ "fixmepath".toList), hf, hk, hd]

mutual
theorem visited (c : Cfg) : ∀ n : Node, Visited c n
  | .leaf st b => fun m root hn hm h => by
    rcases h.shape hn hm with ⟨s, s', b', e1, e2, e3⟩ | ⟨_, _, _, _, e1, -, -⟩
    · rw [e2]
      unfold visit
      rfl
    · cases e1
  | .dir st kids => visited_dir (visitedAll c kids)
theorem visitedAll (c : Cfg) : ∀ l : List (Str × Node), ∀ e ∈ l, Visited c e.2
  | [], _, h => nomatch h
  | (k, n) :: l, e, h => by
    cases h with
    | head => exact visited c n
    | tail _ h => exact visitedAll c l e h
end

/-- Without owners and times, the line of a path depends on nothing else. -/
theorem line_blur {c : Cfg} (ho : includeOwners c = false) (ht : includeTimes c = false) (path : Str) (st : St) :
    line c path st = line c path (blur st) := by
  unfold line owners times
  rw [ho, ht]
  rfl

theorem lines_blur {c : Cfg} (ho : includeOwners c = false) (ht : includeTimes c = false) : ∀ l : List (Str × St),
    linesOf c l = linesOf c (blurred l)
  | [] => rfl
  | (p, st) :: l => by
    show (match line c p st, linesOf c l with
      | some a, some b => some (a ++ '\n' :: b)
      | _, _ => none) = match line c p (blur st), linesOf c (blurred l) with
      | some a, some b => some (a ++ '\n' :: b)
      | _, _ => none
    rw [← lines_blur ho ht l, ← line_blur ho ht]

/-! ## C210 -/

/-- **C210.**  Outside of pseudo, and for a task other than `package`, two outputs that have the same paths with the same
types, contents, targets and permissions of the owner have the same hash: the order of the listings, times, owners, groups
and their permissions do not matter.  (Not proved, because it is not so: that it does not matter if a link leads to an existing
directory, see `link_matters`.) -/
theorem hash_same_partial (c : Cfg) (n m : Node) (hp : c.pseudo ≠ some "0".toList) (ht : c.task ≠ "package".toList) (hn : Ok n)
    (hm : Ok m) (h : Alike n m) : outText c n = outText c m ∧ outHash c n = outHash c m := by
  have ho : includeOwners c = false := by
    unfold includeOwners
    rw [beq_eq_false_iff_ne.2 hp, Bool.false_and]
  have hi : includeTimes c = false := by
    unfold includeTimes
    rw [beq_eq_false_iff_ne.2 ht]
  have : outText c n = outText c m := by
    unfold outText
    rw [lines_blur ho hi, lines_blur ho hi (visit c ".".toList m), visited c n m _ hn hm h]
  refine ⟨this, ?_⟩
  unfold outHash
  rw [this]

/-! ### An example -/

def mode0 : Mode := ⟨true, true, false, false, true, false, false, false, true, false, false, false⟩
/-- Only the owner may read. -/
def mode1 : Mode := ⟨true, true, false, false, false, false, false, false, false, false, false, false⟩

def cfg0 : Cfg :=
  { pseudo := none, task := "dpkg_build".toList, version := none, extra := none, pkgspec := "sstate:hello".toList,
    filemap := some "populate_sysroot:*/x:/tmp".toList, basepath := "/b".toList, fnmatch := fun a b => a == b,
    resub := fun _ s => s, sha := fun s => rjust (s.take 64) 64 'a' }

def file (m : Mode) (s : String) (t : Nat) : Node := .leaf ⟨.reg s.toList, m, some "u".toList, none, t⟩ false
def dirSt (t : Nat) : St := ⟨.dir, mode0, none, none, t⟩
def linkSt (s : String) : St := ⟨.lnk s.toList, mode0, none, none, 0⟩

def tree0 : Node := .dir (dirSt 1) [("a".toList, file mode0 "x" 1), ("d".toList, .dir (dirSt 2) [("b".toList, file mode0 "yy" 3)]),
  ("l".toList, .leaf (linkSt "d") true)]
/-- The same in another order, at another time and not readable for others. -/
def tree1 : Node := .dir (dirSt 7) [("l".toList, .leaf (linkSt "d") true), ("d".toList, .dir (dirSt 8) [("b".toList, file mode1 "yy" 9)]),
  ("a".toList, file mode0 "x" 5)]

theorem tree0_ok : Ok tree0 := by
  simp only [tree0, Ok, OkAll, dirSt, linkSt, file]
  decide

theorem tree1_ok : Ok tree1 := by
  simp only [tree1, Ok, OkAll, dirSt, linkSt, file]
  decide

theorem alike_dir {s s' : St} {l l' : List (Str × Node)} (h : blur s = blur s')
    (h1 : ∀ k x, (k, x) ∈ l → ∃ y, (k, y) ∈ l' ∧ Alike x y) (h2 : ∀ k y, (k, y) ∈ l' → ∃ x, (k, x) ∈ l ∧ Alike y x) :
    Alike (.dir s l) (.dir s' l') := by
  intro p s0 b
  cases p with
  | nil =>
    constructor
    · rintro ⟨st, h3, h4⟩
      cases at_nil.1 h3
      exact ⟨s', .here _, h.symm.trans h4⟩
    · rintro ⟨st, h3, h4⟩
      cases at_nil.1 h3
      exact ⟨s, .here _, h.trans h4⟩
  | cons k p =>
    constructor
    · rintro ⟨st, h3, h4⟩
      obtain ⟨x, hx, h3⟩ := at_cons.1 h3
      obtain ⟨y, hy, ha⟩ := h1 k x hx
      obtain ⟨st', h5, h6⟩ := (ha p s0 b).1 ⟨st, h3, h4⟩
      exact ⟨st', at_cons.2 ⟨y, hy, h5⟩, h6⟩
    · rintro ⟨st, h3, h4⟩
      obtain ⟨x, hx, h3⟩ := at_cons.1 h3
      obtain ⟨y, hy, ha⟩ := h2 k x hx
      obtain ⟨st', h5, h6⟩ := (ha p s0 b).1 ⟨st, h3, h4⟩
      exact ⟨st', at_cons.2 ⟨y, hy, h5⟩, h6⟩

theorem alike_leaf {s s' : St} {b : Bool} (h : blur s = blur s') : Alike (.leaf s b) (.leaf s' b) := by
  intro p s0 b0
  cases p with
  | nil =>
    constructor
    · rintro ⟨st, h3, h4⟩
      cases at_nil.1 h3
      exact ⟨s', .here _, h.symm.trans h4⟩
    · rintro ⟨st, h3, h4⟩
      cases at_nil.1 h3
      exact ⟨s, .here _, h.trans h4⟩
  | cons k p =>
    constructor
    · rintro ⟨_, h3, _⟩
      cases h3
    · rintro ⟨_, h3, _⟩
      cases h3

example : Alike tree0 tree1 := by
  have inner : Alike (.dir (dirSt 2) [("b".toList, file mode0 "yy" 3)]) (.dir (dirSt 8) [("b".toList, file mode1 "yy" 9)]) := by
    refine alike_dir (by decide) ?_ ?_ <;> intro k x hx <;> rw [List.mem_singleton] at hx <;> cases hx
    · exact ⟨_, List.mem_singleton.2 rfl, alike_leaf (by decide)⟩
    · exact ⟨_, List.mem_singleton.2 rfl, alike_leaf (by decide)⟩
  unfold tree0 tree1
  refine alike_dir (by decide) ?_ ?_
  · intro k x hx
    simp only [List.mem_cons, List.not_mem_nil, or_false, Prod.mk.injEq] at hx ⊢
    rcases hx with ⟨rfl, rfl⟩ | ⟨rfl, rfl⟩ | ⟨rfl, rfl⟩
    · exact ⟨_, Or.inr (Or.inr ⟨rfl, rfl⟩), alike_leaf (by decide)⟩
    · exact ⟨_, Or.inr (Or.inl ⟨rfl, rfl⟩), inner⟩
    · exact ⟨_, Or.inl ⟨rfl, rfl⟩, alike_leaf (by decide)⟩
  · intro k x hx
    simp only [List.mem_cons, List.not_mem_nil, or_false, Prod.mk.injEq] at hx ⊢
    rcases hx with ⟨rfl, rfl⟩ | ⟨rfl, rfl⟩ | ⟨rfl, rfl⟩
    · exact ⟨_, Or.inr (Or.inr ⟨rfl, rfl⟩), alike_leaf (by decide)⟩
    · exact ⟨_, Or.inr (Or.inl ⟨rfl, rfl⟩), inner.symm⟩
    · exact ⟨_, Or.inl ⟨rfl, rfl⟩, alike_leaf (by decide)⟩

/-- A link to a directory that is not part of the output, and a file. -/
def linked (exists_ : Bool) : Node :=
  .dir (dirSt 0) [("a".toList, .leaf (linkSt "/usr/share/doc/x") exists_), ("b".toList, file mode0 "x" 0)]

/-- **C210, what does not hold.**  The hash depends on what is on the machine besides the output: if the target of a link is a
directory there, the link comes after the files, and before some of them if not. -/
theorem link_matters : (∀ b, Ok (linked b)) ∧ outText cfg0 (linked true) ≠ outText cfg0 (linked false) ∧
    (∀ p st, (∃ b, At (linked true) p (st, b)) ↔ ∃ b, At (linked false) p (st, b)) := by
  refine ⟨fun b => ?_, by decide +kernel, fun p st => ?_⟩
  · cases b <;> simp only [linked, Ok, OkAll, dirSt, linkSt, file] <;> decide
  · unfold linked
    cases p with
    | nil =>
      simp only [at_nil, Node.about, Prod.mk.injEq]
    | cons k p =>
      simp only [at_cons, List.mem_cons, List.not_mem_nil, or_false, Prod.mk.injEq]
      constructor
      · rintro ⟨b, n, ⟨rfl, rfl⟩ | ⟨rfl, rfl⟩, h⟩
        · cases h
          exact ⟨_, _, Or.inl ⟨rfl, rfl⟩, .here _⟩
        · exact ⟨_, _, Or.inr ⟨rfl, rfl⟩, h⟩
      · rintro ⟨b, n, ⟨rfl, rfl⟩ | ⟨rfl, rfl⟩, h⟩
        · cases h
          exact ⟨_, _, Or.inl ⟨rfl, rfl⟩, .here _⟩
        · exact ⟨_, _, Or.inr ⟨rfl, rfl⟩, h⟩

end Isar.Outhash
