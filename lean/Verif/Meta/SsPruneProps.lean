import Verif.Meta.SsPruneModel
/-!
# Properties of the index of manifests
-/

namespace Meta.SsPrune
open Py

/-! ## Lines of an index -/

/-- The line is the last one for its manifest. -/
def Last (ls : List Line) (l : Line) : Prop := (ls.filter fun x => decide (x.man = l.man)).getLast? = some l

theorem Last.mem {ls : List Line} {l : Line} (h : Last ls l) : l ∈ ls :=
  (List.mem_filter.1 (List.mem_of_getLast? h)).1

theorem Last.unique {ls : List Line} {l l' : Line} (h : Last ls l) (h' : Last ls l') (e : l.man = l'.man) :
    l = l' := by
  unfold Last at h h'
  rw [e, h'] at h
  exact (Option.some.inj h).symm

theorem scan_remove (e : Event) (seen : List Str) (l : Line) : ∀ (rs : List Line) (mans : List Str),
    l ∈ (scan e seen rs mans).2 ↔
      obsolete e seen l = true ∧ l.man ∉ mans ∧ (rs.filter fun x => decide (x.man = l.man)).head? = some l
  | [], mans => by
    constructor
    · intro h; cases h
    · rintro ⟨_, _, h⟩; cases h
  | x :: rs, mans => by
    unfold scan
    by_cases hx : x.man ∈ mans
    · rw [if_pos hx]
      show l ∈ (scan e seen rs mans).2 ↔ _
      rw [scan_remove e seen l rs mans]
      by_cases hm : x.man = l.man
      · constructor
        · rintro ⟨_, h, _⟩; exact absurd (hm ▸ hx) h
        · rintro ⟨_, h, _⟩; exact absurd (hm ▸ hx) h
      · rw [List.filter_cons_of_neg (by simpa using hm)]
    · rw [if_neg hx]
      have ih := scan_remove e seen l rs (x.man :: mans)
      have key : l ∈ (scan e seen rs (x.man :: mans)).2 ∨ (l = x ∧ obsolete e seen x = true) ↔
          obsolete e seen l = true ∧ l.man ∉ mans ∧
            ((x :: rs).filter fun x => decide (x.man = l.man)).head? = some l := by
        rw [ih]
        by_cases hm : x.man = l.man
        · rw [List.filter_cons_of_pos (by simpa using hm), List.head?_cons]
          constructor
          · rintro (⟨_, h, _⟩ | ⟨rfl, h⟩)
            · exact absurd (hm ▸ List.mem_cons_self) h
            · exact ⟨h, hx, rfl⟩
          · rintro ⟨h1, _, h3⟩
            have := Option.some.inj h3
            subst this
            exact Or.inr ⟨rfl, h1⟩
        · rw [List.filter_cons_of_neg (by simpa using hm)]
          constructor
          · rintro (⟨h1, h2, h3⟩ | ⟨rfl, _⟩)
            · exact ⟨h1, fun h => h2 (List.mem_cons_of_mem _ h), h3⟩
            · exact absurd rfl hm
          · rintro ⟨h1, h2, h3⟩
            refine Or.inl ⟨h1, fun h => ?_, h3⟩
            rcases List.mem_cons.1 h with h | h
            · exact hm h.symm
            · exact h2 h
      rw [← key]
      dsimp only
      by_cases ho : obsolete e seen x = true
      · rw [if_pos ho]
        constructor
        · intro h
          rcases List.mem_cons.1 h with h | h
          · exact Or.inr ⟨h, ho⟩
          · exact Or.inl h
        · rintro (h | ⟨h, _⟩)
          · exact List.mem_cons_of_mem _ h
          · exact List.mem_cons.2 (Or.inl h)
      · rw [if_neg ho]
        exact ⟨Or.inl, fun h => h.resolve_right fun h => ho h.2⟩

theorem scan_ignore (e : Event) (seen : List Str) (l : Line) : ∀ (rs : List Line) (mans : List Str),
    rs.Nodup → (l ∈ (scan e seen rs mans).1 ↔
      l ∈ rs ∧ (l.man ∈ mans ∨ (rs.filter fun x => decide (x.man = l.man)).head? ≠ some l))
  | [], mans, _ => by
    constructor
    · intro h; cases h
    · rintro ⟨h, _⟩; cases h
  | x :: rs, mans, hnd => by
    obtain ⟨hx1, hnd⟩ := List.nodup_cons.1 hnd
    unfold scan
    by_cases hx : x.man ∈ mans
    · rw [if_pos hx]
      show l ∈ x :: (scan e seen rs mans).1 ↔ _
      rw [List.mem_cons, scan_ignore e seen l rs mans hnd, List.mem_cons]
      by_cases hl : l = x
      · subst hl
        exact ⟨fun _ => ⟨Or.inl rfl, Or.inl hx⟩, fun _ => Or.inl rfl⟩
      · by_cases hm : x.man = l.man
        · constructor
          · rintro (h | ⟨h, _⟩)
            · exact absurd h hl
            · exact ⟨Or.inr h, Or.inl (hm ▸ hx)⟩
          · rintro ⟨h, _⟩
            exact Or.inr ⟨h.resolve_left hl, Or.inl (hm ▸ hx)⟩
        · rw [List.filter_cons_of_neg (by simpa using hm)]
          constructor
          · rintro (h | ⟨h, h2⟩)
            · exact absurd h hl
            · exact ⟨Or.inr h, h2⟩
          · rintro ⟨h, h2⟩
            exact Or.inr ⟨h.resolve_left hl, h2⟩
    · rw [if_neg hx]
      have ih := scan_ignore e seen l rs (x.man :: mans) hnd
      have e1 : l ∈ (if obsolete e seen x = true then
            ((scan e seen rs (x.man :: mans)).1, x :: (scan e seen rs (x.man :: mans)).2)
          else scan e seen rs (x.man :: mans)).1 ↔ l ∈ (scan e seen rs (x.man :: mans)).1 := by
        split <;> exact Iff.rfl
      dsimp only
      rw [e1, ih, show l ∈ x :: rs ↔ l = x ∨ l ∈ rs from List.mem_cons]
      by_cases hl : l = x
      · subst hl
        constructor
        · rintro ⟨h, _⟩; exact absurd h hx1
        · rintro ⟨_, h | h⟩
          · exact absurd h hx
          · rw [List.filter_cons_of_pos (by simp)] at h
            exact absurd rfl h
      · by_cases hm : x.man = l.man
        · rw [List.filter_cons_of_pos (by simpa using hm), List.head?_cons]
          constructor
          · rintro ⟨h, _⟩
            exact ⟨Or.inr h, Or.inr fun h => hl (Option.some.inj h).symm⟩
          · rintro ⟨h, _⟩
            exact ⟨h.resolve_left hl, Or.inl (hm ▸ List.mem_cons_self)⟩
        · rw [List.filter_cons_of_neg (by simpa using hm)]
          constructor
          · rintro ⟨h, h2⟩
            refine ⟨Or.inr h, h2.imp_left fun h => ?_⟩
            exact (List.mem_cons.1 h).resolve_left fun h => hm h.symm
          · rintro ⟨h, h2⟩
            exact ⟨h.resolve_left hl, h2.imp_left (List.mem_cons_of_mem _)⟩

theorem last_head (ls : List Line) (l : Line) :
    (ls.reverse.filter fun x => decide (x.man = l.man)).head? = some l ↔ Last ls l := by
  unfold Last
  rw [List.filter_reverse, List.head?_reverse]

/-- The lines that are removed. -/
theorem mem_removed (e : Event) (seen : List Str) (ls : List Line) (l : Line) :
    l ∈ (scan e seen ls.reverse []).2 ↔ Last ls l ∧ obsolete e seen l = true := by
  rw [scan_remove, last_head]
  exact ⟨fun ⟨a, _, b⟩ => ⟨b, a⟩, fun ⟨a, b⟩ => ⟨b, List.not_mem_nil, a⟩⟩

theorem foldl_erase_mem : ∀ (rm ls : List Line), ls.Nodup →
    (rm.foldl List.erase ls).Nodup ∧ ∀ l, l ∈ rm.foldl List.erase ls ↔ l ∈ ls ∧ l ∉ rm
  | [], ls, h => ⟨h, fun _ => ⟨fun h => ⟨h, List.not_mem_nil⟩, And.left⟩⟩
  | r :: rm, ls, h => by
    obtain ⟨h1, h2⟩ := foldl_erase_mem rm (ls.erase r) (h.erase r)
    refine ⟨h1, fun l => ?_⟩
    show l ∈ rm.foldl List.erase (ls.erase r) ↔ _
    rw [h2, h.mem_erase_iff, List.mem_cons]
    constructor
    · rintro ⟨⟨a, b⟩, c⟩
      exact ⟨b, fun d => d.elim a c⟩
    · rintro ⟨a, b⟩
      exact ⟨⟨fun c => b (Or.inl c), a⟩, fun c => b (Or.inr c)⟩

theorem nodup_reverse {ls : List Line} (h : ls.Nodup) : ls.reverse.Nodup := by
  unfold List.Nodup at h ⊢
  rw [List.pairwise_reverse]
  exact h.imp fun h => h.symm

/-- The lines that are left. -/
theorem mem_left (e : Event) (seen : List Str) (ls : List Line) (hnd : ls.Nodup) (l : Line) :
    l ∈ leftLines e seen ls ↔ Last ls l ∧ obsolete e seen l = false := by
  unfold leftLines
  rw [List.mem_filter, (foldl_erase_mem _ ls hnd).2, mem_removed, Bool.not_eq_true', decide_eq_false_iff_not,
    scan_ignore e seen l _ _ (nodup_reverse hnd), ne_eq, last_head, List.mem_reverse]
  constructor
  · rintro ⟨⟨h1, h2⟩, h3⟩
    have hl : Last ls l := Classical.byContradiction fun h => h3 ⟨h1, Or.inr h⟩
    refine ⟨hl, ?_⟩
    cases ho : obsolete e seen l with
    | false => rfl
    | true => exact absurd ⟨hl, ho⟩ h2
  · rintro ⟨h1, h2⟩
    refine ⟨⟨h1.mem, fun h => ?_⟩, ?_⟩
    · rw [h2] at h; exact absurd h.2 (by decide)
    · rintro ⟨_, h | h⟩
      · cases h
      · exact h h1

theorem left_nodup (e : Event) (seen : List Str) (ls : List Line) (hnd : ls.Nodup) :
    (leftLines e seen ls).Nodup := ((foldl_erase_mem _ ls hnd).1).filter _

theorem getLast?_all_eq {l : Line} : ∀ (xs : List Line), l ∈ xs → (∀ x, x ∈ xs → x = l) → xs.getLast? = some l
  | [], h, _ => by cases h
  | x :: xs, _, h => by
    have hne : x :: xs ≠ [] := List.cons_ne_nil _ _
    rw [List.getLast?_eq_some_getLast hne, h _ (List.getLast_mem hne)]

/-- If no two lines are for one manifest, each line is the last. -/
theorem last_of_uniq {ls : List Line} {l : Line} (h : l ∈ ls) (hu : ∀ x, x ∈ ls → x.man = l.man → x = l) :
    Last ls l := by
  unfold Last
  refine getLast?_all_eq _ (List.mem_filter.2 ⟨h, decide_eq_true rfl⟩) fun x hx => ?_
  obtain ⟨h1, h2⟩ := List.mem_filter.1 hx
  exact hu x h1 (of_decide_eq_true h2)

theorem left_uniq (e : Event) (seen : List Str) (ls : List Line) (hnd : ls.Nodup) (x y : Line)
    (hx : x ∈ leftLines e seen ls) (hy : y ∈ leftLines e seen ls) (h : x.man = y.man) : x = y :=
  ((mem_left e seen ls hnd x).1 hx).1.unique ((mem_left e seen ls hnd y).1 hy).1 h

/-! ## Steps of the handler -/

theorem lookup_filter {α : Type} (d : Dict α) (p : Str → Bool) (k : Str) :
    (d.filter fun e => p e.1).lookup k = if p k then d.lookup k else none := by
  induction d with
  | nil => rw [List.filter_nil]; split <;> rfl
  | cons a d ih =>
    obtain ⟨x, v⟩ := a
    by_cases hx : p x = true
    · rw [List.filter_cons_of_pos (by exact hx), List.lookup_cons, List.lookup_cons, ih]
      by_cases hk : k = x
      · rw [hk, beq_self_eq_true, if_pos hx, if_pos hx]
      · rw [beq_eq_false_iff_ne.2 hk]
    · rw [List.filter_cons_of_neg (by exact hx), ih, List.lookup_cons]
      by_cases hk : k = x
      · rw [hk, if_neg hx, if_neg hx]
      · rw [beq_eq_false_iff_ne.2 hk]

/-- The manifest is among those of the line. -/
def Matches (l : Line) (f : Str) : Prop :=
  globs (l.man ++ ".".toList) f = true ∧ endsWith f ".postrm".toList = false

theorem micros_mans (f : Str) : ∀ (ms : List Micro) (w : World),
    ((∃ l, Micro.cleanMans l ∈ ms ∧ Matches l f) → (ms.foldl micro w).mans.lookup f = none) ∧
    ((¬ ∃ l, Micro.cleanMans l ∈ ms ∧ Matches l f) → (ms.foldl micro w).mans.lookup f = w.mans.lookup f)
  | [], w => ⟨fun ⟨_, h, _⟩ => (nomatch h), fun _ => rfl⟩
  | m :: ms, w => by
    obtain ⟨h1, h2⟩ := micros_mans f ms (micro w m)
    have hm : (micro w m).mans.lookup f = none ∨ (micro w m).mans.lookup f = w.mans.lookup f := by
      cases m with
      | cleanMans l =>
        have e : (micro w (.cleanMans l)).mans.lookup f = if (!(globs (l.man ++ ".".toList) f && !endsWith f ".postrm".toList)) = true then w.mans.lookup f else none :=
          lookup_filter w.mans (fun x => !(globs (l.man ++ ".".toList) x && !endsWith x ".postrm".toList)) f
        rw [e]
        split
        · exact Or.inr rfl
        · exact Or.inl rfl
      | rmStamps => exact Or.inr rfl
      | writeIndex => exact Or.inr rfl
      | writeMachine => exact Or.inr rfl
    have hself : ∀ l, m = .cleanMans l →
        (Matches l f → (micro w m).mans.lookup f = none) ∧
        (¬ Matches l f → (micro w m).mans.lookup f = w.mans.lookup f) := by
      rintro l rfl
      have e : (micro w (.cleanMans l)).mans.lookup f = if (!(globs (l.man ++ ".".toList) f && !endsWith f ".postrm".toList)) = true then w.mans.lookup f else none :=
        lookup_filter w.mans (fun x => !(globs (l.man ++ ".".toList) x && !endsWith x ".postrm".toList)) f
      constructor
      · rintro ⟨a, b⟩
        rw [e, a, b]; rfl
      · intro h
        rw [e]
        cases a : globs (l.man ++ ".".toList) f with
        | false => rfl
        | true =>
          cases b : endsWith f ".postrm".toList with
          | true => rfl
          | false => exact absurd ⟨a, b⟩ h
    constructor
    · rintro ⟨l, hl, hmt⟩
      by_cases hex : ∃ l, Micro.cleanMans l ∈ ms ∧ Matches l f
      · exact h1 hex
      · refine (h2 hex).trans ?_
        rcases List.mem_cons.1 hl with hl | hl
        · exact (hself l hl.symm).1 hmt
        · exact absurd ⟨l, hl, hmt⟩ hex
    · intro h
      have hex : ¬ ∃ l, Micro.cleanMans l ∈ ms ∧ Matches l f := fun ⟨l, a, b⟩ => h ⟨l, List.mem_cons_of_mem _ a, b⟩
      refine (h2 hex).trans ?_
      cases m with
      | cleanMans l => exact (hself l rfl).2 fun c => h ⟨l, List.mem_cons_self, c⟩
      | rmStamps => rfl
      | writeIndex => rfl
      | writeMachine => rfl

theorem micros_done (j : Inst) : ∀ (ms : List Micro) (w : World),
    j ∈ (ms.foldl micro w).done ↔
      j ∈ w.done ∧ ¬ ∃ l, Micro.rmStamps l ∈ ms ∧ globs l.stamp (stampFile j) = true
  | [], w => ⟨fun h => ⟨h, fun ⟨_, h, _⟩ => (nomatch h)⟩, And.left⟩
  | m :: ms, w => by
    show j ∈ (ms.foldl micro (micro w m)).done ↔ _
    rw [micros_done j ms (micro w m)]
    have hm : j ∈ (micro w m).done ↔ j ∈ w.done ∧ ∀ l, m = .rmStamps l → globs l.stamp (stampFile j) = false := by
      cases m with
      | rmStamps l =>
        show j ∈ w.done.filter _ ↔ _
        rw [List.mem_filter, Bool.not_eq_true']
        exact ⟨fun ⟨a, b⟩ => ⟨a, fun l' h => by cases h; exact b⟩, fun ⟨a, b⟩ => ⟨a, b l rfl⟩⟩
      | cleanMans => exact ⟨fun h => ⟨h, (nomatch ·, ·)⟩, And.left⟩
      | writeIndex => exact ⟨fun h => ⟨h, (nomatch ·, ·)⟩, And.left⟩
      | writeMachine => exact ⟨fun h => ⟨h, (nomatch ·, ·)⟩, And.left⟩
    rw [hm]
    constructor
    · rintro ⟨⟨a, b⟩, c⟩
      refine ⟨a, ?_⟩
      rintro ⟨l, hl, hg⟩
      rcases List.mem_cons.1 hl with hl | hl
      · rw [b l hl.symm] at hg; cases hg
      · exact c ⟨l, hl, hg⟩
    · rintro ⟨a, b⟩
      refine ⟨⟨a, fun l hl => ?_⟩, fun ⟨l, hl, hg⟩ => b ⟨l, List.mem_cons_of_mem _ hl, hg⟩⟩
      cases hg : globs l.stamp (stampFile j) with
      | false => rfl
      | true => exact absurd ⟨l, List.mem_cons.2 (Or.inl hl.symm), hg⟩ b

theorem micros_index (k : Str) (v : List Line) : ∀ (ms : List Micro) (w : World),
    (∀ ls, Micro.writeIndex k ls ∈ ms → ls = v) →
    ((∃ ls, Micro.writeIndex k ls ∈ ms) → (ms.foldl micro w).index.lookup k = some v) ∧
    ((¬ ∃ ls, Micro.writeIndex k ls ∈ ms) → (ms.foldl micro w).index.lookup k = w.index.lookup k)
  | [], w, _ => ⟨fun ⟨_, h⟩ => (nomatch h), fun _ => rfl⟩
  | m :: ms, w, hv => by
    obtain ⟨h1, h2⟩ := micros_index k v ms (micro w m) fun ls h => hv ls (List.mem_cons_of_mem _ h)
    constructor
    · rintro ⟨ls, hl⟩
      by_cases hex : ∃ ls, Micro.writeIndex k ls ∈ ms
      · exact h1 hex
      · refine (h2 hex).trans ?_
        rcases List.mem_cons.1 hl with hl | hl
        · rw [← hl]
          show (w.index.set k ls).lookup k = _
          rw [Dict.lookup_set, if_pos rfl, hv ls (hl ▸ List.mem_cons_self)]
        · exact absurd ⟨ls, hl⟩ hex
    · intro h
      refine (h2 fun ⟨ls, a⟩ => h ⟨ls, List.mem_cons_of_mem _ a⟩).trans ?_
      cases m with
      | writeIndex k' ls =>
        show (w.index.set k' ls).lookup k = _
        rw [Dict.lookup_set, if_neg]
        rintro rfl
        exact h ⟨ls, List.mem_cons_self⟩
      | rmStamps => rfl
      | cleanMans => rfl
      | writeMachine => rfl

theorem micros_machine : ∀ (ms : List Micro) (w : World), (∀ k ss, Micro.writeMachine k ss ∉ ms) →
    (ms.foldl micro w).machine = w.machine
  | [], _, _ => rfl
  | m :: ms, w, h => by
    show (ms.foldl micro (micro w m)).machine = _
    rw [micros_machine ms _ fun k ss hk => h k ss (List.mem_cons_of_mem _ hk)]
    cases m with
    | writeMachine k ss => exact absurd List.mem_cons_self (h k ss)
    | rmStamps => rfl
    | cleanMans => rfl
    | writeIndex => rfl

/-- The stamps that the machine of the event has seen. -/
def seenBy (e : Event) (w : World) : List Str := (w.machine.lookup (machineFile e)).getD []

/-- The index is one of those of the event. -/
def CoversKey (e : Event) (k : Str) : Prop := ∃ a, a ∈ e.archs ∧ indexFile e.ctl a = k

theorem mem_sortSet' {l : List Str} {a : Str} : a ∈ sortSet l ↔ a ∈ l := by
  unfold sortSet
  rw [(sortBy_perm _ _).mem_iff, List.mem_eraseDups]

theorem mem_eventSteps {e : Event} {w : World} {m : Micro} : m ∈ eventSteps e w ↔
    (∃ k ls, CoversKey e k ∧ w.index.lookup k = some ls ∧
      ((∃ l, Last ls l ∧ obsolete e (seenBy e w) l = true ∧ (m = .cleanMans l ∨ m = .rmStamps l)) ∨
        m = .writeIndex k (leftLines e (seenBy e w) ls))) ∨
    m = .writeMachine (machineFile e) (seenBy e w ++ e.reach.filter fun s => !decide (s ∈ seenBy e w)) := by
  unfold eventSteps
  dsimp only
  rw [List.mem_append, List.mem_singleton]
  refine or_congr ?_ Iff.rfl
  rw [List.mem_flatMap]
  constructor
  · rintro ⟨a, ha, hm⟩
    unfold indexSteps at hm
    cases hl : w.index.lookup (indexFile e.ctl a) with
    | none => rw [hl] at hm; cases hm
    | some ls =>
      rw [hl] at hm
      refine ⟨indexFile e.ctl a, ls, ⟨a, mem_sortSet'.1 ha, rfl⟩, hl, ?_⟩
      rcases List.mem_append.1 hm with hm | hm
      · obtain ⟨l, h1, h2⟩ := List.mem_flatMap.1 hm
        obtain ⟨h3, h4⟩ := (mem_removed _ _ _ _).1 h1
        refine Or.inl ⟨l, h3, h4, ?_⟩
        rcases List.mem_cons.1 h2 with h2 | h2
        · exact Or.inl h2
        · exact Or.inr (List.mem_singleton.1 h2)
      · exact Or.inr (List.mem_singleton.1 hm)
  · rintro ⟨k, ls, ⟨a, ha, rfl⟩, hl, hm⟩
    refine ⟨a, mem_sortSet'.2 ha, ?_⟩
    unfold indexSteps
    rw [hl]
    rcases hm with ⟨l, h1, h2, h3⟩ | hm
    · refine List.mem_append.2 (Or.inl (List.mem_flatMap.2 ⟨l, (mem_removed _ _ _ _).2 ⟨h1, h2⟩, ?_⟩))
      rcases h3 with rfl | rfl
      · exact List.mem_cons_self
      · exact List.mem_cons_of_mem _ List.mem_cons_self
    · exact List.mem_append.2 (Or.inr (List.mem_singleton.2 hm))

/-- The lines that an event removes. -/
def Removed (e : Event) (w : World) (l : Line) : Prop :=
  ∃ k ls, CoversKey e k ∧ w.index.lookup k = some ls ∧ Last ls l ∧ obsolete e (seenBy e w) l = true

theorem mem_cleanMans {e : Event} {w : World} {l : Line} :
    Micro.cleanMans l ∈ eventSteps e w ↔ Removed e w l := by
  rw [mem_eventSteps]
  constructor
  · rintro (⟨k, ls, a, b, ⟨l', c, d, h | h⟩ | h⟩ | h)
    · cases h; exact ⟨k, ls, a, b, c, d⟩
    · cases h
    · cases h
    · cases h
  · rintro ⟨k, ls, a, b, c, d⟩
    exact Or.inl ⟨k, ls, a, b, Or.inl ⟨l, c, d, Or.inl rfl⟩⟩

theorem mem_rmStamps {e : Event} {w : World} {l : Line} :
    Micro.rmStamps l ∈ eventSteps e w ↔ Removed e w l := by
  rw [mem_eventSteps]
  constructor
  · rintro (⟨k, ls, a, b, ⟨l', c, d, h | h⟩ | h⟩ | h)
    · cases h
    · cases h; exact ⟨k, ls, a, b, c, d⟩
    · cases h
    · cases h
  · rintro ⟨k, ls, a, b, c, d⟩
    exact Or.inl ⟨k, ls, a, b, Or.inl ⟨l, c, d, Or.inr rfl⟩⟩

theorem mem_writeIndex {e : Event} {w : World} {k : Str} {v : List Line} :
    Micro.writeIndex k v ∈ eventSteps e w ↔
      CoversKey e k ∧ ∃ ls, w.index.lookup k = some ls ∧ v = leftLines e (seenBy e w) ls := by
  rw [mem_eventSteps]
  constructor
  · rintro (⟨k, ls, a, b, ⟨l', c, d, h | h⟩ | h⟩ | h)
    · cases h
    · cases h
    · cases h; exact ⟨a, ls, b, rfl⟩
    · cases h
  · rintro ⟨a, ls, b, rfl⟩
    exact Or.inl ⟨k, ls, a, b, Or.inr rfl⟩

/-! ## Effect of an event -/

theorem event_mans (e : Event) (w : World) (f : Str) :
    ((∃ l, Removed e w l ∧ Matches l f) → (event w e).mans.lookup f = none) ∧
    ((¬ ∃ l, Removed e w l ∧ Matches l f) → (event w e).mans.lookup f = w.mans.lookup f) := by
  have h := micros_mans f (eventSteps e w) w
  have hiff : (∃ l, Micro.cleanMans l ∈ eventSteps e w ∧ Matches l f) ↔ ∃ l, Removed e w l ∧ Matches l f :=
    ⟨fun ⟨l, a, b⟩ => ⟨l, mem_cleanMans.1 a, b⟩, fun ⟨l, a, b⟩ => ⟨l, mem_cleanMans.2 a, b⟩⟩
  rw [hiff] at h
  exact h

theorem event_done (e : Event) (w : World) (j : Inst) : j ∈ (event w e).done ↔
    j ∈ w.done ∧ ¬ ∃ l, Removed e w l ∧ globs l.stamp (stampFile j) = true := by
  unfold event
  rw [micros_done]
  exact and_congr Iff.rfl (not_congr
    ⟨fun ⟨l, a, b⟩ => ⟨l, mem_rmStamps.1 a, b⟩, fun ⟨l, a, b⟩ => ⟨l, mem_rmStamps.2 a, b⟩⟩)

theorem event_index (e : Event) (w : World) (k : Str) :
    (CoversKey e k → (event w e).index.lookup k = (w.index.lookup k).map (leftLines e (seenBy e w))) ∧
    (¬ CoversKey e k → (event w e).index.lookup k = w.index.lookup k) := by
  constructor
  · intro hc
    cases hl : w.index.lookup k with
    | none =>
      refine ((micros_index k [] (eventSteps e w) w ?_).2 ?_).trans hl
      · intro ls h
        obtain ⟨_, ls', h, _⟩ := mem_writeIndex.1 h
        rw [hl] at h; cases h
      · rintro ⟨ls, h⟩
        obtain ⟨_, ls', h, _⟩ := mem_writeIndex.1 h
        rw [hl] at h; cases h
    | some ls =>
      refine (micros_index k (leftLines e (seenBy e w) ls) (eventSteps e w) w ?_).1
        ⟨_, mem_writeIndex.2 ⟨hc, ls, hl, rfl⟩⟩
      intro v h
      obtain ⟨_, ls', h, hv⟩ := mem_writeIndex.1 h
      rw [hl] at h
      cases h
      exact hv
  · intro hc
    refine (micros_index k [] (eventSteps e w) w ?_).2 ?_
    · intro v h; exact absurd (mem_writeIndex.1 h).1 hc
    · rintro ⟨v, h⟩; exact absurd (mem_writeIndex.1 h).1 hc

theorem event_machine (e : Event) (w : World) : (event w e).machine =
    w.machine.set (machineFile e) (seenBy e w ++ e.reach.filter fun s => !decide (s ∈ seenBy e w)) := by
  unfold event eventSteps
  dsimp only
  rw [List.foldl_append]
  have h := micros_machine ((sortSet e.archs).flatMap (indexSteps e w (seenBy e w))) w (by
    intro k ss hm
    obtain ⟨a, _, hm⟩ := List.mem_flatMap.1 hm
    unfold indexSteps at hm
    split at hm
    · cases hm
    · rcases List.mem_append.1 hm with hm | hm
      · obtain ⟨l, _, hm⟩ := List.mem_flatMap.1 hm
        rcases List.mem_cons.1 hm with hm | hm
        · cases hm
        · cases List.mem_singleton.1 hm
      · cases List.mem_singleton.1 hm)
  show Dict.set (List.foldl micro w ((sortSet e.archs).flatMap (indexSteps e w (seenBy e w)))).machine _ _ = _
  rw [h]
  rfl

/-! ## Histories of builds -/

/-- The index in which a task is. -/
def key (i : Inst) : Str := indexFile i.ctl i.arch

/-- The event reads the index in which the task is. -/
def Covers (e : Event) (i : Inst) : Prop := CoversKey e (key i)

/-- What has to hold of the names of tasks, some of which (`pl`) are in indices that events read. -/
structure Separate (pl U : Inst → Prop) : Prop where
  /-- Tasks with one manifest share their stamps' directory. -/
  own : ∀ i j, U i → U j → manFile i = manFile j → i.dir = j.dir ∧ i.task = j.task
  /-- No manifest of a recipe looks like one of a recipe whose name is the first part of its name. -/
  dots : ∀ i j, U i → U j → (∃ t, manFile j = man i ++ ".".toList ++ t ∧ '/' ∉ t) → man i = man j
  /-- A recipe has one task with a manifest. -/
  one : ∀ i j, U i → U j → pl i → man i = man j → pl j ∧ i.task = j.task ∧ key i = key j
  /-- Names of tasks. -/
  task : ∀ i, U i → '/' ∉ i.task ∧ endsWith (manFile i) ".postrm".toList = false

/-- A build in which each recipe has one version. -/
structure Regular (pl U : Inst → Prop) (b : Build) : Prop where
  /-- Tasks that run are known. -/
  known : ∀ s, s ∈ b.steps → U s.inst
  /-- The recipe of a task that runs has been parsed. -/
  covered : ∀ s, s ∈ b.steps → pl s.inst → ∃ e, e ∈ b.events ∧ Covers e s.inst ∧ stamp s.inst ∈ e.reach
  /-- Events read no index of another kind of task. -/
  uncovered : ∀ i, U i → ¬ pl i → ∀ e, e ∈ b.events → ¬ Covers e i
  /-- One version. -/
  single : ∀ s, s ∈ b.steps → ∀ s', s' ∈ b.steps → pl s.inst → man s.inst = man s'.inst →
    lineOf s.inst = lineOf s'.inst

/-- The lines of the index of a task. -/
def idx (w : World) (i : Inst) : List Line := (w.index.lookup (key i)).getD []

structure Inv (pl U : Inst → Prop) (w : World) : Prop where
  own : ∀ f j, w.mans.lookup f = some j → f = manFile j ∧ U j
  last : ∀ f j, w.mans.lookup f = some j → pl j → Last (idx w j) (lineOf j)
  fin : ∀ i, i ∈ w.done → U i ∧ w.mans.lookup (manFile i) = some i
  nodup : ∀ k ls, w.index.lookup k = some ls → ls.Nodup
  lines : ∀ k ls, w.index.lookup k = some ls → ∀ l, l ∈ ls → ∃ i, U i ∧ key i = k ∧ l = lineOf i

theorem globs_iff {p f : Str} : globs p f = true ↔ ∃ t, f = p ++ t ∧ '/' ∉ t := by
  unfold globs
  rw [Bool.and_eq_true, startsWith_iff]
  constructor
  · rintro ⟨⟨t, rfl⟩, h⟩
    refine ⟨t, rfl, ?_⟩
    rw [List.drop_left, Bool.not_eq_true'] at h
    intro hc
    rw [List.contains_iff_mem.2 hc] at h
    cases h
  · rintro ⟨t, rfl, h⟩
    refine ⟨⟨t, rfl⟩, ?_⟩
    rw [List.drop_left, Bool.not_eq_true']
    cases hc : t.contains '/' with
    | false => rfl
    | true => exact absurd (List.contains_iff_mem.1 hc) h

theorem last_idx {w : World} {j : Inst} {l : Line} (h : Last (idx w j) l) :
    ∃ ls, w.index.lookup (key j) = some ls ∧ Last ls l := by
  unfold idx at h
  cases hl : w.index.lookup (key j) with
  | none => rw [hl] at h; cases h
  | some ls => rw [hl] at h; exact ⟨ls, rfl, h⟩

/-- A line that is removed, with a manifest among those of the line, is the line of the manifest. -/
theorem removed_own {pl U : Inst → Prop} (sep : Separate pl U) {w : World} (inv : Inv pl U w) {e : Event}
    (hu : ∀ i, U i → ¬ pl i → ¬ Covers e i) {f : Str} {j : Inst} (hf : w.mans.lookup f = some j)
    {l : Line} (hr : Removed e w l) (hm : Matches l f) : pl j ∧ Covers e j ∧ l = lineOf j := by
  obtain ⟨rfl, hUj⟩ := inv.own f j hf
  obtain ⟨k, ls, hc, hk, hlast, _⟩ := hr
  obtain ⟨i, hUi, hki, rfl⟩ := inv.lines k ls hk l hlast.mem
  have hpi : pl i := Classical.byContradiction fun h => hu i hUi h (by unfold Covers; rw [hki]; exact hc)
  have hman : man i = man j := sep.dots i j hUi hUj (globs_iff.1 hm.1)
  obtain ⟨hpj, _, hkey⟩ := sep.one i j hUi hUj hpi hman
  refine ⟨hpj, by unfold Covers; rw [← hkey, hki]; exact hc, ?_⟩
  obtain ⟨ls', hk', hlast'⟩ := last_idx (inv.last _ j hf hpj)
  rw [← hkey, hki, hk] at hk'
  cases hk'
  exact hlast.unique hlast' hman

theorem matches_self {pl U : Inst → Prop} (sep : Separate pl U) {j : Inst} (h : U j) :
    Matches (lineOf j) (manFile j) :=
  ⟨globs_iff.2 ⟨j.task, rfl, (sep.task j h).1⟩, (sep.task j h).2⟩

theorem stamp_self {pl U : Inst → Prop} (sep : Separate pl U) {j : Inst} (h : U j) :
    globs (stamp j) (stampFile j) = true := by
  refine globs_iff.2 ⟨".do_".toList ++ j.task, ?_, ?_⟩
  · unfold stampFile; rw [List.append_assoc]
  · intro hc
    rcases List.mem_append.1 hc with hc | hc
    · exact absurd hc (by decide)
    · exact (sep.task j h).1 hc

/-- A manifest is removed exactly if its line is obsolete. -/
theorem removed_iff {pl U : Inst → Prop} (sep : Separate pl U) {w : World} (inv : Inv pl U w) {e : Event}
    (hu : ∀ i, U i → ¬ pl i → ¬ Covers e i) {f : Str} {j : Inst} (hf : w.mans.lookup f = some j) :
    (∃ l, Removed e w l ∧ Matches l f) ↔ pl j ∧ Covers e j ∧ obsolete e (seenBy e w) (lineOf j) = true := by
  constructor
  · rintro ⟨l, hr, hm⟩
    obtain ⟨a, b, rfl⟩ := removed_own sep inv hu hf hr hm
    obtain ⟨_, _, _, _, _, ho⟩ := hr
    exact ⟨a, b, ho⟩
  · rintro ⟨a, b, ho⟩
    obtain ⟨rfl, hUj⟩ := inv.own f j hf
    obtain ⟨ls, hk, hl⟩ := last_idx (inv.last _ j hf a)
    exact ⟨lineOf j, ⟨key j, ls, b, hk, hl, ho⟩, matches_self sep hUj⟩

theorem lookup_kept {e : Event} {w : World} {f : Str} {j : Inst} (h : (event w e).mans.lookup f = some j) :
    w.mans.lookup f = some j ∧ ¬ ∃ l, Removed e w l ∧ Matches l f := by
  by_cases hr : ∃ l, Removed e w l ∧ Matches l f
  · rw [(event_mans e w f).1 hr] at h; cases h
  · rw [(event_mans e w f).2 hr] at h; exact ⟨h, hr⟩

theorem index_kept {e : Event} {w : World} {k : Str} {ls : List Line}
    (h : (event w e).index.lookup k = some ls) :
    (CoversKey e k ∧ ∃ ls', w.index.lookup k = some ls' ∧ ls = leftLines e (seenBy e w) ls') ∨
      (¬ CoversKey e k ∧ w.index.lookup k = some ls) := by
  by_cases hc : CoversKey e k
  · rw [(event_index e w k).1 hc] at h
    obtain ⟨ls', h1, h2⟩ := Option.map_eq_some_iff.1 h
    exact Or.inl ⟨hc, ls', h1, h2.symm⟩
  · rw [(event_index e w k).2 hc] at h
    exact Or.inr ⟨hc, h⟩

theorem event_inv {pl U : Inst → Prop} (sep : Separate pl U) {w : World} (inv : Inv pl U w) {e : Event}
    (hu : ∀ i, U i → ¬ pl i → ¬ Covers e i) : Inv pl U (event w e) where
  own f j h := inv.own f j (lookup_kept h).1
  last f j h hp := by
    obtain ⟨h1, h2⟩ := lookup_kept h
    have hl := inv.last f j h1 hp
    rw [removed_iff sep inv hu h1] at h2
    obtain ⟨ls, hk, hl⟩ := last_idx hl
    unfold idx
    by_cases hc : Covers e j
    · have ho : obsolete e (seenBy e w) (lineOf j) = false := by
        cases ho : obsolete e (seenBy e w) (lineOf j) with
        | false => rfl
        | true => exact absurd ⟨hp, hc, ho⟩ h2
      rw [(event_index e w (key j)).1 hc, hk]
      have hnd := inv.nodup _ _ hk
      have hm := (mem_left e (seenBy e w) ls hnd (lineOf j)).2 ⟨hl, ho⟩
      exact last_of_uniq hm fun x hx hxm => left_uniq _ _ _ hnd x _ hx hm hxm
    · rw [(event_index e w (key j)).2 hc, hk]
      exact hl
  fin i h := by
    obtain ⟨h1, h2⟩ := (event_done e w i).1 h
    obtain ⟨hU, hm⟩ := inv.fin i h1
    refine ⟨hU, ?_⟩
    rw [(event_mans e w (manFile i)).2, hm]
    rintro ⟨l, hr, hmt⟩
    obtain ⟨_, _, rfl⟩ := removed_own sep inv hu hm hr hmt
    exact h2 ⟨_, hr, stamp_self sep hU⟩
  nodup k ls h := by
    rcases index_kept h with ⟨_, ls', h1, rfl⟩ | ⟨_, h1⟩
    · exact left_nodup _ _ _ (inv.nodup _ _ h1)
    · exact inv.nodup _ _ h1
  lines k ls h l hl := by
    rcases index_kept h with ⟨_, ls', h1, rfl⟩ | ⟨_, h1⟩
    · exact inv.lines _ _ h1 l ((mem_left _ _ _ (inv.nodup _ _ h1) l).1 hl).1.mem
    · exact inv.lines _ _ h1 l hl

/-- No two lines are for one manifest. -/
def Uniq (w : World) (k : Str) : Prop :=
  ∀ ls, w.index.lookup k = some ls → ∀ x, x ∈ ls → ∀ y, y ∈ ls → x.man = y.man → x = y

theorem event_uniq {pl U : Inst → Prop} {w : World} (inv : Inv pl U w) (e : Event) (k : Str)
    (h : CoversKey e k ∨ Uniq w k) : Uniq (event w e) k := by
  intro ls hl x hx y hy hm
  rcases index_kept hl with ⟨_, ls', h1, rfl⟩ | ⟨hc, h1⟩
  · exact left_uniq _ _ _ (inv.nodup _ _ h1) x y hx hy hm
  · exact h.resolve_left hc ls h1 x hx y hy hm

theorem events_inv {pl U : Inst → Prop} (sep : Separate pl U) : ∀ (es : List Event) (w : World), Inv pl U w →
    (∀ i, U i → ¬ pl i → ∀ e, e ∈ es → ¬ Covers e i) →
    Inv pl U (es.foldl event w) ∧ ∀ k, ((∃ e, e ∈ es ∧ CoversKey e k) ∨ Uniq w k) → Uniq (es.foldl event w) k
  | [], w, inv, _ => ⟨inv, fun k h => h.resolve_left fun ⟨_, h, _⟩ => (nomatch h)⟩
  | e :: es, w, inv, hu => by
    have inv' := event_inv sep inv fun i h1 h2 => hu i h1 h2 e List.mem_cons_self
    obtain ⟨h1, h2⟩ := events_inv sep es (event w e) inv' fun i a b e' he => hu i a b e' (List.mem_cons_of_mem _ he)
    refine ⟨h1, fun k h => h2 k ?_⟩
    rcases h with ⟨e', he, hc⟩ | h
    · rcases List.mem_cons.1 he with rfl | he
      · exact Or.inr (event_uniq inv _ k (Or.inl hc))
      · exact Or.inl ⟨e', he, hc⟩
    · exact Or.inr (event_uniq inv e k (Or.inr h))

/-! ## Effect of a task -/

theorem addLine_mem {i : Inst} {ls : List Line} {l : Line} (h : l ∈ addLine i ls) : l ∈ ls ∨ l = lineOf i := by
  unfold addLine at h
  split at h
  · exact Or.inl h
  · rcases List.mem_append.1 h with h | h
    · exact Or.inl h
    · exact Or.inr (List.mem_singleton.1 h)

theorem addLine_nodup {i : Inst} {ls : List Line} (h : ls.Nodup) : (addLine i ls).Nodup := by
  unfold addLine
  split
  · exact h
  · rename_i hn
    refine List.nodup_append.2 ⟨h, List.pairwise_singleton _ _, fun a ha b hb => ?_⟩
    rintro rfl
    exact hn (List.mem_singleton.1 hb ▸ ha)

theorem addLine_other {i : Inst} {ls : List Line} {l : Line} (hm : man i ≠ l.man) :
    Last (addLine i ls) l ↔ Last ls l := by
  unfold addLine Last
  split
  · exact Iff.rfl
  · rw [List.filter_append, List.filter_cons_of_neg (by show ¬ decide (man i = l.man) = true; rw [decide_eq_true_iff]; exact hm), List.filter_nil, List.append_nil]

theorem addLine_last {i : Inst} {ls : List Line} (h : lineOf i ∈ ls → Last ls (lineOf i)) :
    Last (addLine i ls) (lineOf i) := by
  unfold addLine
  split
  · rename_i hm; exact h hm
  · unfold Last
    rw [List.filter_append, List.filter_cons_of_pos (by simp), List.filter_nil, List.getLast?_concat]

theorem install_idx (i j : Inst) (w : World) :
    idx (install i w) j = if key j = key i then addLine i (idx w i) else idx w j := by
  unfold idx install
  dsimp only
  rw [Dict.lookup_set]
  show ((if key j = key i then _ else _ : Option (List Line)).getD []) = _
  by_cases h : key j = key i
  · rw [if_pos h, if_pos h]; rfl
  · rw [if_neg h, if_neg h]; rfl

theorem install_mans (i : Inst) (w : World) (f : Str) :
    (install i w).mans.lookup f = if f = manFile i then some i else w.mans.lookup f := by
  unfold install clean
  dsimp only
  rw [Dict.lookup_set, Dict.lookup_del]
  by_cases h : f = manFile i
  · rw [if_pos h, if_pos h]
  · rw [if_neg h, if_neg h, if_neg h]

theorem mem_clean_done {i j : Inst} {w : World} :
    j ∈ (clean i w).done ↔ j ∈ w.done ∧ ¬ (j.dir = i.dir ∧ j.task = i.task) := by
  unfold clean
  rw [List.mem_filter, Bool.not_eq_true', Bool.and_eq_false_iff, decide_eq_false_iff_not, decide_eq_false_iff_not]
  exact and_congr Iff.rfl ⟨fun h ⟨a, b⟩ => h.elim (fun h => h a) (fun h => h b), fun h => Classical.byContradiction fun c =>
    h ⟨Classical.byContradiction fun d => c (Or.inl d), Classical.byContradiction fun d => c (Or.inr d)⟩⟩

theorem clean_inv {pl U : Inst → Prop} (sep : Separate pl U) {w : World} (inv : Inv pl U w) {i : Inst} (hi : U i) :
    Inv pl U (clean i w) := by
  have hk : ∀ f j, (clean i w).mans.lookup f = some j → w.mans.lookup f = some j := by
    intro f j h
    replace h : (w.mans.del (manFile i)).lookup f = some j := h
    rw [Dict.lookup_del] at h
    split at h
    · cases h
    · exact h
  refine ⟨fun f j h => inv.own f j (hk f j h), fun f j h => inv.last f j (hk f j h), fun j h => ?_, inv.nodup, inv.lines⟩
  obtain ⟨h1, h2⟩ := mem_clean_done.1 h
  obtain ⟨hU, hm⟩ := inv.fin j h1
  refine ⟨hU, ?_⟩
  show (w.mans.del (manFile i)).lookup _ = _
  rw [Dict.lookup_del, if_neg, hm]
  intro he
  exact h2 (sep.own j i hU hi he)

/-- The line of a task that is in an index is the last of its manifest. -/
def Ready (w : World) (i : Inst) : Prop := lineOf i ∈ idx w i → Last (idx w i) (lineOf i)

theorem install_inv {pl U : Inst → Prop} (sep : Separate pl U) {w : World} (inv : Inv pl U w) {i : Inst} (hi : U i)
    (hr : pl i → Ready w i) : Inv pl U (install i w) := by
  have inv' := clean_inv sep inv hi
  have hidx : idx (clean i w) = idx w := rfl
  refine ⟨fun f j h => ?_, fun f j h hp => ?_, fun j h => ?_, fun k ls h => ?_, fun k ls h => ?_⟩
  · rw [install_mans] at h
    split at h
    · rename_i e; cases h; exact ⟨e, hi⟩
    · exact inv.own f j h
  · rw [install_mans] at h
    rw [install_idx]
    split at h
    · cases h
      rw [if_pos rfl]
      exact addLine_last (hr hp)
    · rename_i hne
      obtain ⟨rfl, hUj⟩ := inv.own f j h
      have hl := inv.last _ j h hp
      by_cases hkey : key j = key i
      · rw [if_pos hkey]
        have hman : man i ≠ (lineOf j).man := by
          intro he
          refine hne ?_
          have ht := (sep.one j i hUj hi hp he.symm).2.1
          show man j ++ ".".toList ++ j.task = man i ++ ".".toList ++ i.task
          rw [ht, show man j = man i from he.symm]
        rw [addLine_other hman]
        unfold idx at hl ⊢
        rw [← hkey]
        exact hl
      · rw [if_neg hkey]; exact hl
  · obtain ⟨h1, h2⟩ := mem_clean_done.1 (show j ∈ (clean i w).done from h)
    obtain ⟨hU, hm⟩ := inv.fin j h1
    refine ⟨hU, ?_⟩
    rw [install_mans, if_neg, hm]
    exact fun he => h2 (sep.own j i hU hi he)
  · replace h : (w.index.set (key i) (addLine i (idx w i))).lookup k = some ls := h
    rw [Dict.lookup_set] at h
    split at h
    · cases h
      refine addLine_nodup ?_
      unfold idx
      cases hl : w.index.lookup (key i) with
      | none => exact List.nodup_nil
      | some ls => exact inv.nodup _ _ hl
    · exact inv.nodup _ _ h
  · replace h : (w.index.set (key i) (addLine i (idx w i))).lookup k = some ls := h
    rw [Dict.lookup_set] at h
    split at h
    · rename_i hk
      cases h
      intro l hl
      rcases addLine_mem hl with hl | hl
      · unfold idx at hl
        cases hlk : w.index.lookup (key i) with
        | none => rw [hlk] at hl; cases hl
        | some ls => rw [hlk] at hl; rw [hk]; exact inv.lines _ _ hlk l hl
      · exact ⟨i, hi, hk.symm, hl⟩
    · exact inv.lines _ _ h

theorem install_ready {w : World} {i j : Inst} (hs : man j = man i → lineOf j = lineOf i) (hr : Ready w j) : Ready (install i w) j := by
  unfold Ready at hr ⊢
  rw [install_idx]
  by_cases hkey : key j = key i
  · rw [if_pos hkey]
    have he : idx w j = idx w i := by unfold idx; rw [hkey]
    rw [he] at hr
    intro hm
    by_cases hman : man j = man i
    · rw [hs hman] at hr ⊢
      exact addLine_last hr
    · rw [addLine_other (l := lineOf j) fun c => hman c.symm]
      refine hr ?_
      rcases addLine_mem hm with hm | hm
      · exact hm
      · exact absurd (congrArg Line.man hm) hman
  · rw [if_neg hkey]; exact hr

theorem step_inv {pl U : Inst → Prop} (sep : Separate pl U) {w : World} (inv : Inv pl U w) (s : Step) (hi : U s.inst)
    (hr : pl s.inst → Ready w s.inst) : Inv pl U (step w s) := by
  cases s with
  | clean i => exact clean_inv sep inv hi
  | half i => exact install_inv sep inv hi hr
  | run i =>
    have inv' := install_inv sep inv hi hr
    refine ⟨inv'.own, inv'.last, fun j h => ?_, inv'.nodup, inv'.lines⟩
    rcases List.mem_append.1 h with h | h
    · exact inv'.fin j h
    · rw [List.mem_singleton.1 h]
      refine ⟨hi, ?_⟩
      show (install i w).mans.lookup (manFile i) = some i
      rw [install_mans, if_pos rfl]

theorem step_ready {w : World} {s : Step} {j : Inst} (hs : man j = man s.inst → lineOf j = lineOf s.inst) (hr : Ready w j) :
    Ready (step w s) j := by
  cases s with
  | clean i => exact hr
  | half i => exact install_ready hs hr
  | run i => exact install_ready hs hr

theorem steps_inv {pl U : Inst → Prop} (sep : Separate pl U) : ∀ (ss : List Step) (w : World), Inv pl U w →
    (∀ s, s ∈ ss → U s.inst) →
    (∀ s, s ∈ ss → ∀ s', s' ∈ ss → pl s.inst → man s.inst = man s'.inst → lineOf s.inst = lineOf s'.inst) →
    (∀ s, s ∈ ss → pl s.inst → Ready w s.inst) → Inv pl U (ss.foldl step w)
  | [], _, inv, _, _, _ => inv
  | s :: ss, w, inv, hU, hs, hr => by
    have hself := List.mem_cons_self (a := s) (l := ss)
    refine steps_inv sep ss (step w s) (step_inv sep inv s (hU s hself) (hr s hself))
      (fun x hx => hU x (List.mem_cons_of_mem _ hx))
      (fun x hx y hy => hs x (List.mem_cons_of_mem _ hx) y (List.mem_cons_of_mem _ hy)) fun x hx hp => ?_
    exact step_ready (hs x (List.mem_cons_of_mem _ hx) s hself hp) (hr x (List.mem_cons_of_mem _ hx) hp)

theorem build_inv {pl U : Inst → Prop} (sep : Separate pl U) {w : World} (inv : Inv pl U w) {b : Build}
    (hb : Regular pl U b) : Inv pl U (build w b) := by
  obtain ⟨inv', hq⟩ := events_inv sep b.events w inv hb.uncovered
  refine steps_inv sep b.steps _ inv' hb.known hb.single fun s hs hp hm => ?_
  obtain ⟨e, he, hc, _⟩ := hb.covered s hs hp
  have hq := hq (key s.inst) (Or.inl ⟨e, he, hc⟩)
  unfold idx at hm ⊢
  cases hl : (b.events.foldl event w).index.lookup (key s.inst) with
  | none => rw [hl] at hm; cases hm
  | some ls =>
    rw [hl] at hm
    exact last_of_uniq hm fun x hx hxm => hq ls hl x hx _ hm hxm

theorem builds_inv {pl U : Inst → Prop} (sep : Separate pl U) (h : List Build) (hr : ∀ b, b ∈ h → Regular pl U b) :
    Inv pl U (builds h) := by
  have : ∀ (h : List Build) (w : World), Inv pl U w → (∀ b, b ∈ h → Regular pl U b) → Inv pl U (h.foldl build w) := by
    intro h
    induction h with
    | nil => intro w inv _; exact inv
    | cons b h ih =>
      intro w inv hr
      exact ih _ (build_inv sep inv (hr b List.mem_cons_self)) fun x hx => hr x (List.mem_cons_of_mem _ hx)
  refine this h start ⟨?_, ?_, ?_, ?_, ?_⟩ hr
  · intro f j h; cases h
  · intro f j h; cases h
  · intro i h; cases h
  · intro k ls h; cases h
  · intro k ls h; cases h

/-- **C116.**  After every history of builds, also interrupted ones: a task whose stamp is there has its
manifest, and so its files. -/
theorem done_present (pl U : Inst → Prop) (sep : Separate pl U) (h : List Build)
    (hr : ∀ b, b ∈ h → Regular pl U b) (i : Inst) (hd : i ∈ (builds h).done) :
    (builds h).mans.lookup (manFile i) = some i := ((builds_inv sep h hr).fin i hd).2

/-! ## What is pruned -/

theorem step_machine (w : World) (s : Step) : (step w s).machine = w.machine := by cases s <;> rfl

theorem steps_machine : ∀ (ss : List Step) (w : World), (ss.foldl step w).machine = w.machine
  | [], _ => rfl
  | s :: ss, w => (steps_machine ss (step w s)).trans (step_machine w s)

/-- What a machine has seen. -/
def seenAt (w : World) (k : Str) : List Str := (w.machine.lookup k).getD []

theorem event_seen (e : Event) (w : World) (k s : Str) :
    s ∈ seenAt (event w e) k ↔ s ∈ seenAt w k ∨ (machineFile e = k ∧ s ∈ e.reach) := by
  unfold seenAt
  rw [event_machine, Dict.lookup_set]
  by_cases h : k = machineFile e
  · rw [if_pos h, Option.getD_some, List.mem_append, List.mem_filter, Bool.not_eq_true', decide_eq_false_iff_not]
    subst h
    constructor
    · rintro (h | ⟨h, _⟩)
      · exact Or.inl h
      · exact Or.inr ⟨rfl, h⟩
    · rintro (h | ⟨_, h⟩)
      · exact Or.inl h
      · by_cases hs : s ∈ seenBy e w
        · exact Or.inl hs
        · exact Or.inr ⟨h, hs⟩
  · rw [if_neg h]
    exact ⟨Or.inl, fun c => c.resolve_right fun c => h c.1.symm⟩

theorem events_seen (k s : Str) : ∀ (es : List Event) (w : World),
    s ∈ seenAt (es.foldl event w) k ↔ s ∈ seenAt w k ∨ ∃ e, e ∈ es ∧ machineFile e = k ∧ s ∈ e.reach
  | [], w => ⟨Or.inl, fun h => h.resolve_right fun ⟨_, h, _⟩ => (nomatch h)⟩
  | e :: es, w => by
    show s ∈ seenAt (es.foldl event (event w e)) k ↔ _
    rw [events_seen k s es, event_seen]
    constructor
    · rintro ((h | h) | ⟨e', a, b⟩)
      · exact Or.inl h
      · exact Or.inr ⟨e, List.mem_cons_self, h⟩
      · exact Or.inr ⟨e', List.mem_cons_of_mem _ a, b⟩
    · rintro (h | ⟨e', a, b⟩)
      · exact Or.inl (Or.inl h)
      · rcases List.mem_cons.1 a with rfl | a
        · exact Or.inl (Or.inr b)
        · exact Or.inr ⟨e', a, b⟩

theorem builds_seen (k s : Str) (h : List Build) :
    s ∈ seenAt (builds h) k ↔ ∃ b, b ∈ h ∧ ∃ e, e ∈ b.events ∧ machineFile e = k ∧ s ∈ e.reach := by
  have : ∀ (h : List Build) (w : World), s ∈ seenAt (h.foldl build w) k ↔
      s ∈ seenAt w k ∨ ∃ b, b ∈ h ∧ ∃ e, e ∈ b.events ∧ machineFile e = k ∧ s ∈ e.reach := by
    intro h
    induction h with
    | nil => intro w; exact ⟨Or.inl, fun h => h.resolve_right fun ⟨_, h, _⟩ => (nomatch h)⟩
    | cons b h ih =>
      intro w
      show s ∈ seenAt (h.foldl build (build w b)) k ↔ _
      rw [ih]
      have e1 : seenAt (build w b) k = seenAt (b.events.foldl event w) k := by
        unfold seenAt build; rw [steps_machine]
      rw [e1, events_seen]
      constructor
      · rintro ((h | h) | ⟨b', a, c⟩)
        · exact Or.inl h
        · exact Or.inr ⟨b, List.mem_cons_self, h⟩
        · exact Or.inr ⟨b', List.mem_cons_of_mem _ a, c⟩
      · rintro (h | ⟨b', a, c⟩)
        · exact Or.inl (Or.inl h)
        · rcases List.mem_cons.1 a with rfl | a
          · exact Or.inl (Or.inr c)
          · exact Or.inr ⟨b', a, c⟩
  rw [builds, this]
  exact ⟨fun h => h.resolve_left fun h => (nomatch h), Or.inr⟩

theorem pruned_exact_file (pl U : Inst → Prop) (sep : Separate pl U) (h : List Build)
    (hr : ∀ b, b ∈ h → Regular pl U b) (e : Event) (hu : ∀ i, U i → ¬ pl i → ¬ Covers e i)
    (he : e.preserve = []) (f : Str) (j : Inst) (hf : (builds h).mans.lookup f = some j) :
    (event (builds h) e).mans.lookup f = none ↔
      pl j ∧ Covers e j ∧ stamp j ∉ e.reach ∧
        ∃ b, b ∈ h ∧ ∃ e', e' ∈ b.events ∧ machineFile e' = machineFile e ∧ stamp j ∈ e'.reach := by
  have inv := builds_inv sep h hr
  have key : obsolete e (seenBy e (builds h)) (lineOf j) = true ↔
      stamp j ∉ e.reach ∧ ∃ b, b ∈ h ∧ ∃ e', e' ∈ b.events ∧ machineFile e' = machineFile e ∧ stamp j ∈ e'.reach := by
    rw [← builds_seen]
    unfold obsolete
    rw [he, Bool.and_eq_true, Bool.and_eq_true, Bool.not_eq_true', Bool.not_eq_true', decide_eq_false_iff_not,
      decide_eq_true_iff]
    exact ⟨fun ⟨⟨a, _⟩, b⟩ => ⟨a, b⟩, fun ⟨a, b⟩ => ⟨⟨a, rfl⟩, b⟩⟩
  rw [← key, ← removed_iff sep inv hu hf]
  constructor
  · intro hn
    refine Classical.byContradiction fun hc => ?_
    rw [(event_mans e _ f).2 hc, hf] at hn
    cases hn
  · exact (event_mans e _ f).1

/-- **C117.**  If all builds are of one machine, what is left after parsing are manifests of recipes that
are there. -/
theorem left_reachable (pl U : Inst → Prop) (sep : Separate pl U) (h : List Build)
    (hr : ∀ b, b ∈ h → Regular pl U b) (e : Event) (hu : ∀ i, U i → ¬ pl i → ¬ Covers e i)
    (he : e.preserve = []) (hm : ∀ b, b ∈ h → ∀ e', e' ∈ b.events → e'.ctl = e.ctl ∧ e'.machine = e.machine)
    (f : Str) (j : Inst) (hf : (event (builds h) e).mans.lookup f = some j) (hp : pl j) (hc : Covers e j) :
    stamp j ∈ e.reach := by
  have hf' := (lookup_kept hf).1
  refine Classical.byContradiction fun hs => ?_
  -- some build has run the task
  have hrun : ∃ b, b ∈ h ∧ ∃ s, s ∈ b.steps ∧ s.inst = j := by
    have : ∀ (h : List Build) (w : World), (∀ b, b ∈ h → ∀ s, s ∈ b.steps → s.inst ≠ j) →
        (∀ f, w.mans.lookup f ≠ some j) → ∀ f, (h.foldl build w).mans.lookup f ≠ some j := by
      intro h
      induction h with
      | nil => intro w _ hw; exact hw
      | cons b h ih =>
        intro w hb hw
        refine ih (build w b) (fun b hbm => hb b (List.mem_cons_of_mem _ hbm)) ?_
        have hev : ∀ (es : List Event) (w : World), (∀ f, w.mans.lookup f ≠ some j) →
            ∀ f, (es.foldl event w).mans.lookup f ≠ some j := by
          intro es
          induction es with
          | nil => intro w hw; exact hw
          | cons x es ih => intro w hw; exact ih (event w x) fun f hf => hw f (lookup_kept hf).1
        have hst : ∀ (ss : List Step) (w : World), (∀ s, s ∈ ss → s.inst ≠ j) → (∀ f, w.mans.lookup f ≠ some j) →
            ∀ f, (ss.foldl step w).mans.lookup f ≠ some j := by
          intro ss
          induction ss with
          | nil => intro w _ hw; exact hw
          | cons s ss ih =>
            intro w hs hw
            refine ih (step w s) (fun x hx => hs x (List.mem_cons_of_mem _ hx)) fun f hf => ?_
            have hne := hs s List.mem_cons_self
            cases s with
            | clean i =>
              replace hf : (w.mans.del (manFile i)).lookup f = some j := hf
              rw [Dict.lookup_del] at hf
              split at hf
              · cases hf
              · exact hw f hf
            | half i =>
              replace hf : (install i w).mans.lookup f = some j := hf
              rw [install_mans] at hf
              split at hf
              · exact hne (Option.some.inj hf)
              · exact hw f hf
            | run i =>
              replace hf : (install i w).mans.lookup f = some j := hf
              rw [install_mans] at hf
              split at hf
              · exact hne (Option.some.inj hf)
              · exact hw f hf
        exact hst b.steps _ (hb b List.mem_cons_self) (hev b.events w hw)
    refine Classical.byContradiction fun hc => ?_
    refine this h start (fun b hb s hs hsj => hc ⟨b, hb, s, hs, hsj⟩) (fun f hf => by cases hf) f hf'
  obtain ⟨b, hb, s, hsm, rfl⟩ := hrun
  obtain ⟨e', he', _, hst⟩ := (hr b hb).covered s hsm hp
  have := (pruned_exact_file pl U sep h hr e hu he f s.inst hf').2 ⟨hp, hc, hs, b, hb, e', he', by unfold machineFile; rw [(hm b hb e' he').1, (hm b hb e' he').2], hst⟩
  rw [this] at hf
  cases hf

/-! ## Names in Isar -/

theorem first_sep {c : Char} : ∀ {a b x y : Str}, c ∉ a → c ∉ b → a ++ c :: x = b ++ c :: y → a = b ∧ x = y
  | [], [], _, _, _, _, h => ⟨rfl, (List.cons.inj h).2⟩
  | [], d :: b, _, _, _, hb, h => absurd ((List.cons.inj h).1 ▸ List.mem_cons_self) hb
  | d :: a, [], _, _, ha, _, h => absurd ((List.cons.inj h).1 ▸ List.mem_cons_self) ha
  | d :: a, e :: b, _, _, ha, hb, h => by
    obtain ⟨h1, h2⟩ := List.cons.inj h
    obtain ⟨h3, h4⟩ := first_sep (fun h => ha (List.mem_cons_of_mem _ h)) (fun h => hb (List.mem_cons_of_mem _ h)) h2
    exact ⟨by rw [h1, h3], h4⟩

theorem last_sep {c : Char} {a b x y : Str} (hx : c ∉ x) (hy : c ∉ y) (h : a ++ c :: x = b ++ c :: y) :
    a = b ∧ x = y := by
  have h' := congrArg List.reverse h
  rw [List.reverse_append, List.reverse_append, List.reverse_cons, List.reverse_cons, List.append_assoc,
    List.append_assoc] at h'
  obtain ⟨h1, h2⟩ := first_sep (fun h => hx (List.mem_reverse.1 h)) (fun h => hy (List.mem_reverse.1 h)) h'
  exact ⟨List.reverse_inj.1 h2, List.reverse_inj.1 h1⟩

/-- The directory of manifests. -/
def tagOf (c : Cfg) : Str :=
  match c.kind with
  | .image => machineTag c
  | _ => distroTag c

/-- Names as in Isar, of recipes other than initial RAM disks. -/
structure Named (C : Cfg → Prop) : Prop where
  kinds : ∀ c, C c → c.kind ≠ .initramfs
  arch : ∀ c, C c → '-' ∉ c.packageArch ∧ '.' ∉ c.packageArch ∧ '/' ∉ c.packageArch
  pn : ∀ c, C c → '.' ∉ c.pn ∧ '/' ∉ c.pn
  task : ∀ c, C c → '.' ∉ c.task ∧ '/' ∉ c.task ∧ c.task ≠ "postrm".toList
  /-- Machines and distributions can be told from the two put together. -/
  machines : ∀ c c', C c → C c' → c.kind = .image → c'.kind = .image → machineTag c = machineTag c' →
    c.machine = c'.machine ∧ distroTag c = distroTag c'
  /-- No distribution has the name of another with a machine before it. -/
  distros : ∀ c c', C c → C c' → c.kind = .image → c'.kind = .plain → machineTag c ≠ distroTag c'
  /-- Recipes other than images have one task with a manifest. -/
  one : ∀ c c', C c → C c' → c.kind = .plain → c'.kind = .plain → distroTag c = distroTag c' →
    c.packageArch = c'.packageArch → c.pn = c'.pn → c.task = c'.task

/-- The name of a manifest without its directory and task. -/
def nameOf (c : Cfg) : Str := "manifest-".toList ++ c.packageArch ++ "-".toList ++ c.pn

theorem man_instOf (tmp : Str) (c : Cfg) :
    man (instOf tmp c) = (tmp ++ "/sstate-control/".toList ++ tagOf c) ++ '/' :: nameOf c := by
  unfold man nameOf
  have h : (instOf tmp c).ctl = tmp ++ "/sstate-control/".toList ++ tagOf c := by
    unfold instOf tagOf
    cases c.kind <;> rfl
  rw [h]
  show _ ++ "/manifest-".toList ++ c.packageArch ++ "-".toList ++ c.pn = _
  rw [List.append_assoc, List.append_assoc, List.append_assoc (tmp ++ _ ++ _)]
  congr 1
  show '/' :: ("manifest-".toList ++ (c.packageArch ++ ("-".toList ++ c.pn))) = _
  rw [List.append_assoc, List.append_assoc]

theorem not_mem_append {c : Char} {a b : Str} (ha : c ∉ a) (hb : c ∉ b) : c ∉ a ++ b :=
  fun h => (List.mem_append.1 h).elim ha hb

theorem name_slash {C : Cfg → Prop} (hn : Named C) {c : Cfg} (h : C c) : '/' ∉ nameOf c :=
  not_mem_append (not_mem_append (not_mem_append (by decide) (hn.arch c h).2.2) (by decide)) (hn.pn c h).2

theorem name_dot {C : Cfg → Prop} (hn : Named C) {c : Cfg} (h : C c) : '.' ∉ nameOf c :=
  not_mem_append (not_mem_append (not_mem_append (by decide) (hn.arch c h).2.1) (by decide)) (hn.pn c h).1

theorem name_inj {C : Cfg → Prop} (hn : Named C) {c c' : Cfg} (h : C c) (h' : C c') (e : nameOf c = nameOf c') :
    c.packageArch = c'.packageArch ∧ c.pn = c'.pn := by
  unfold nameOf at e
  rw [List.append_assoc, List.append_assoc, List.append_assoc, List.append_assoc] at e
  exact first_sep (hn.arch c h).1 (hn.arch c' h').1 (List.append_cancel_left e)

/-- The beginning of a name of a manifest tells the directory and the recipe. -/
theorem man_prefix {C : Cfg → Prop} (hn : Named C) {tmp : Str} {c c' : Cfg} (h : C c) (h' : C c') {t t' : Str}
    (ht : '/' ∉ t) (ht' : '/' ∉ t')
    (e : man (instOf tmp c) ++ ".".toList ++ t = man (instOf tmp c') ++ ".".toList ++ t') :
    tagOf c = tagOf c' ∧ nameOf c = nameOf c' ∧ t = t' := by
  have hm : ∀ c t, man (instOf tmp c) ++ ".".toList ++ t =
      (tmp ++ "/sstate-control/".toList ++ tagOf c) ++ '/' :: (nameOf c ++ '.' :: t) := fun c t => by
    rw [man_instOf, List.append_assoc (_ ++ _), List.append_assoc (_ ++ _)]
    congr 1
  rw [hm, hm] at e
  have hs : ∀ {c t}, C c → '/' ∉ t → '/' ∉ nameOf c ++ ('.' :: t) := fun hc ht =>
    not_mem_append (name_slash hn hc) (not_mem_append (a := ['.']) (by decide) ht)
  obtain ⟨h1, h2⟩ := last_sep (hs h ht) (hs h' ht') e
  obtain ⟨h3, h4⟩ := first_sep (name_dot hn h) (name_dot hn h') h2
  exact ⟨List.append_cancel_left h1, h3, h4⟩

theorem tag_kind {C : Cfg → Prop} (hn : Named C) {c c' : Cfg} (h : C c) (h' : C c') (e : tagOf c = tagOf c')
    (hk : c.kind = .plain) : c'.kind = .plain := by
  unfold tagOf at e
  rw [hk] at e
  cases hk' : c'.kind with
  | plain => rfl
  | initramfs => exact absurd hk' (hn.kinds c' h')
  | image =>
    rw [hk'] at e
    exact absurd e.symm (hn.distros c' c h' h hk' hk)

/-- **C116.**  The names of Isar are as they have to be, except for initial RAM disks. -/
theorem isar_separate (tmp : Str) (C : Cfg → Prop) (hn : Named C) :
    Separate (fun i => ∃ c, C c ∧ c.kind = .plain ∧ instOf tmp c = i) (fun i => ∃ c, C c ∧ instOf tmp c = i) where
  own := by
    rintro _ _ ⟨c, hc, rfl⟩ ⟨c', hc', rfl⟩ h
    obtain ⟨h1, h2, h3⟩ := man_prefix hn hc hc' (hn.task c hc).2.1 (hn.task c' hc').2.1 h
    obtain ⟨_, h4⟩ := name_inj hn hc hc' h2
    refine ⟨?_, h3⟩
    cases hk : c.kind with
    | initramfs => exact absurd hk (hn.kinds c hc)
    | plain =>
      have hk' := tag_kind hn hc hc' h1 hk
      unfold tagOf at h1
      rw [hk, hk'] at h1
      show tmp ++ _ ++ distroTag c ++ _ ++ c.pn ++ _ = tmp ++ _ ++ distroTag c' ++ _ ++ c'.pn ++ _
      rw [hk, hk', show distroTag c = distroTag c' from h1, h4]
    | image =>
      have hk' : c'.kind = .image := by
        cases hk' : c'.kind with
        | image => rfl
        | initramfs => exact absurd hk' (hn.kinds c' hc')
        | plain =>
          have := tag_kind hn hc' hc h1.symm hk'
          rw [hk] at this; cases this
      unfold tagOf at h1
      rw [hk, hk'] at h1
      obtain ⟨h5, h6⟩ := hn.machines c c' hc hc' hk hk' h1
      show tmp ++ _ ++ distroTag c ++ _ ++ c.pn ++ _ = tmp ++ _ ++ distroTag c' ++ _ ++ c'.pn ++ _
      rw [hk, hk', h6, h4, h5]
  dots := by
    rintro _ _ ⟨c, hc, rfl⟩ ⟨c', hc', rfl⟩ ⟨t, h, ht⟩
    obtain ⟨h1, h2, _⟩ := man_prefix hn hc' hc (hn.task c' hc').2.1 ht h
    rw [man_instOf, man_instOf, h1, h2]
  one := by
    rintro _ _ ⟨c, hc, rfl⟩ ⟨c', hc', rfl⟩ ⟨d, hd, hk, hdc⟩ h
    rw [← hdc] at h ⊢
    obtain ⟨h1, h2, _⟩ := man_prefix (t := []) (t' := []) hn hd hc' (by decide) (by decide) (by rw [h])
    obtain ⟨h3, h4⟩ := name_inj hn hd hc' h2
    have hk' := tag_kind hn hd hc' h1 hk
    refine ⟨⟨c', hc', hk', rfl⟩, ?_, ?_⟩
    · unfold tagOf at h1
      rw [hk, hk'] at h1
      exact hn.one d c' hd hc' hk hk' h1 h3 h4
    · unfold tagOf at h1
      rw [hk, hk'] at h1
      unfold key
      show indexFile (tmp ++ _ ++ _) d.packageArch = indexFile (tmp ++ _ ++ _) c'.packageArch
      rw [hk, hk', h3, show distroTag d = distroTag c' from h1]
  task := by
    rintro _ ⟨c, hc, rfl⟩
    refine ⟨(hn.task c hc).2.1, ?_⟩
    cases he : endsWith (manFile (instOf tmp c)) ".postrm".toList with
    | false => rfl
    | true =>
      exfalso
      obtain ⟨t, ht⟩ := endsWith_iff.1 he
      unfold manFile at ht
      rw [List.append_assoc] at ht
      exact (hn.task c hc).2.2 (last_sep (hn.task c hc).1 (by decide) ht).2

theorem machineFile_inj {e e' : Event} (h : '/' ∉ e.machine) (h' : '/' ∉ e'.machine) :
    machineFile e' = machineFile e ↔ e'.ctl = e.ctl ∧ e'.machine = e.machine := by
  constructor
  · intro hm
    unfold machineFile at hm
    rw [List.append_assoc, List.append_assoc] at hm
    obtain ⟨h1, h2⟩ := last_sep (c := '/') (x := "index-machine-".toList ++ e'.machine)
      (y := "index-machine-".toList ++ e.machine) (not_mem_append (by decide) h') (not_mem_append (by decide) h) hm
    exact ⟨h1, List.append_cancel_left h2⟩
  · rintro ⟨h1, h2⟩
    unfold machineFile
    rw [h1, h2]

/-- **C117.**  After every history of builds, parsing the recipes again removes exactly the manifests of
recipes that are gone and that this machine has had in one of its builds. -/
theorem pruned_exact (pl U : Inst → Prop) (sep : Separate pl U) (h : List Build)
    (hr : ∀ b, b ∈ h → Regular pl U b) (e : Event) (hu : ∀ i, U i → ¬ pl i → ¬ Covers e i)
    (he : e.preserve = []) (hm : '/' ∉ e.machine) (hms : ∀ b, b ∈ h → ∀ e', e' ∈ b.events → '/' ∉ e'.machine)
    (f : Str) (j : Inst) (hf : (builds h).mans.lookup f = some j) :
    (event (builds h) e).mans.lookup f = none ↔
      pl j ∧ Covers e j ∧ stamp j ∉ e.reach ∧
        ∃ b, b ∈ h ∧ ∃ e', e' ∈ b.events ∧ (e'.ctl = e.ctl ∧ e'.machine = e.machine) ∧ stamp j ∈ e'.reach := by
  rw [pruned_exact_file pl U sep h hr e hu he f j hf]
  constructor
  · rintro ⟨h1, h2, h3, b, hb, e', he', h4, h5⟩
    exact ⟨h1, h2, h3, b, hb, e', he', (machineFile_inj hm (hms b hb e' he')).1 h4, h5⟩
  · rintro ⟨h1, h2, h3, b, hb, e', he', h4, h5⟩
    exact ⟨h1, h2, h3, b, hb, e', he', (machineFile_inj hm (hms b hb e' he')).2 h4, h5⟩

/-! ## Concrete cases -/

def tmp : Str := "/b/tmp".toList

/-- The package `hello`, in two versions. -/
def hello (ver : String) : Cfg :=
  ⟨.plain, "debian".toList, "amd64".toList, "m1".toList, "amd64".toList, "hello".toList, ver.toList, "dpkg_build".toList⟩

def img : Cfg :=
  ⟨.image, "debian".toList, "amd64".toList, "m1".toList, "amd64".toList, "img".toList, "1-r0".toList, "copy_boot_files".toList⟩

/-- The recipes that a machine has. -/
def parsed (machine : String) (cs : List Cfg) : Event :=
  ⟨tmp ++ "/sstate-control/debian-amd64".toList, ["all".toList, "amd64".toList], machine.toList,
    cs.map fun c => stamp (instOf tmp c), []⟩

def ran (cs : List Cfg) : List Step := cs.map fun c => .run (instOf tmp c)

/-- A history: `hello` and an image are built, then `hello` gets a new version. -/
def hist : List Build :=
  [⟨[parsed "m1" [hello "1-r0", img]], ran [hello "1-r0", img]⟩,
    ⟨[parsed "m1" [hello "2-r0", img]], ran [hello "2-r0"]⟩]

/-- The configurations of the history. -/
def HistC (c : Cfg) : Prop := c = hello "1-r0" ∨ c = hello "2-r0" ∨ c = img

theorem hist_named : Named HistC where
  kinds := by rintro c (rfl | rfl | rfl) <;> decide
  arch := by rintro c (rfl | rfl | rfl) <;> decide
  pn := by rintro c (rfl | rfl | rfl) <;> decide
  task := by rintro c (rfl | rfl | rfl) <;> decide
  machines := by rintro c c' (rfl | rfl | rfl) (rfl | rfl | rfl) <;> decide
  distros := by rintro c c' (rfl | rfl | rfl) (rfl | rfl | rfl) <;> decide
  one := by rintro c c' (rfl | rfl | rfl) (rfl | rfl | rfl) <;> decide

/-- The tasks of `hello` are in an index that events read, those of the image are not. -/
theorem hist_covers : (∀ cs, Covers (parsed "m1" cs) (instOf tmp (hello "1-r0"))) ∧
    (∀ cs, Covers (parsed "m1" cs) (instOf tmp (hello "2-r0"))) ∧
    (∀ cs, ¬ Covers (parsed "m1" cs) (instOf tmp img)) := by
  have h1 : indexFile (parsed "m1" []).ctl "amd64".toList = key (instOf tmp (hello "1-r0")) := by decide +kernel
  have h2 : indexFile (parsed "m1" []).ctl "amd64".toList = key (instOf tmp (hello "2-r0")) := by decide +kernel
  have h3 : indexFile (parsed "m1" []).ctl "all".toList ≠ key (instOf tmp img) := by decide +kernel
  have h4 : indexFile (parsed "m1" []).ctl "amd64".toList ≠ key (instOf tmp img) := by decide +kernel
  have ha : "amd64".toList ∈ ["all".toList, "amd64".toList] := List.mem_cons_of_mem _ List.mem_cons_self
  refine ⟨fun cs => ⟨"amd64".toList, ha, h1⟩, fun cs => ⟨"amd64".toList, ha, h2⟩, ?_⟩
  rintro cs ⟨a, ha, h⟩
  rcases List.mem_cons.1 ha with rfl | ha
  · exact h3 h
  · rw [List.mem_singleton.1 ha] at h
    exact h4 h

theorem hist_uncovered (cs : List Cfg) (i : Inst) (hU : ∃ c, HistC c ∧ instOf tmp c = i)
    (hp : ¬ ∃ c, HistC c ∧ c.kind = .plain ∧ instOf tmp c = i) : ¬ Covers (parsed "m1" cs) i := by
  obtain ⟨c, hc, rfl⟩ := hU
  rcases hc with rfl | rfl | rfl
  · exact absurd ⟨_, Or.inl rfl, rfl, rfl⟩ hp
  · exact absurd ⟨_, Or.inr (Or.inl rfl), rfl, rfl⟩ hp
  · exact hist_covers.2.2 cs

theorem hist_regular (b : Build) (hb : b ∈ hist) :
    Regular (fun i => ∃ c, HistC c ∧ c.kind = .plain ∧ instOf tmp c = i) (fun i => ∃ c, HistC c ∧ instOf tmp c = i) b := by
  rcases List.mem_cons.1 hb with rfl | hb
  · refine ⟨fun s hs => ?_, fun s hs hp => ?_, fun i hU hp e he => ?_, fun s hs s' hs' hp hm => ?_⟩
    · rcases List.mem_cons.1 hs with rfl | hs
      · exact ⟨_, Or.inl rfl, rfl⟩
      · rw [List.mem_singleton.1 hs]; exact ⟨_, Or.inr (Or.inr rfl), rfl⟩
    · rcases List.mem_cons.1 hs with rfl | hs
      · exact ⟨_, List.mem_singleton.2 rfl, hist_covers.1 _, by decide +kernel⟩
      · rw [List.mem_singleton.1 hs] at hp ⊢
        obtain ⟨c, hc, hk, h⟩ := hp
        rcases hc with rfl | rfl | rfl
        · exact absurd h (by decide +kernel)
        · exact absurd h (by decide +kernel)
        · cases hk
    · rw [List.mem_singleton.1 he]; exact hist_uncovered _ i hU hp
    · rcases List.mem_cons.1 hs with rfl | hs <;> rcases List.mem_cons.1 hs' with rfl | hs'
      · rfl
      · rw [List.mem_singleton.1 hs'] at hm; exact absurd hm (by decide +kernel)
      · rw [List.mem_singleton.1 hs] at hm; exact absurd hm (by decide +kernel)
      · rw [List.mem_singleton.1 hs, List.mem_singleton.1 hs']
  · rw [List.mem_singleton.1 hb]
    refine ⟨fun s hs => ?_, fun s hs hp => ?_, fun i hU hp e he => ?_, fun s hs s' hs' hp hm => ?_⟩
    · rw [List.mem_singleton.1 hs]; exact ⟨_, Or.inr (Or.inl rfl), rfl⟩
    · rw [List.mem_singleton.1 hs] at hp ⊢
      exact ⟨_, List.mem_singleton.2 rfl, hist_covers.2.1 _, by decide +kernel⟩
    · rw [List.mem_singleton.1 he]; exact hist_uncovered _ i hU hp
    · rw [List.mem_singleton.1 hs, List.mem_singleton.1 hs']

/-- For `done_present`. -/
example : (builds hist).mans.lookup (manFile (instOf tmp (hello "2-r0"))) = some (instOf tmp (hello "2-r0")) :=
  done_present _ _ (isar_separate tmp HistC hist_named) hist hist_regular _ (by decide +kernel)

/-- For `pruned_exact`: the recipe is removed, and its manifest goes. -/
example : (event (builds hist) (parsed "m1" [img])).mans.lookup (manFile (instOf tmp (hello "2-r0"))) = none :=
  (pruned_exact _ _ (isar_separate tmp HistC hist_named) hist hist_regular (parsed "m1" [img])
    (fun i hU hp => hist_uncovered _ i hU hp) rfl (by decide) (by decide +kernel) _ (instOf tmp (hello "2-r0")) (by decide +kernel)).2
    ⟨⟨_, Or.inr (Or.inl rfl), rfl, rfl⟩, hist_covers.2.1 _, by decide +kernel,
      ⟨[parsed "m1" [hello "2-r0", img]], ran [hello "2-r0"]⟩, List.mem_cons_of_mem _ List.mem_cons_self, _, List.mem_singleton.2 rfl, ⟨rfl, rfl⟩,
      by decide +kernel⟩

/-- The first version is gone at the beginning of the second build, before the second is installed; another
machine that never had it removes nothing. -/
example :
    (event (builds (hist.take 1)) (parsed "m1" [hello "2-r0", img])).mans.map (·.2) = [instOf tmp img] ∧
    (event (builds (hist.take 1)) (parsed "m1" [hello "2-r0", img])).done = [instOf tmp img] ∧
    (event (builds (hist.take 1)) (parsed "m2" [hello "2-r0", img])).mans = (builds (hist.take 1)).mans := by
  decide +kernel

/-! ## What does not hold -/

/-- The same initial RAM disk recipe, for two machines. -/
def initrd (machine : String) : Cfg :=
  ⟨.initramfs, "debian".toList, "amd64".toList, machine.toList, "amd64".toList, "initrd".toList, "1-r0".toList,
    "generate_initramfs".toList⟩

/-- Against C116: two machines of one distribution share the manifest of an initial RAM disk, but not its
stamps.  Building it for the second machine removes the first machine's from its deploy directory, and the
stamp that says that it is there stays. -/
theorem initramfs_lost :
    let w := builds [⟨[parsed "m1" [initrd "m1"]], ran [initrd "m1"]⟩, ⟨[parsed "m2" [initrd "m2"]], ran [initrd "m2"]⟩]
    instOf tmp (initrd "m1") ∈ w.done ∧ manFile (instOf tmp (initrd "m1")) = manFile (instOf tmp (initrd "m2")) ∧
      w.mans.lookup (manFile (instOf tmp (initrd "m1"))) = some (instOf tmp (initrd "m2")) ∧
      instOf tmp (initrd "m1") ∉ w.mans.map (·.2) := by decide +kernel

/-- Against C117: manifests of images are in a directory that no event reads.  The files of an image whose
recipe is gone stay for ever. -/
theorem image_kept :
    let w := builds [⟨[parsed "m1" [img]], ran [img]⟩]
    (event w (parsed "m1" [])).mans.map (·.2) = [instOf tmp img] := by decide +kernel

def kernel (pn : String) : Cfg := { hello "1-r0" with pn := pn.toList }

/-- Against C116: the recipe `linux-5` is gone; with it goes the manifest of `linux-5.10`, whose stamp
stays. -/
theorem dotted_pruned :
    let w := event (builds [⟨[parsed "m1" [kernel "linux-5", kernel "linux-5.10"]], ran [kernel "linux-5", kernel "linux-5.10"]⟩])
      (parsed "m1" [kernel "linux-5.10"])
    w.done = [instOf tmp (kernel "linux-5.10")] ∧ w.mans = [] := by decide +kernel

/-- Against C116: the process is killed after it has removed the files of an obsolete version, before it
removes its stamps; then the change of the version is taken back. -/
theorem killed_pruning :
    let w1 := builds [⟨[parsed "m1" [hello "1-r0"]], ran [hello "1-r0"]⟩]
    let w2 := ((eventSteps (parsed "m1" [hello "2-r0"]) w1).take 1).foldl micro w1
    let w3 := event w2 (parsed "m1" [hello "1-r0"])
    w3.done = [instOf tmp (hello "1-r0")] ∧ w3.mans = [] := by decide +kernel

/-- Against C116, if a recipe has two tasks with manifests: one task is run only in the first version, the
other also in the second.  When the second version is taken back, the manifests of both tasks are removed,
but not the stamp of the first version's task. -/
theorem old_task_lost :
    let other := fun v => { hello v with task := "deploy".toList }
    let w := builds
      [⟨[parsed "m1" [hello "1-r0"]], ran [hello "1-r0", other "1-r0"]⟩,
        ⟨[parsed "m2" [hello "2-r0"]], ran [hello "2-r0"]⟩, ⟨[parsed "m2" [hello "1-r0"]], []⟩]
    w.done = [instOf tmp (other "1-r0")] ∧ w.mans = [] := by decide +kernel

/-- Against C116, without parsing between builds of two versions: the first version, built again after the
second, has the older line; when the second is gone, the files of the first are removed, and its stamp
stays. -/
theorem stale_line :
    let e := parsed "m1" [hello "1-r0", hello "2-r0"]
    let w := builds [⟨[e], ran [hello "1-r0", hello "2-r0", hello "1-r0"]⟩, ⟨[parsed "m1" [hello "1-r0"]], []⟩]
    w.done = [instOf tmp (hello "1-r0")] ∧ w.mans = [] := by decide +kernel

/-- A stamp in `preserve-stamps` is removed all the same, because the line break belongs to what is
compared. -/
theorem preserve_ignored :
    let s := stamp (instOf tmp (hello "1-r0"))
    let e : Event := { parsed "m1" [] with preserve := [s ++ "\n".toList] }
    (event (builds [⟨[parsed "m1" [hello "1-r0"]], ran [hello "1-r0"]⟩]) e).mans = [] := by decide +kernel

end Meta.SsPrune
