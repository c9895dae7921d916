import Verif.Meta.DracutModModel

/-!
C255: the additional code of a dracut module is put in the place of its marker as it is.  C256: adding it can be interrupted and repeated.
-/

namespace Meta.DracutMod

open Py

namespace Spec

/-- how often a marker is in a file -/
def occurs (m : Str) (t : List Str) : Nat := t.countP fun l => strip l == m

/-- lines with white space before those that are not blank -/
def shifted (w : Str) (content : List Str) : List Str := content.map fun l => if l.all isWs then [] else w ++ l

end Spec

/-! ## White space -/

theorem dropWhile_ws (w s : Str) (h : ∀ c ∈ w, isWs c = true) : (w ++ s).dropWhile isWs = s.dropWhile isWs := by
  induction w with
  | nil => rfl
  | cons c w ih => simp [h c (by simp)]; exact ih fun d hd => h d (by simp [hd])

theorem strip_lead (w s : Str) (h : ∀ c ∈ w, isWs c = true) : strip (w ++ s) = strip s := by
  simp [strip, lstrip, dropWhile_ws w s h]

theorem strip_blank {l : Str} (h : blank l = true) : strip l = [] := by
  have : l.dropWhile isWs = [] := by
    have := dropWhile_ws l [] (by simpa [blank] using h)
    simpa using this
  simp [strip, lstrip, this, rstrip]

theorem lead_ws (l : Str) : ∀ c ∈ lead l, isWs c = true := by
  intro c hc
  unfold lead at hc
  induction l with
  | nil => simp at hc
  | cons d l ih =>
    rw [List.takeWhile_cons] at hc
    split at hc
    · simp only [List.mem_cons] at hc
      rcases hc with rfl | hc
      · assumption
      · exact ih hc
    · simp at hc

/-! ## Counting markers -/

theorem occurs_append (m : Str) (a b : List Str) : Spec.occurs m (a ++ b) = Spec.occurs m a + Spec.occurs m b := by
  simp [Spec.occurs, List.countP_append]

theorem occurs_blank {m : Str} (hm : m ≠ []) {t : List Str} (h : ∀ l ∈ t, blank l = true) : Spec.occurs m t = 0 := by
  unfold Spec.occurs
  rw [List.countP_eq_zero]
  intro l hl
  simp [strip_blank (h l hl), hm]

theorem mem_takeWhile {p : Str → Bool} : ∀ {l : List Str} {x : Str}, x ∈ l.takeWhile p → p x = true
  | [], _, h => by simp at h
  | y :: ys, x, h => by
    rw [List.takeWhile_cons] at h
    split at h
    · simp only [List.mem_cons] at h
      rcases h with rfl | h
      · assumption
      · exact mem_takeWhile h
    · simp at h

theorem occurs_dropWhile {m : Str} (p : Str → Bool) (hp : ∀ l, p l = true → strip l ≠ m) (t : List Str) :
    Spec.occurs m (t.dropWhile p) = Spec.occurs m t := by
  have h : Spec.occurs m (t.takeWhile p) = 0 := by
    unfold Spec.occurs
    rw [List.countP_eq_zero]
    intro l hl
    simpa using hp l (mem_takeWhile hl)
  have := occurs_append m (t.takeWhile p) (t.dropWhile p)
  rw [List.takeWhile_append_dropWhile] at this
  omega

theorem occurs_reverse (m : Str) (t : List Str) : Spec.occurs m t.reverse = Spec.occurs m t := by
  simp [Spec.occurs, List.countP_reverse]

theorem blank_ne {m : Str} (hm : m ≠ []) (l : Str) (h : blank l = true) : strip l ≠ m := by
  rw [strip_blank h]; exact Ne.symm hm

theorem occurs_trim {m : Str} (hm : m ≠ []) (c : List Str) : Spec.occurs m (trim c) = Spec.occurs m c := by
  unfold trim
  rw [occurs_reverse, occurs_dropWhile, occurs_reverse]
  intro l hl
  apply blank_ne hm
  have : l = [] := by simpa using hl
  subst this
  rfl

theorem occurs_indent {m : Str} (hm : m ≠ []) (bl : List Str) (w : Str) (c : List Str) (hb : ∀ l ∈ bl, blank l = true)
    (hw : ∀ x ∈ w, isWs x = true) : Spec.occurs m (indent bl w c) = Spec.occurs m c := by
  unfold indent
  split
  · next h => subst h; rw [occurs_blank hm (by simp [blank])]; rfl
  · next h =>
    clear h
    induction c with
    | nil => rfl
    | cons l c ih =>
      rw [List.flatMap_cons, occurs_append, ih]
      have e : Spec.occurs m (l :: c) = Spec.occurs m [l] + Spec.occurs m c := occurs_append m [l] c
      rw [e]
      congr 1
      by_cases hl : blank l = true
      · rw [if_pos hl, occurs_blank hm (by simp [blank]), occurs_blank hm (by simpa using hl)]
      · rw [if_neg hl, occurs_append, occurs_blank hm hb]
        simp [Spec.occurs, strip_lead w l hw]

theorem findMarker_some {m : Str} : ∀ {t pre post : List Str} {l : Str}, findMarker m t = some (pre, l, post) →
    t = pre ++ l :: post ∧ strip l = m ∧ ∀ x ∈ pre, strip x ≠ m
  | [], _, _, _, h => by simp [findMarker] at h
  | x :: xs, pre, post, l, h => by
    unfold findMarker at h
    split at h
    · next e =>
      simp only [Option.some.injEq, Prod.mk.injEq] at h
      obtain ⟨rfl, rfl, rfl⟩ := h
      exact ⟨rfl, e, by simp⟩
    · next e =>
      rcases f : findMarker m xs with _ | ⟨p, k, q⟩
      · simp [f] at h
      · simp only [f, Option.some.injEq, Prod.mk.injEq] at h
        obtain ⟨rfl, rfl, rfl⟩ := h
        obtain ⟨h1, h2, h3⟩ := findMarker_some f
        refine ⟨by simp [h1], h2, ?_⟩
        intro y hy
        simp only [List.mem_cons] at hy
        rcases hy with rfl | hy
        · exact e
        · exact h3 y hy

theorem findMarker_none {m : Str} : ∀ {t : List Str}, findMarker m t = none ↔ Spec.occurs m t = 0
  | [] => by simp [findMarker, Spec.occurs]
  | x :: xs => by
    have ih := findMarker_none (m := m) (t := xs)
    unfold findMarker
    by_cases e : strip x = m
    · simp [e, Spec.occurs]
    · rw [if_neg e]
      have : Spec.occurs m (x :: xs) = Spec.occurs m xs := by simp [Spec.occurs, e]
      rw [this, ← ih]
      rcases findMarker m xs with _ | ⟨p, k, q⟩ <;> simp

theorem findMarker_split {m : Str} {l : Str} (hl : strip l = m) : ∀ {pre post : List Str}, (∀ x ∈ pre, strip x ≠ m) →
    findMarker m (pre ++ l :: post) = some (pre, l, post)
  | [], post, _ => by simp [findMarker, hl]
  | x :: xs, post, h => by
    have ih := findMarker_split hl (post := post) (fun y hy => h y (List.mem_cons_of_mem x hy))
    simp [findMarker, h x (by simp), ih]

/-! ## C255 -/

/-- The task stops with an error exactly when the marker is not there. -/
theorem fatal_iff (m : Str) (c t : List Str) : replaceMarker m c t = none ↔ Spec.occurs m t = 0 := by
  rw [← findMarker_none]
  unfold replaceMarker
  rcases findMarker m t with _ | ⟨p, k, q⟩ <;> simp

/-- If no blank line is next to the first marker, the marker is replaced with the lines of the file, each of them moved to the right as the marker
is, and nothing else changes. -/
theorem replaced_partial (m l : Str) (pre post c : List Str) (hl : strip l = m) (hpre : ∀ x ∈ pre, strip x ≠ m)
    (hb : ∀ x, pre.getLast? = some x → blank x = false) (ha : ∀ x, post.head? = some x → blank x = false) (hc : trim c ≠ []) :
    replaceMarker m c (pre ++ l :: post) = some (pre ++ Spec.shifted (lead l) (trim c) ++ post) := by
  have h1 : pre.reverse.takeWhile blank = [] ∧ pre.reverse.dropWhile blank = pre.reverse := by
    rcases e : pre.reverse with _ | ⟨x, xs⟩
    · simp
    · have : pre.getLast? = some x := by
        rw [← List.head?_reverse, e]; rfl
      have := hb x this
      simp [this]
  have h2 : post.dropWhile blank = post := by
    rcases post with _ | ⟨x, xs⟩
    · rfl
    · have := ha x rfl
      simp [this]
  have h3 : indent [] (lead l) (trim c) = Spec.shifted (lead l) (trim c) := by
    unfold indent Spec.shifted
    rw [if_neg hc]
    generalize trim c = cs
    induction cs with
    | nil => rfl
    | cons y ys ih =>
      rw [List.flatMap_cons, List.map_cons, ih]
      unfold blank
      split <;> simp
  simp [replaceMarker, findMarker_split hl hpre, h1.1, h1.2, h2, h3]

/-- For all templates and files: each marker is afterwards as often there as in the template and the file together, without the one that was
replaced.  No other marker is lost or moved. -/
theorem occurs_replaced (m n : Str) (c t t' : List Str) (hn : n ≠ []) (h : replaceMarker m c t = some t') :
    Spec.occurs n t' + (if m = n then 1 else 0) = Spec.occurs n t + Spec.occurs n c := by
  unfold replaceMarker at h
  rcases f : findMarker m t with _ | ⟨pre, l, post⟩
  · simp [f] at h
  · simp only [f, Option.some.injEq] at h
    obtain ⟨h1, h2, h3⟩ := findMarker_some f
    have e1 : Spec.occurs n (pre.reverse.dropWhile blank).reverse = Spec.occurs n pre := by
      rw [occurs_reverse, occurs_dropWhile _ (blank_ne hn), occurs_reverse]
    have e2 : Spec.occurs n (post.dropWhile blank) = Spec.occurs n post := occurs_dropWhile _ (blank_ne hn) _
    have e3 : Spec.occurs n (indent (pre.reverse.takeWhile blank).reverse (lead l) (trim c)) = Spec.occurs n c := by
      rw [occurs_indent hn, occurs_trim hn]
      · intro x hx
        rw [List.mem_reverse] at hx
        exact mem_takeWhile hx
      · exact lead_ws l
    have e4 : Spec.occurs n (l :: post) = (if m = n then 1 else 0) + Spec.occurs n post := by
      have := occurs_append n [l] post
      simp only [List.singleton_append] at this
      rw [this]
      congr 1
      simp [Spec.occurs, h2]
    rw [← h, h1, occurs_append, occurs_append, occurs_append, e1, e2, e3, e4]
    omega

/-- A line that does not begin with white space, as the end of a here document, is no line of the result if the marker is indented and the template
does not have it: the here document does not end. -/
theorem terminator_lost (m e : Str) (c t t' : List Str) (h : replaceMarker m c t = some t') (he : ∀ x xs, e = x :: xs → isWs x = false)
    (hne : e ≠ []) (ht : e ∉ t) (hl : ∀ l ∈ t, strip l = m → lead l ≠ []) : e ∉ t' := by
  unfold replaceMarker at h
  rcases f : findMarker m t with _ | ⟨pre, l, post⟩
  · simp [f] at h
  · simp only [f, Option.some.injEq] at h
    obtain ⟨h1, h2, h3⟩ := findMarker_some f
    have hlead := hl l (by simp [h1]) h2
    intro hmem
    rw [← h] at hmem
    simp only [List.mem_append, List.mem_reverse] at hmem
    rcases hmem with (hm | hm) | hm
    · exact ht (by rw [h1]; exact List.mem_append.mpr (.inl (List.mem_reverse.mp ((List.dropWhile_sublist _).mem hm))))
    · unfold indent at hm
      split at hm
      · simp at hm; exact hne hm
      · rw [List.mem_flatMap] at hm
        obtain ⟨x, _, hx⟩ := hm
        split at hx
        · simp at hx; exact hne hx
        · rw [List.mem_append, List.mem_singleton, List.mem_reverse] at hx
          rcases hx with hx | hx
          · refine ht ?_
            rw [h1]
            exact List.mem_append.mpr (.inl (List.mem_reverse.mp ((List.takeWhile_sublist _).mem hx)))
          · rcases g : lead l with _ | ⟨y, ys⟩
            · exact hlead g
            · have h5 := he y (ys ++ x) (by rw [hx, g]; rfl)
              have h6 := lead_ws l y (by simp [g])
              rw [h5] at h6
              cases h6
    · exact ht (by rw [h1]; exact List.mem_append.mpr (.inr (List.mem_cons_of_mem _ ((List.dropWhile_sublist _).mem hm))))

/-- a template with a blank line before the marker -/
def gap : List Str := ["install() {".toList, [], "  # M".toList, "}".toList]

/-- With a blank line before the marker, a blank line comes before each line of the file, also after a line that ends with a backslash: a command
over two lines becomes two commands. -/
theorem continued_line_split :
    replaceMarker "# M".toList ["inst \\".toList, "  /bin/x".toList, []] gap =
      some ["install() {".toList, [], "  inst \\".toList, [], "    /bin/x".toList, "}".toList] := by
  decide +kernel

/-! ## C256 -/

theorem addOne_occurs {e : Entry} {t t' : List Str} (h : addOne e t = some t') (n : Str) (hn : n ≠ []) :
    Spec.occurs n t' + (if e.content ≠ none ∧ e.marker = n then 1 else 0) = Spec.occurs n t + Spec.occurs n (e.content.getD []) := by
  unfold addOne at h
  rcases hc : e.content with _ | c
  · simp only [hc, Option.some.injEq] at h
    simp [h, Spec.occurs]
  · simp only [hc] at h
    have := occurs_replaced _ n _ _ _ hn h
    simpa using this

/-- the markers that files are put in place of -/
def wanted (es : List Entry) : List Str := es.filterMap fun e => e.content.map fun _ => e.marker

/-- From the template as it is unpacked the task succeeds, if each marker that is wanted is there once and the files have none; after it, none of these
markers is there, and each other one is there as before. -/
theorem add_succeeds_partial (es : List Entry) (t : List Str) (hd : (wanted es).Nodup) (hne : ∀ m ∈ wanted es, m ≠ [])
    (h1 : ∀ m ∈ wanted es, Spec.occurs m t = 1) (hc : ∀ e ∈ es, ∀ c, e.content = some c → ∀ m ∈ wanted es, Spec.occurs m c = 0) :
    ∃ t', addAll es t = some t' ∧ ∀ m ∈ wanted es, Spec.occurs m t' = 0 := by
  suffices H : ∀ (ms : List Str), (∀ m ∈ ms, m ≠ []) → (∀ e ∈ es, ∀ c, e.content = some c → ∀ m ∈ ms, Spec.occurs m c = 0) →
      ∃ t', addAll es t = some t' ∧ (∀ m ∈ wanted es, Spec.occurs m t' = 0) ∧
        ∀ m ∈ ms, m ∉ wanted es → Spec.occurs m t' = Spec.occurs m t by
    obtain ⟨t', a, b, _⟩ := H [] (by simp) (by simp)
    exact ⟨t', a, b⟩
  induction es generalizing t with
  | nil => intro ms _ _; exact ⟨t, rfl, by simp [wanted], fun _ _ _ => rfl⟩
  | cons e es ih =>
    intro ms hms hcm
    rcases he : e.content with _ | c
    · have hw : wanted (e :: es) = wanted es := by simp [wanted, he]
      rw [hw] at hd hne h1 hc
      obtain ⟨t', a, b, g⟩ := ih t hd hne h1 (fun e' h => hc e' (List.mem_cons_of_mem _ h)) ms hms
        (fun e' h => hcm e' (List.mem_cons_of_mem _ h))
      refine ⟨t', ?_, by rw [hw]; exact b, by rw [hw]; exact g⟩
      simp [addAll, addOne, he, a]
    · have hw : wanted (e :: es) = e.marker :: wanted es := by simp [wanted, he]
      rw [hw] at hd hne h1 hc
      rw [List.nodup_cons] at hd
      have ho : ∃ t1, addOne e t = some t1 := by
        rcases ho : addOne e t with _ | t1
        · simp only [addOne, he] at ho
          rw [fatal_iff] at ho
          have := h1 e.marker (by simp)
          omega
        · exact ⟨t1, rfl⟩
      obtain ⟨t1, ho⟩ := ho
      have key := fun n hn => addOne_occurs ho n hn
      simp only [he, Option.getD_some] at key
      have h1' : ∀ m ∈ wanted es, Spec.occurs m t1 = 1 := by
        intro m hm
        have k := key m (hne m (by simp [hm]))
        have hx : e.marker ≠ m := by intro x; subst x; exact hd.1 hm
        have := h1 m (by simp [hm])
        have := hc e (by simp) c he m (by simp [hm])
        simp [hx] at k
        omega
      obtain ⟨t', a, b, g⟩ := ih t1 hd.2 (fun m hm => hne m (by simp [hm])) h1'
        (fun e' h c' hc' m hm => hc e' (List.mem_cons_of_mem _ h) c' hc' m (by simp [hm])) (e.marker :: ms)
        (by
          intro m hm
          simp only [List.mem_cons] at hm
          rcases hm with rfl | hm
          · exact hne _ (by simp)
          · exact hms m hm)
        (by
          intro e' h c' hc' m hm
          simp only [List.mem_cons] at hm
          rcases hm with rfl | hm
          · exact hc e' (List.mem_cons_of_mem _ h) c' hc' _ (by simp)
          · exact hcm e' (List.mem_cons_of_mem _ h) c' hc' m hm)
      have hz : Spec.occurs e.marker t1 = 0 := by
        have k := key e.marker (hne _ (by simp))
        have := h1 e.marker (by simp)
        have := hc e (by simp) c he e.marker (by simp)
        simp at k
        omega
      refine ⟨t', by simp [addAll, ho, a], ?_, ?_⟩
      · rw [hw]
        intro m hm
        simp only [List.mem_cons] at hm
        rcases hm with rfl | hm
        · rw [g _ (by simp) hd.1]; exact hz
        · exact b m hm
      · rw [hw]
        intro m hm hnot
        simp only [List.mem_cons, not_or] at hnot
        rw [g m (by simp [hm]) hnot.2]
        have k := key m (hms m hm)
        have := hcm e (by simp) c he m hm
        simp [Ne.symm hnot.1] at k
        omega

theorem addAll_fatal (es : List Entry) (t : List Str) (m : Str) (hm : m ∈ wanted es) (hne : ∀ m ∈ wanted es, m ≠ [])
    (hd : (wanted es).Nodup) (h0 : Spec.occurs m t = 0) (hc : ∀ e ∈ es, ∀ c, e.content = some c → Spec.occurs m c = 0) :
    addAll es t = none := by
  induction es generalizing t with
  | nil => simp [wanted] at hm
  | cons e es ih =>
    unfold addAll
    rcases ho : addOne e t with _ | t1
    · rfl
    · dsimp only
      have k := addOne_occurs ho m (hne m hm)
      rcases he : e.content with _ | c
      · have hw : wanted (e :: es) = wanted es := by simp [wanted, he]
        rw [hw] at hm hne hd
        simp [he, Spec.occurs] at k
        refine ih t1 hm hne hd ?_ (fun e' h => hc e' (List.mem_cons_of_mem _ h))
        unfold Spec.occurs at h0 ⊢
        omega
      · have hw : wanted (e :: es) = e.marker :: wanted es := by simp [wanted, he]
        rw [hw] at hm hne hd
        have h2 := hc e (by simp) c he
        simp only [he, Option.getD_some, h2, h0] at k
        by_cases hx : e.marker = m
        · simp [hx] at k
        · simp only [List.mem_cons] at hm
          rcases hm with rfl | hm
          · exact absurd rfl hx
          · refine ih t1 hm (fun m h => hne m (by simp [h])) (List.nodup_cons.mp hd).2 ?_ (fun e' h => hc e' (List.mem_cons_of_mem _ h))
            simp [hx] at k
            exact k

/-- It cannot be repeated: whenever at least one file was put in place, whether the task ended or was interrupted after it, the task fails when it is run
again on the same work directory. -/
theorem again_fails (es₁ es₂ : List Entry) (t t₁ : List Str) (h : addAll es₁ t = some t₁) (hw : wanted es₁ ≠ [])
    (hne : ∀ m ∈ wanted (es₁ ++ es₂), m ≠ []) (hd : (wanted (es₁ ++ es₂)).Nodup)
    (h1 : ∀ m ∈ wanted (es₁ ++ es₂), Spec.occurs m t = 1)
    (hc : ∀ e ∈ es₁ ++ es₂, ∀ c, e.content = some c → ∀ m ∈ wanted (es₁ ++ es₂), Spec.occurs m c = 0) :
    addAll (es₁ ++ es₂) t₁ = none := by
  have e : wanted (es₁ ++ es₂) = wanted es₁ ++ wanted es₂ := by simp [wanted]
  obtain ⟨t', a, b⟩ := add_succeeds_partial es₁ t (by rw [e] at hd; exact (List.nodup_append.mp hd).1)
    (fun m hm => hne m (by simp [e, hm])) (fun m hm => h1 m (by simp [e, hm]))
    (fun x hx c hxc m hm => hc x (by simp [hx]) c hxc m (by simp [e, hm]))
  rw [h] at a
  simp only [Option.some.injEq] at a
  subst a
  rcases g : wanted es₁ with _ | ⟨m, ms⟩
  · exact absurd g hw
  · have hm : m ∈ wanted es₁ := by simp [g]
    exact addAll_fatal _ _ m (by simp [e, hm]) hne hd (b m hm) (fun x hx c hxc => hc x hx c hxc m (by simp [e, hm]))

/-- A file with a line that looks like the marker of a later entry: the later file is put there and not in its own function. -/
theorem marker_in_content :
    replaceMarker "# B".toList ["b".toList] (((replaceMarker "# A".toList ["# B".toList] ["f".toList, "# A".toList, "g".toList, "# B".toList]).getD [])) =
      some ["f".toList, "b".toList, "g".toList, "# B".toList] := by
  decide +kernel

/-! ## Examples -/

/-- the hypotheses of `add_succeeds_partial` and `again_fails` for the template that is shipped -/
def es : List Entry := [⟨"# ISAR_DRACUT_CMDLINE".toList, some ["a".toList, "b".toList, []]⟩, ⟨"# ISAR_DRACUT_KERNELINSTALL".toList, some ["k".toList, []]⟩]

example : wanted es = ["# ISAR_DRACUT_CMDLINE".toList, "# ISAR_DRACUT_KERNELINSTALL".toList] ∧ (wanted es).Nodup ∧
    (∀ m ∈ wanted es, m ≠ []) ∧ (∀ m ∈ wanted es, Spec.occurs m shipped = 1) := by decide +kernel

example : addAll es shipped = some ["installkernel() {".toList, "    k".toList, "    return 0".toList, "}".toList, [],
    "cmdline() {".toList, "    a".toList, "    b".toList, "    return 0".toList, "}".toList, []] := by decide +kernel

example : markers.Nodup ∧ ∀ m ∈ markers, m ≠ [] := by decide +kernel

/-- a here document -/
example : replaceMarker "# ISAR_DRACUT_CMDLINE".toList ["cat <<EOF".toList, "x".toList, "EOF".toList, []] shipped =
    some ["installkernel() {".toList, "    # ISAR_DRACUT_KERNELINSTALL".toList, "    return 0".toList, "}".toList, [],
      "cmdline() {".toList, "    cat <<EOF".toList, "    x".toList, "    EOF".toList, "    return 0".toList, "}".toList, []] := by decide +kernel

example : moduleName "dracut-example".toList = "example".toList ∧ moduleName "example".toList = "example".toList := by decide +kernel

end Meta.DracutMod
