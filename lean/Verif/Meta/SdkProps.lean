import Verif.Meta.SdkModel
/-!
# The SDK in another place: C218, C219
-/

namespace Meta.Sdk

open Py

/-! ## Specification -/

/-- The components of a target of a link. -/
def comps (t : Str) : List Str := (splitOn '/' t).filter fun c => decide (c ≠ [] ∧ c ≠ dot)

/-- How the system finds what a path leads to: beginning in the directory `at`, with components still to go, it ends at a place.
The parent of the root is the root. -/
inductive Res (fs : Fs) : List Str → List Str → List Str → Prop where
  | done (d : List Str) : Res fs d [] d
  | up {d cs q : List Str} : Res fs d.dropLast cs q → Res fs d (dotdot :: cs) q
  | dir {d cs q : List Str} {s : Str} : s ≠ dotdot → fs (d ++ [s]) = some .dir → Res fs (d ++ [s]) cs q → Res fs d (s :: cs) q
  | file {d : List Str} {s : Str} : s ≠ dotdot → fs (d ++ [s]) = some .file → Res fs d [s] (d ++ [s])
  | link {d cs q : List Str} {s t : Str} : s ≠ dotdot → fs (d ++ [s]) = some (.link t) →
      Res fs (if isabs t then [] else d) (comps t ++ cs) q → Res fs d (s :: cs) q

/-- A file system: what is in a directory is in a directory, and has a proper name. -/
structure Wf (fs : Fs) : Prop where
  parent : ∀ p s x, fs (p ++ [s]) = some x → p = [] ∨ fs p = some .dir
  names : ∀ p s x, fs (p ++ [s]) = some x → Clean s

/-- Absolute links do not go up; relative links go up at their beginning only, and not above the root. -/
def Plain (fs : Fs) : Prop := ∀ p s t, fs (p ++ [s]) = some (.link t) →
  if isabs t then dotdot ∉ comps t
  else ∃ k ns, comps t = List.replicate k dotdot ++ ns ∧ dotdot ∉ ns ∧ k ≤ p.length

/-! ## Lemmas: texts -/

theorem comps_clean {t c : Str} (h : c ∈ comps t) (hd : c ≠ dotdot) : Clean c := by
  unfold comps at h
  obtain ⟨h1, h2⟩ := List.mem_filter.1 h
  have := of_decide_eq_true h2
  exact ⟨this.1, this.2, hd, splitOn_pieces h1⟩

theorem foldl_norm : ∀ (ws acc : List Str), (∀ w ∈ ws, '/' ∉ w) → dotdot ∉ ws →
    ws.foldl (normStep true) acc = acc ++ ws.filter fun c => decide (c ≠ [] ∧ c ≠ dot)
  | [], acc, _, _ => by rw [List.filter_nil, List.append_nil]; rfl
  | w :: ws, acc, h, hd => by
    have h' : ∀ x ∈ ws, '/' ∉ x := fun x hx => h x (List.mem_cons_of_mem _ hx)
    have hd' : dotdot ∉ ws := fun hm => hd (List.mem_cons_of_mem _ hm)
    rw [List.foldl_cons]
    by_cases e1 : w = []
    · rw [e1, normStep_skip, foldl_norm ws acc h' hd', List.filter_cons_of_neg (by decide)]
    · by_cases e2 : w = dot
      · rw [e2, normStep_dot, foldl_norm ws acc h' hd', List.filter_cons_of_neg (by decide)]
      · have hc : Clean w := ⟨e1, e2, fun e => hd (e ▸ List.mem_cons_self), h w List.mem_cons_self⟩
        rw [normStep_clean hc, foldl_norm ws _ h' hd', List.filter_cons_of_pos (by exact decide_eq_true ⟨e1, e2⟩), List.append_assoc]
        rfl

theorem splitOn_dd {t : Str} (h : dotdot ∉ comps t) : dotdot ∉ splitOn '/' t := by
  intro hm
  exact h (List.mem_filter.2 ⟨hm, by decide⟩)

theorem normComps_target {r : List Str} {t : Str} (hr : ∀ c ∈ r, Clean c) (ht : isabs t = true) (hd : dotdot ∉ comps t) :
    normComps (render r ++ t) = r ++ comps t := by
  obtain ⟨t', rfl⟩ := isabs_iff.1 ht
  have ha : isabs (render r) = true := rfl
  rw [normComps_append ha, normComps_render hr]
  have hs : splitOn '/' ('/' :: t') = [] :: splitOn '/' t' := splitOn_cons_sep _ _
  have hd' := splitOn_dd hd
  unfold comps
  rw [hs] at hd' ⊢
  rw [List.filter_cons_of_neg (by decide)]
  exact foldl_norm _ _ (fun w hw => splitOn_pieces hw) fun hm => hd' (List.mem_cons_of_mem _ hm)

theorem commonLen_left (r a b : List Str) : commonLen (r ++ a) (r ++ b) = r.length + commonLen a b := by
  induction r with
  | nil => rw [List.nil_append, List.nil_append, List.length_nil, Nat.zero_add]
  | cons x r ih =>
    rw [List.cons_append, List.cons_append]
    conv => lhs; unfold commonLen
    rw [if_pos rfl, ih, List.length_cons]
    omega

theorem comps_join {r : List Str} (h : ∀ c ∈ r, c ≠ [] ∧ c ≠ dot ∧ '/' ∉ c) :
    comps (if r = [] then dot else join ['/'] r) = r := by
  by_cases e : r = []
  · rw [if_pos e, e]
    decide
  · rw [if_neg e]
    unfold comps
    rw [splitOn_join '/' r e fun w hw => (h w hw).2.2, List.filter_eq_self]
    intro c hc
    exact decide_eq_true ⟨(h c hc).1, (h c hc).2.1⟩

theorem join_rel {r : List Str} (h : ∀ c ∈ r, c ≠ [] ∧ c ≠ dot ∧ '/' ∉ c) :
    isabs (if r = [] then dot else join ['/'] r) = false := by
  cases r with
  | nil => rfl
  | cons c r =>
    rw [if_neg (List.cons_ne_nil _ _)]
    have hc := h c List.mem_cons_self
    rw [Bool.eq_false_iff]
    intro ha
    obtain ⟨t, ht⟩ := isabs_iff.1 ha
    cases c with
    | nil => exact hc.1 rfl
    | cons x c =>
      have : x = '/' := by
        cases r with
        | nil => exact (List.cons.inj ht).1
        | cons d r => exact (List.cons.inj ht).1
      exact hc.2.2 (this ▸ List.mem_cons_self)

/-- The new target of an absolute link: up from the directory of the link to what is common, and down again. -/
theorem newTarget_abs {r p : List Str} {s t : Str} (hr : ∀ c ∈ r, Clean c) (hp : ∀ c ∈ p, Clean c) (hs : Clean s)
    (ht : isabs t = true) (hd : dotdot ∉ comps t) : ∃ c p' t', p = c ++ p' ∧ comps t = c ++ t' ∧
      comps (newTarget (render r) (render (r ++ (p ++ [s]))) t) = List.replicate p'.length dotdot ++ t' ∧
      isabs (newTarget (render r) (render (r ++ (p ++ [s]))) t) = false := by
  have hrp : ∀ c ∈ r ++ p, Clean c := fun c hc => (List.mem_append.1 hc).elim (hr c) (hp c)
  have e : newTarget (render r) (render (r ++ (p ++ [s]))) t =
      (let rr := List.replicate (p.length - commonLen p (comps t)) dotdot ++ (comps t).drop (commonLen p (comps t))
       if rr = [] then dot else join ['/'] rr) := by
    unfold newTarget relativeTo
    rw [if_pos ht, normComps_target hr ht hd, ← List.append_assoc, dirname_render (fun c hc => (hrp c hc).name) hs.2.2.2,
      normComps_render hrp]
    dsimp only
    rw [commonLen_left, List.length_append, Nat.add_sub_add_left, List.drop_append]
    rw [List.drop_of_length_le (by omega), List.nil_append, Nat.add_sub_cancel_left]
  obtain ⟨c, p', t', h1, h2, h3⟩ := commonLen_spec p (comps t)
  have hl : p.length - commonLen p (comps t) = p'.length := by
    rw [h3, h1, List.length_append]
    omega
  have hdr : (comps t).drop (commonLen p (comps t)) = t' := by
    rw [h3, h2, List.drop_left]
  rw [hl, hdr] at e
  have hall : ∀ x ∈ List.replicate p'.length dotdot ++ t', x ≠ [] ∧ x ≠ dot ∧ '/' ∉ x := by
    intro x hx
    rcases List.mem_append.1 hx with hx | hx
    · rw [(List.mem_replicate.1 hx).2]
      decide
    · have hm : x ∈ comps t := h2 ▸ List.mem_append_right _ hx
      have := comps_clean hm fun ee => hd (ee ▸ hm)
      exact ⟨this.1, this.2.1, this.2.2.2⟩
  refine ⟨c, p', t', h1, h2, ?_, ?_⟩
  · rw [e]
    exact comps_join hall
  · rw [e]
    exact join_rel hall

/-! ## Lemmas: places -/

theorem res_dir {fs : Fs} {d l q : List Str} {s : Str} (hs : s ≠ dotdot) (hd : fs (d ++ [s]) = some .dir) :
    Res fs d (s :: l) q ↔ Res fs (d ++ [s]) l q := by
  constructor
  · intro hr
    cases hr with
    | up _ => exact absurd rfl hs
    | dir _ _ hr => exact hr
    | file _ hf => rw [hd] at hf; cases hf
    | link _ hf _ => rw [hd] at hf; cases hf
  · exact fun hr => .dir hs hd hr

theorem res_up {fs : Fs} {d l q : List Str} : Res fs d (dotdot :: l) q ↔ Res fs d.dropLast l q := by
  constructor
  · intro hr
    cases hr with
    | up hr => exact hr
    | dir h _ _ => exact absurd rfl h
    | file h _ => exact absurd rfl h
    | link h _ _ => exact absurd rfl h
  · exact .up

theorem res_dirs {fs : Fs} {cs q : List Str} : ∀ (c d : List Str), (∀ x ∈ c, x ≠ dotdot) →
    (∀ a b, c = a ++ b → a ≠ [] → fs (d ++ a) = some .dir) → (Res fs d (c ++ cs) q ↔ Res fs (d ++ c) cs q)
  | [], d, _, _ => by rw [List.append_nil]; rfl
  | x :: c, d, hx, h => by
    have hd := h [x] c rfl (List.cons_ne_nil _ _)
    have ih := res_dirs (fs := fs) (cs := cs) (q := q) c (d ++ [x]) (fun y hy => hx y (List.mem_cons_of_mem _ hy)) (fun a b e hne => by
      rw [List.append_assoc]
      exact h (x :: a) b (by rw [e]; rfl) (List.cons_ne_nil _ _))
    rw [List.append_assoc] at ih
    rw [show d ++ x :: c = d ++ ([x] ++ c) from rfl, ← ih]
    exact res_dir (hx x List.mem_cons_self) hd

theorem res_ups {fs : Fs} {cs q : List Str} : ∀ (n : Nat) (d y : List Str), y.length = n →
    (Res fs (d ++ y) (List.replicate n dotdot ++ cs) q ↔ Res fs d cs q)
  | 0, d, y, h => by
    rw [List.eq_nil_of_length_eq_zero h, List.append_nil]
    rfl
  | n + 1, d, y, h => by
    have hne : y ≠ [] := by
      rintro rfl
      cases h
    have ih := res_ups (fs := fs) (cs := cs) (q := q) n d y.dropLast (by rw [List.length_dropLast, h]; rfl)
    rw [← ih, List.replicate_succ, List.cons_append]
    rw [res_up, List.dropLast_append_of_ne_nil hne]

theorem wf_dirs {fs : Fs} (hw : Wf fs) : ∀ (n : Nat) (a b : List Str), b.length = n → (a ++ b = [] ∨ fs (a ++ b) = some .dir) → a ≠ [] →
    fs a = some .dir
  | 0, a, b, hl, h, hne => by
    rw [List.eq_nil_of_length_eq_zero hl, List.append_nil] at h
    exact h.resolve_left hne
  | n + 1, a, b, hl, h, hne => by
    have hb : b ≠ [] := by
      rintro rfl
      cases hl
    have h' := h.resolve_left (by simp [hne])
    obtain ⟨s, hs⟩ : ∃ s, b = b.dropLast ++ [s] := ⟨_, (List.dropLast_concat_getLast hb).symm⟩
    rw [hs, ← List.append_assoc] at h'
    exact wf_dirs hw n a b.dropLast (by rw [List.length_dropLast, hl]; rfl) (hw.parent _ _ _ h') hne

theorem wf_clean {fs : Fs} (hw : Wf fs) {p : List Str} (h : p = [] ∨ fs p = some .dir) : ∀ c ∈ p, Clean c := by
  intro c hc
  obtain ⟨a, b, rfl⟩ := List.append_of_mem hc
  have : fs (a ++ [c]) = some .dir := wf_dirs hw b.length (a ++ [c]) b rfl (by
    rw [List.append_assoc]
    exact h) (by simp)
  exact hw.names _ _ _ this

/-- Components to go that do not go above the root. -/
def Form (d cs : List Str) : Prop := ∃ k ns, cs = List.replicate k dotdot ++ ns ∧ dotdot ∉ ns ∧ k ≤ d.length

theorem form_cons {d cs : List Str} {s : Str} (hs : s ≠ dotdot) (h : Form d (s :: cs)) : dotdot ∉ cs := by
  obtain ⟨k, ns, e, h2, _⟩ := h
  cases k with
  | zero =>
    rw [List.replicate_zero, List.nil_append] at e
    intro hm
    exact h2 (e ▸ List.mem_cons_of_mem _ hm)
  | succ k =>
    rw [List.replicate_succ, List.cons_append] at e
    exact absurd (List.cons.inj e).1 hs

theorem form_names {d cs : List Str} (h : dotdot ∉ cs) : Form d cs := ⟨0, cs, rfl, h, Nat.zero_le _⟩

theorem form_up {d cs : List Str} (h : Form d (dotdot :: cs)) : d ≠ [] ∧ Form d.dropLast cs := by
  obtain ⟨k, ns, e, h2, h3⟩ := h
  cases k with
  | zero =>
    rw [List.replicate_zero, List.nil_append] at e
    exact absurd (e ▸ List.mem_cons_self) h2
  | succ k =>
    rw [List.replicate_succ, List.cons_append] at e
    refine ⟨(fun hd => by rw [hd] at h3; exact absurd h3 (by simp)), k, ns, (List.cons.inj e).2, h2, ?_⟩
    rw [List.length_dropLast]
    omega

theorem form_app {d cs t ns : List Str} {k : Nat} (e : t = List.replicate k dotdot ++ ns) (h1 : dotdot ∉ ns) (h2 : k ≤ d.length)
    (h3 : dotdot ∉ cs) : Form d (t ++ cs) :=
  ⟨k, ns ++ cs, by rw [e, List.append_assoc], fun h => (List.mem_append.1 h).elim h1 h3, h2⟩

theorem not_mem_app {a b : List Str} (h1 : dotdot ∉ a) (h2 : dotdot ∉ b) : dotdot ∉ a ++ b :=
  fun h => (List.mem_append.1 h).elim h1 h2

section
variable {fs host : Fs} {r place : List Str}

/-- The host has the SDK at a place. -/
def Placed (fs host : Fs) (r place : List Str) : Prop := ∀ p, p ≠ [] → host (place ++ p) = finalize r fs p

theorem placed_keep (h : Placed fs host r place) {p : List Str} {x : Node} (hp : p ≠ []) (hx : fs p = some x)
    (hl : ∀ t, x ≠ .link t) : host (place ++ p) = some x := by
  rw [h p hp]
  unfold finalize
  rw [hx]
  cases x with
  | link t => exact absurd rfl (hl t)
  | dir => rfl
  | file => rfl

theorem placed_link (h : Placed fs host r place) {p : List Str} {t : Str} (hp : p ≠ []) (hx : fs p = some (.link t)) :
    host (place ++ p) = some (.link (newTarget (render r) (render (r ++ p)) t)) := by
  rw [h p hp]
  unfold finalize
  rw [hx]

theorem placed_inv (h : Placed fs host r place) {p : List Str} {x : Node} (hp : p ≠ []) (hx : host (place ++ p) = some x) :
    (fs p = some x ∧ ∀ t, x ≠ .link t) ∨ ∃ t, fs p = some (.link t) ∧ x = .link (newTarget (render r) (render (r ++ p)) t) := by
  rw [h p hp] at hx
  unfold finalize at hx
  cases e : fs p with
  | none => rw [e] at hx; cases hx
  | some y =>
    rw [e] at hx
    cases y with
    | link t => exact Or.inr ⟨t, rfl, (Option.some.inj hx).symm⟩
    | dir =>
      cases Option.some.inj hx
      exact Or.inl ⟨rfl, fun t e => nomatch e⟩
    | file =>
      cases Option.some.inj hx
      exact Or.inl ⟨rfl, fun t e => nomatch e⟩

theorem newTarget_rel {a b t : Str} (h : isabs t = false) : newTarget a b t = t := by
  unfold newTarget
  rw [h, if_neg (by decide)]

theorem to_host (hw : Wf fs) (hp : Plain fs) (hr : ∀ c ∈ r, Clean c) (h : Placed fs host r place) {d cs q : List Str}
    (hres : Res fs d cs q) : Form d cs → Res host (place ++ d) cs (place ++ q) := by
  induction hres with
  | done d => intro _; exact .done _
  | @up d cs q _ ih =>
    intro hf
    obtain ⟨hne, hf⟩ := form_up hf
    refine .up ?_
    rw [List.dropLast_append_of_ne_nil hne]
    exact ih hf
  | @dir d cs q s hs hd _ ih =>
    intro hf
    refine .dir hs (by rw [List.append_assoc]; exact placed_keep h (by simp) hd fun t e => nomatch e) ?_
    rw [List.append_assoc]
    exact ih (form_names (form_cons hs hf))
  | @file d s hs hd =>
    intro _
    rw [← List.append_assoc]
    exact .file hs (by rw [List.append_assoc]; exact placed_keep h (by simp) hd fun t e => nomatch e)
  | @link d cs q s t hs hd _ ih =>
    intro hf
    have hcs := form_cons hs hf
    have hl := placed_link h (by simp) hd
    rw [← List.append_assoc] at hl
    have hpl := hp _ _ _ hd
    cases ht : isabs t with
    | false =>
      rw [ht] at ih
      rw [ht, if_neg (by decide)] at hpl
      obtain ⟨k, ns, e, h1, h2⟩ := hpl
      rw [newTarget_rel ht] at hl
      refine .link hs hl ?_
      rw [ht]
      exact ih (form_app e h1 h2 hcs)
    | true =>
      rw [ht] at ih
      rw [ht, if_pos rfl] at hpl
      have hpar := hw.parent _ _ _ hd
      obtain ⟨c, d', t', e1, e2, e3, e4⟩ := newTarget_abs hr (wf_clean hw hpar) (hw.names _ _ _ hd) ht hpl
      refine .link hs hl ?_
      rw [e4, if_neg (by decide), e3, List.append_assoc, e1, ← List.append_assoc place, res_ups _ _ _ rfl]
      have := ih (form_names (not_mem_app hpl hcs))
      rw [if_pos rfl, List.append_nil, e2, List.append_assoc, res_dirs] at this
      · exact this
      · intro x hx e
        exact hpl (by rw [e2, ← e]; exact List.mem_append_left _ hx)
      · intro a b e hne
        refine placed_keep h hne ?_ fun t e => nomatch e
        exact wf_dirs hw _ a (b ++ d') rfl (by rw [← List.append_assoc, ← e, ← e1]; exact hpar) hne

theorem from_host (hw : Wf fs) (hp : Plain fs) (hr : ∀ c ∈ r, Clean c) (h : Placed fs host r place) {d' cs x : List Str}
    (hres : Res host d' cs x) : ∀ d, d' = place ++ d → Form d cs → ∃ q, x = place ++ q ∧ Res fs d cs q := by
  induction hres with
  | done d' => intro d e _; exact ⟨d, e, .done _⟩
  | @up d' cs q _ ih =>
    intro d e hf
    obtain ⟨hne, hf⟩ := form_up hf
    obtain ⟨q, h1, h2⟩ := ih d.dropLast (by rw [e, List.dropLast_append_of_ne_nil hne]) hf
    exact ⟨q, h1, .up h2⟩
  | @dir d' cs q s hs hd _ ih =>
    intro d e hf
    rw [e, List.append_assoc] at hd
    obtain ⟨q, h1, h2⟩ := ih (d ++ [s]) (by rw [e, List.append_assoc]) (form_names (form_cons hs hf))
    rcases placed_inv h (by simp) hd with ⟨h3, _⟩ | ⟨t, _, h3⟩
    · exact ⟨q, h1, .dir hs h3 h2⟩
    · cases h3
  | @file d' s hs hd =>
    intro d e hf
    rw [e, List.append_assoc] at hd
    rcases placed_inv h (by simp) hd with ⟨h3, _⟩ | ⟨t, _, h3⟩
    · exact ⟨d ++ [s], by rw [e, List.append_assoc], .file hs h3⟩
    · cases h3
  | @link d' cs q s t0 hs hd _ ih =>
    intro d e hf
    have hcs := form_cons hs hf
    rw [e, List.append_assoc] at hd
    rcases placed_inv h (by simp) hd with ⟨_, h3⟩ | ⟨t, hd', h3⟩
    · exact absurd rfl (h3 t0)
    · cases Node.link.inj h3
      clear hd
      have hd := hd'
      have hpl := hp _ _ _ hd
      cases ht : isabs t with
      | false =>
        rw [newTarget_rel ht, ht, if_neg (by decide)] at ih
        rw [ht, if_neg (by decide)] at hpl
        obtain ⟨k, ns, e', h1, h2⟩ := hpl
        obtain ⟨q, h4, h5⟩ := ih d e (form_app e' h1 h2 hcs)
        exact ⟨q, h4, .link hs hd (by rw [ht]; exact h5)⟩
      | true =>
        rw [ht, if_pos rfl] at hpl
        have hpar := hw.parent _ _ _ hd
        obtain ⟨c, p', t', e1, e2, e3, e4⟩ := newTarget_abs hr (wf_clean hw hpar) (hw.names _ _ _ hd) ht hpl
        rw [e4, if_neg (by decide), e3] at ih
        have ht' : dotdot ∉ t' := fun hm => hpl (by rw [e2]; exact List.mem_append_right _ hm)
        obtain ⟨q, h4, h5⟩ := ih d e (form_app rfl ht' (by rw [e1, List.length_append]; omega) hcs)
        refine ⟨q, h4, .link hs hd ?_⟩
        rw [ht, if_pos rfl, e2, List.append_assoc, res_dirs, List.nil_append]
        · rw [List.append_assoc] at h5
          rw [e1] at h5
          exact (res_ups _ _ _ rfl).1 h5
        · intro x hx e
          exact hpl (by rw [e2, ← e]; exact List.mem_append_left _ hx)
        · intro a b e hne
          exact wf_dirs hw _ a (b ++ p') rfl (by rw [← List.append_assoc, ← e, ← e1]; exact hpar) hne

end

/-! ## C218 -/

/-- **C218.**  Wherever the SDK is put on a host, a path below it leads to the same file that it leads to in a chroot of the SDK
before its links were changed, and to nothing else.  That is if absolute links do not go up and relative links go up at their
beginning only and not above the root; see `through_link` and `above_root`. -/
theorem links_lead_partial (fs host : Fs) (r place : List Str) (hw : Wf fs) (hp : Plain fs) (hr : ∀ c ∈ r, Clean c)
    (h : Placed fs host r place) (cs : List Str) (hcs : dotdot ∉ cs) (x : List Str) :
    Res host place cs x ↔ ∃ q, x = place ++ q ∧ Res fs [] cs q := by
  constructor
  · intro hx
    exact from_host hw hp hr h hx [] (List.append_nil _).symm (form_names hcs)
  · rintro ⟨q, rfl, hq⟩
    have := to_host hw hp hr h hq (form_names hcs)
    rw [List.append_nil] at this
    exact this

/-! ### Cases -/

/-- A file system from a list. -/
def ofList (l : List (List Str × Node)) : Fs := fun p => l.lookup p

theorem ofList_mem {l : List (List Str × Node)} {p : List Str} {x : Node} (h : ofList l p = some x) : (p, x) ∈ l := by
  unfold ofList at h
  induction l with
  | nil => cases h
  | cons e l ih =>
    obtain ⟨a, b⟩ := e
    rw [List.lookup_cons] at h
    cases e : p == a with
    | true =>
      rw [e] at h
      cases h
      rw [eq_of_beq e]
      exact List.mem_cons_self
    | false =>
      rw [e] at h
      exact List.mem_cons_of_mem _ (ih h)

/-- Where the SDK is on the host, and other files of the host. -/
def put (place : List Str) (sdk other : Fs) : Fs := fun p => if p.take place.length = place then sdk (p.drop place.length) else other p

theorem put_placed (fs other : Fs) (r place : List Str) : Placed fs (put place (finalize r fs) other) r place := by
  intro p _
  unfold put
  rw [List.take_left, if_pos rfl, List.drop_left]

def usr : Str := "usr".toList
def bin : Str := "bin".toList
def etc : Str := "etc".toList

/-- Alternatives: links with absolute targets to links with absolute targets. -/
def sample : List (List Str × Node) :=
  [([usr], .dir), ([usr, bin], .dir), ([usr, bin, "vi".toList], .link "/etc/alternatives/vi".toList), ([etc], .dir),
   ([etc, "alternatives".toList], .dir), ([etc, "alternatives".toList, "vi".toList], .link "/usr/bin/vim".toList),
   ([usr, bin, "vim".toList], .file), ([bin], .link "usr/bin".toList), ([usr, bin, "sh".toList], .link "../bin/dash".toList)]

theorem sample_wf : Wf (ofList sample) where
  parent := by
    intro p s x h
    have hm := ofList_mem h
    have : ∀ e ∈ sample, e.1.dropLast = [] ∨ ofList sample e.1.dropLast = some .dir := by decide +kernel
    have := this _ hm
    rw [List.dropLast_concat] at this
    exact this
  names := by
    intro p s x h
    have hm := ofList_mem h
    have : ∀ e ∈ sample, ∀ c ∈ e.1, Clean c := by decide +kernel
    exact this _ hm s (by simp)

def plainNode (p : List Str) : Node → Bool
  | .link t => decide (if isabs t then dotdot ∉ comps t
      else comps t = [usr, bin] ∨ (comps t = [dotdot, bin, "dash".toList] ∧ 1 ≤ p.length - 1))
  | _ => true

theorem sample_plain : Plain (ofList sample) := by
  intro p s t h
  have hm := ofList_mem h
  have : ∀ e ∈ sample, ∀ t, e.2 = .link t → if isabs t then dotdot ∉ comps t
      else comps t = [usr, bin] ∨ (comps t = [dotdot, bin, "dash".toList] ∧ 1 ≤ e.1.length - 1) := by
    intro e he
    have key : ∀ e ∈ sample, plainNode e.1 e.2 = true := by decide +kernel
    intro t ht
    have := key e he
    rw [ht] at this
    exact of_decide_eq_true this
  have := this _ hm t rfl
  split
  · rename_i ha
    rw [if_pos ha] at this
    exact this
  · rename_i ha
    rw [if_neg ha] at this
    rcases this with h | ⟨h1, h2⟩
    · exact ⟨0, _, h, by decide, Nat.zero_le _⟩
    · refine ⟨1, [bin, "dash".toList], h1, by decide, ?_⟩
      rw [List.length_append, List.length_singleton, Nat.add_sub_cancel] at h2
      exact h2

/-- With the SDK at `/opt/sdk`, `bin/vi` leads to `/opt/sdk/usr/bin/vim`. -/
example : Res (put ["opt".toList, "sdk".toList] (finalize ["b".toList, "rootfs".toList] (ofList sample)) (fun _ => none))
    ["opt".toList, "sdk".toList] [bin, "vi".toList] ["opt".toList, "sdk".toList, usr, bin, "vim".toList] := by
  refine (links_lead_partial (ofList sample) _ ["b".toList, "rootfs".toList] _ sample_wf sample_plain (by decide)
    (put_placed _ _ _ _) _ (by decide) _).2 ⟨[usr, bin, "vim".toList], rfl, ?_⟩
  refine .link (t := "usr/bin".toList) (by decide) (by decide +kernel) ?_
  refine .dir (s := usr) (cs := [bin, "vi".toList]) (by decide) (by decide +kernel) ?_
  refine .dir (by decide) (by decide +kernel) ?_
  refine .link (t := "/etc/alternatives/vi".toList) (by decide) (by decide +kernel) ?_
  refine .dir (d := []) (s := etc) (cs := ["alternatives".toList, "vi".toList]) (by decide) (by decide +kernel) ?_
  refine .dir (by decide) (by decide +kernel) ?_
  refine .link (t := "/usr/bin/vim".toList) (by decide) (by decide +kernel) ?_
  refine .dir (d := []) (s := usr) (cs := [bin, "vim".toList]) (by decide) (by decide +kernel) ?_
  refine .dir (by decide) (by decide +kernel) ?_
  exact .file (d := [usr, bin]) (by decide) (by decide +kernel)

example : newTarget "/b/rootfs".toList "/b/rootfs/usr/bin/vi".toList "/etc/alternatives/vi".toList =
    "../../etc/alternatives/vi".toList ∧
    newTarget "/b/rootfs".toList "/b/rootfs/usr/x".toList "/usr".toList = ".".toList := by decide +kernel

def lib : Str := "lib".toList

/-- An absolute link that goes up from a link. -/
def merged : List (List Str × Node) :=
  [([usr], .dir), ([usr, lib], .dir), ([usr, "x".toList], .file), ([lib], .link "usr/lib".toList),
   (["a".toList], .link "/lib/../x".toList)]

/-- **C218.**  An absolute link that goes up from a link: in the chroot it leads to a file, in the SDK to nothing. -/
theorem through_link : Res (ofList merged) [] ["a".toList] [usr, "x".toList] ∧
    ∀ q, ¬Res (put [etc] (finalize ["r".toList] (ofList merged)) (fun _ => none)) [etc] ["a".toList] q := by
  refine ⟨?_, ?_⟩
  · refine .link (t := "/lib/../x".toList) (by decide) (by decide +kernel) ?_
    refine .link (d := []) (s := lib) (cs := [dotdot, "x".toList]) (t := "usr/lib".toList) (by decide) (by decide +kernel) ?_
    refine .dir (d := []) (s := usr) (cs := [lib, dotdot, "x".toList]) (by decide) (by decide +kernel) ?_
    refine .dir (by decide) (by decide +kernel) ?_
    refine .up ?_
    exact .file (d := [usr]) (by decide) (by decide +kernel)
  · intro q h
    have e : put [etc] (finalize ["r".toList] (ofList merged)) (fun _ => none) ([etc] ++ ["a".toList]) = some (.link "x".toList) := by
      decide +kernel
    have e2 : put [etc] (finalize ["r".toList] (ofList merged)) (fun _ => none) ([etc] ++ ["x".toList]) = none := by
      decide +kernel
    cases h with
    | dir _ hd _ => rw [e] at hd; cases hd
    | file _ hd => rw [e] at hd; cases hd
    | link _ hd hr =>
      rw [e] at hd
      cases hd
      have hr : Res (put [etc] (finalize ["r".toList] (ofList merged)) (fun _ => none)) [etc] ["x".toList] q := hr
      cases hr with
      | dir _ hd _ => rw [e2] at hd; cases hd
      | file _ hd => rw [e2] at hd; cases hd
      | link _ hd _ => rw [e2] at hd; cases hd

/-- **C218.**  A relative link that goes up from the root: in the chroot it leads to a file of the SDK, on the host to another one
of the host. -/
theorem above_root :
    let fs := ofList [(["a".toList], .link "../etc/y".toList), ([etc], .dir), ([etc, "y".toList], .file)]
    let host := put ["sdk".toList] (finalize ["r".toList] fs) (ofList [([etc], .dir), ([etc, "y".toList], .file)])
    Res fs [] ["a".toList] [etc, "y".toList] ∧ Res host ["sdk".toList] ["a".toList] [etc, "y".toList] := by
  refine ⟨?_, ?_⟩
  · refine .link (t := "../etc/y".toList) (by decide) (by decide +kernel) ?_
    refine .up (cs := [etc, "y".toList]) ?_
    refine .dir (d := []) (by decide) (by decide +kernel) ?_
    exact .file (d := [etc]) (by decide) (by decide +kernel)
  · refine .link (t := "../etc/y".toList) (by decide) (by decide +kernel) ?_
    refine .up (cs := [etc, "y".toList]) ?_
    refine .dir (d := []) (by decide) (by decide +kernel) ?_
    exact .file (d := [etc]) (by decide) (by decide +kernel)

/-! ## C219 -/

/-- Characters that are not those of patterns. -/
def NoPat (s : Str) : Prop := ∀ c ∈ s, c ∉ ['*', '?', '\\', '[']

theorem toksGo_lits : ∀ (n : Nat) (s : Str), s.length ≤ n → NoPat s → toksGo n s = s.map .lit
  | 0, s, h, _ => by
    rw [List.eq_nil_of_length_eq_zero (Nat.le_zero.1 h)]
    rfl
  | n + 1, [], _, _ => rfl
  | n + 1, c :: s, h, hp => by
    have hc := hp c List.mem_cons_self
    simp only [List.mem_cons, List.not_mem_nil, or_false, not_or] at hc
    conv => lhs; unfold toksGo
    rw [if_neg hc.1, if_neg hc.2.1, if_neg hc.2.2.1, if_neg (fun h => hc.2.2.2 h.1),
      toksGo_lits n s (Nat.le_of_succ_le_succ h) fun x hx => hp x (List.mem_cons_of_mem _ hx)]
    rfl

theorem toks_lits {s : Str} (h : NoPat s) : toks s = s.map .lit := toksGo_lits _ _ (Nat.le_refl _) h

theorem matches_lits : ∀ (w : Str) (p : List Tok) (s : Str), matches' (w.map .lit ++ p) s = true ↔ ∃ t, s = w ++ t ∧ matches' p t = true
  | [], p, s => ⟨fun h => ⟨s, rfl, h⟩, fun ⟨t, e, h⟩ => e ▸ h⟩
  | c :: w, p, [] => ⟨(fun h => nomatch h), (fun ⟨_, e, _⟩ => nomatch e)⟩
  | c :: w, p, x :: s => by
    show (x == c && matches' (w.map .lit ++ p) s) = true ↔ _
    rw [Bool.and_eq_true, matches_lits w p s, beq_iff_eq]
    constructor
    · rintro ⟨rfl, t, rfl, h⟩
      exact ⟨t, rfl, h⟩
    · rintro ⟨t, e, h⟩
      obtain ⟨e1, e2⟩ := List.cons.inj e
      exact ⟨e1, t, e2, h⟩

theorem mem_tails : ∀ (s t : Str), t ∈ tails s ↔ ∃ a, s = a ++ t
  | [], t => by
    show t ∈ [[]] ↔ _
    rw [List.mem_singleton]
    constructor
    · rintro rfl; exact ⟨[], rfl⟩
    · rintro ⟨a, h⟩; exact (List.append_eq_nil_iff.1 h.symm).2
  | c :: s, t => by
    show t ∈ (c :: s) :: tails s ↔ _
    rw [List.mem_cons, mem_tails s t]
    constructor
    · rintro (rfl | ⟨a, rfl⟩)
      · exact ⟨[], rfl⟩
      · exact ⟨c :: a, rfl⟩
    · rintro ⟨a, h⟩
      cases a with
      | nil => exact Or.inl h.symm
      | cons x a => exact Or.inr ⟨a, (List.cons.inj h).2⟩

theorem matches_any (p : List Tok) (s : Str) : matches' (.any :: p) s = true ↔ ∃ a t, s = a ++ t ∧ matches' p t = true := by
  show (tails s).any (matches' p) = true ↔ _
  rw [List.any_eq_true]
  constructor
  · rintro ⟨t, h1, h2⟩
    obtain ⟨a, h⟩ := (mem_tails s t).1 h1
    exact ⟨a, t, h, h2⟩
  · rintro ⟨a, t, h1, h2⟩
    exact ⟨t, (mem_tails s t).2 ⟨a, h1⟩, h2⟩

theorem matches_nil (s : Str) : matches' [] s = true ↔ s = [] := List.isEmpty_iff

/-- What the pattern of the script matches. -/
theorem matches_interp (s : Str) : matches' (toks "/lib*/ld-linux*".toList) s = true ↔
    ∃ a b, s = "/lib".toList ++ a ++ "/ld-linux".toList ++ b := by
  have e : toks "/lib*/ld-linux*".toList =
    "/lib".toList.map .lit ++ (.any :: ("/ld-linux".toList.map .lit ++ [.any])) := by decide +kernel
  rw [e, matches_lits]
  constructor
  · rintro ⟨t, rfl, h⟩
    obtain ⟨a, t', rfl, h2⟩ := (matches_any _ _).1 h
    obtain ⟨t'', rfl, _⟩ := (matches_lits "/ld-linux".toList [.any] t').1 h2
    exact ⟨a, t'', by rw [List.append_assoc, List.append_assoc]⟩
  · rintro ⟨a, b, rfl⟩
    refine ⟨a ++ ("/ld-linux".toList ++ b), by rw [List.append_assoc, List.append_assoc], ?_⟩
    refine (matches_any _ _).2 ⟨a, _, rfl, ?_⟩
    refine (matches_lits _ _ _).2 ⟨b, rfl, ?_⟩
    exact (matches_any _ _).2 ⟨b, [], (List.append_nil _).symm, rfl⟩

/-- The interpreter of a program as a distribution has it: `/lib64/ld-linux-x86-64.so.2`, `/lib/ld-linux-aarch64.so.1`. -/
def IsInterp (i : Str) : Prop := ∃ a b, i = "/lib".toList ++ a ++ "/ld-linux".toList ++ b ∧ '/' ∉ a ∧ '/' ∉ b

theorem find_first {n k : Nat} {p : Nat → Bool} (hk : k < n) (hp : p k = true) (hj : ∀ j, j < k → p j = false) :
    (List.range n).find? p = some k := by
  rw [List.find?_range_eq_some]
  exact ⟨hp, List.mem_range.2 hk, fun j h => by rw [hj j h]; rfl⟩

theorem cut_interp (root i : Str) (h : IsInterp i) : cutSuffix "/lib*/ld-linux*".toList (root ++ i) = root := by
  obtain ⟨a, b, rfl, ha, hb⟩ := h
  generalize hi : "/lib".toList ++ a ++ "/ld-linux".toList ++ b = i
  have hf : (List.range ((root ++ i).length + 1)).find? (fun n => matches' (toks "/lib*/ld-linux*".toList)
      ((root ++ i).drop ((root ++ i).length - n))) = some i.length := by
    refine find_first (by rw [List.length_append]; omega) ?_ ?_
    · rw [List.length_append, Nat.add_sub_cancel, List.drop_left]
      exact (matches_interp i).2 ⟨a, b, hi.symm⟩
    · intro j hj
      rw [Bool.eq_false_iff]
      intro hm
      obtain ⟨a', b', e⟩ := (matches_interp _).1 hm
      have hd : (root ++ i).drop ((root ++ i).length - j) = i.drop (i.length - j) := by
        rw [List.drop_append, List.drop_of_length_le (by rw [List.length_append]; omega), List.nil_append]
        congr 1
        rw [List.length_append]
        omega
      rw [hd] at e
      have hc : i.count '/' = 2 := by
        rw [← hi, List.count_append, List.count_append, List.count_append, List.count_eq_zero.2 ha, List.count_eq_zero.2 hb]
        decide
      have hs : i = '/' :: i.drop 1 := by
        rw [← hi]
        rfl
      have hc1 : (i.drop 1).count '/' = 1 := by
        rw [hs, List.count_cons_self] at hc
        omega
      have hsub : (i.drop (i.length - j)).count '/' ≤ (i.drop 1).count '/' := by
        have : i.length - j = 1 + (i.length - j - 1) := by omega
        rw [this, ← List.drop_drop]
        exact (List.drop_sublist _ _).count_le _
      rw [e, hc1, List.count_append, List.count_append, List.count_append] at hsub
      have h1 : "/lib".toList.count '/' = 1 := by decide
      have h2 : "/ld-linux".toList.count '/' = 1 := by decide
      omega
  unfold cutSuffix
  rw [hf]
  dsimp only
  rw [List.length_append, Nat.add_sub_cancel, List.take_left]

theorem cut_root (root i : Str) (h : NoPat root) : cutPrefix root (root ++ i) = i := by
  have hm : ∀ s, matches' (toks root) s = true ↔ s = root := by
    intro s
    rw [toks_lits h, ← List.append_nil (root.map Tok.lit), matches_lits]
    constructor
    · rintro ⟨t, rfl, ht⟩
      rw [(matches_nil t).1 ht, List.append_nil]
    · rintro rfl
      exact ⟨[], (List.append_nil _).symm, rfl⟩
  have hf : (List.range ((root ++ i).length + 1)).find? (fun n => matches' (toks root) ((root ++ i).take n)) = some root.length := by
    refine find_first (by rw [List.length_append]; omega) ?_ ?_
    · exact (hm _).2 List.take_left
    · intro j hj
      rw [Bool.eq_false_iff]
      intro h
      have := congrArg List.length ((hm _).1 h)
      rw [List.length_take, List.length_append] at this
      omega
  unfold cutPrefix
  rw [hf]
  exact List.drop_left

/-- **C219.**  Wherever the SDK was before, after the script the interpreter of a program is that of the new place.  That is if the
old place has no characters of patterns; see `pattern_place`. -/
theorem relocated_partial (old new i : Str) (hi : IsInterp i) (ho : NoPat old) : relocate new (old ++ i) = new ++ i := by
  unfold relocate
  dsimp only
  rw [cut_interp old i hi, cut_root old i ho, if_pos]
  rintro rfl
  obtain ⟨a, b, h, _⟩ := hi
  exact nomatch h

/-- **C219.**  The script can be run again and again: only the last place counts. -/
theorem relocated_again_partial (a b i : Str) (hi : IsInterp i) (ha : NoPat a) : relocate b (relocate a i) = relocate b i := by
  have h1 := relocated_partial [] a i hi (fun c hc => nomatch hc)
  have h2 := relocated_partial [] b i hi (fun c hc => nomatch hc)
  rw [List.nil_append] at h1 h2
  rw [h1, h2]
  exact relocated_partial a b i hi ha

example : IsInterp "/lib64/ld-linux-x86-64.so.2".toList ∧ NoPat "/opt/lib/ld-linux/sdk".toList :=
  ⟨⟨"64".toList, "-x86-64.so.2".toList, by decide, by decide, by decide⟩, by unfold NoPat; decide⟩

/-- **C219.**  With `--restore-chroot`, the interpreter has two slashes at its beginning; the script finds it nevertheless. -/
example : relocate "/".toList "/opt/sdk/lib64/ld-linux-x86-64.so.2".toList = "//lib64/ld-linux-x86-64.so.2".toList ∧
    relocate "/home/sdk".toList "//lib64/ld-linux-x86-64.so.2".toList = "/home/sdk/lib64/ld-linux-x86-64.so.2".toList := by
  decide +kernel

/-- **C219.**  From a place with brackets, the SDK cannot be moved: the old place stays in the interpreter. -/
theorem pattern_place : relocate "/new".toList (relocate "/s[1]".toList "/lib/ld-linux.so.2".toList) =
    "/new/s[1]/lib/ld-linux.so.2".toList := by decide +kernel

/-- **C219.**  Programs with other interpreters are left as they are. -/
theorem other_interpreter (root i : Str) (hp : NoPat i) (h : ∀ x a b, i ≠ x ++ ("/lib".toList ++ a ++ "/ld-linux".toList ++ b)) :
    relocate root i = i := by
  have hs : cutSuffix "/lib*/ld-linux*".toList i = i := by
    unfold cutSuffix
    cases hf : (List.range (i.length + 1)).find? (fun n => matches' (toks "/lib*/ld-linux*".toList) (i.drop (i.length - n))) with
    | none => rfl
    | some n =>
      have hm := List.find?_some (p := fun n => matches' (toks "/lib*/ld-linux*".toList) (i.drop (i.length - n))) hf
      obtain ⟨a, b, e⟩ := (matches_interp _).1 hm
      exact absurd (by rw [← e, List.take_append_drop]) (h (i.take (i.length - n)) a b)
  unfold relocate
  dsimp only
  rw [hs]
  have := cut_root i [] hp
  rw [List.append_nil] at this
  rw [this, if_neg (fun h => h rfl)]

example : relocate "/opt/sdk".toList "/lib64/ld64.so.2".toList = "/lib64/ld64.so.2".toList := by decide +kernel

end Meta.Sdk
