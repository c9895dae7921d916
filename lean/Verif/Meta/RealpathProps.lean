import Verif.Meta.PathsProps
/-!
# Properties of `oe.path.realpath`
-/

namespace Isar.Paths
open Py

deriving instance DecidableEq for Except

/-- The path is resolved, with any number of links. -/
abbrev Leads (fs : Files) (rc cur todo r : List Str) : Prop := ∃ k, Resolves fs rc k cur todo r

/-- The text of the root directory as `realpath` uses it, with a slash at the end. -/
def rootText (rc : List Str) : Str := dirText rc ++ ['/']

/-- The invariant of the loop: the text `start` denotes the place `cs` below the root directory. -/
structure At (fs : Files) (rc : List Str) (start : Str) (cs : List Str) : Prop where
  text : (start = rootText rc ∧ cs = []) ∨ start = render (rc ++ cs)
  names : ∀ c ∈ cs, Name c ∧ c ≠ dotdot
  nolink : NoLinks fs rc cs
  nodot : PlainLinks fs → ∀ c ∈ cs, c ≠ dot

theorem At.nil {fs : Files} {rc : List Str} {start : Str} (h : start = rootText rc ∨ start = render rc) :
    At fs rc start [] where
  text := h.elim (fun h => Or.inl ⟨h, rfl⟩) (fun h => Or.inr (by rw [List.append_nil]; exact h))
  names := fun c hc => by cases hc
  nolink := fun k h1 h2 => by simp at h2; omega
  nodot := fun _ c hc => by cases hc

theorem render_split {rc cs : List Str} (h : cs ≠ []) :
    render (rc ++ cs) = dirText rc ++ '/' :: join ['/'] cs := by
  unfold dirText
  by_cases hr : rc = []
  · subst hr; rfl
  · rw [if_neg hr, render_append hr h]

theorem join_ne_nil {cs : List Str} (h : cs ≠ []) (hn : ∀ c ∈ cs, Name c) : join ['/'] cs ≠ [] := by
  obtain ⟨c, cs, rfl⟩ := List.exists_cons_of_ne_nil h
  cases cs with
  | nil => exact (hn c List.mem_cons_self).1
  | cons d ds =>
    intro e
    have h4 : c ++ ['/'] ++ join ['/'] (d :: ds) = [] := e
    simp at h4

theorem rootText_length (rc : List Str) : (rootText rc).length = (dirText rc).length + 1 := by
  unfold rootText; rw [List.length_append]; rfl

theorem At.below {fs : Files} {rc cs : List Str} {start : Str} (h : At fs rc start cs) :
    below start (rootText rc) = true := by
  unfold Paths.below
  rw [startsWith_iff]
  rcases h.text with ⟨rfl, _⟩ | rfl
  · exact ⟨['/'], rfl⟩
  · by_cases hc : cs = []
    · subst hc
      rw [List.append_nil]
      unfold rootText dirText
      split
      · rename_i h0; subst h0; exact ⟨['/'], rfl⟩
      · exact ⟨[], by simp⟩
    · rw [render_split hc]
      exact ⟨join ['/'] cs ++ ['/'], by simp [rootText]⟩

/-- A place that has been reached is not followed further. -/
theorem At.fixed {fs : Files} {rc cs : List Str} {start : Str} (hs : SlashNoLink fs)
    (h : At fs rc start cs) : ¬ ((fs.link start).isSome ∧ (rootText rc).length ≤ start.length) := by
  rintro ⟨h1, h2⟩
  have hlast : start.getLast? ≠ some '/' := by
    intro e; rw [hs _ e] at h1; cases h1
  rcases h.text with ⟨rfl, _⟩ | rfl
  · exact hlast (by simp [rootText])
  · by_cases hc : cs = []
    · subst hc
      rw [List.append_nil] at h2 hlast
      unfold rootText dirText at h2
      split at h2
      · rename_i h0; subst h0; exact hlast rfl
      · rw [List.length_append, List.length_singleton] at h2; omega
    · have := h.nolink cs.length (List.length_pos_iff.mpr hc) (Nat.le_refl _)
      rw [List.take_length] at this
      rw [this] at h1; cases h1

theorem dirname_rootText {rc : List Str} (hrc : ∀ c ∈ rc, Clean c) : dirname (rootText rc) = render rc := by
  have := dirname_render (ds := rc) (b := []) (fun c hc => (hrc c hc).name) (by simp)
  rw [render_snoc] at this
  exact this

/-- The step for `..`. -/
theorem At.up {fs : Files} {rc cs : List Str} {start : Str} (hrc : ∀ c ∈ rc, Clean c)
    (h : At fs rc start cs) :
    At fs rc (if (rootText rc).length ≤ start.length then dirname start else start) cs.dropLast := by
  by_cases hc : cs = []
  · subst hc
    apply At.nil
    rcases h.text with ⟨rfl, _⟩ | rfl
    · rw [if_pos (Nat.le_refl _), dirname_rootText hrc]; exact Or.inr rfl
    · rw [List.append_nil]
      split
      · rename_i h2
        unfold rootText dirText at h2
        split at h2
        · rename_i h0; subst h0; exact Or.inr rfl
        · rw [List.length_append, List.length_singleton] at h2; omega
      · exact Or.inr rfl
  · have ht : start = render (rc ++ cs) := by
      rcases h.text with ⟨_, h0⟩ | h0
      · exact absurd h0 hc
      · exact h0
    have hl : (rootText rc).length ≤ start.length := by
      rw [ht, render_split hc, rootText_length, List.length_append, List.length_cons]; omega
    rw [if_pos hl, ht]
    obtain ⟨xs, y, rfl⟩ := (List.eq_nil_or_concat cs).resolve_left hc
    rw [List.concat_eq_append] at *
    rw [List.dropLast_concat, ← List.append_assoc, dirname_render ?_ (h.names y (by simp)).1.2]
    · refine ⟨Or.inr rfl, fun c hc => h.names c (List.mem_append_left _ hc), ?_,
        fun hp c hc => h.nodot hp c (List.mem_append_left _ hc)⟩
      intro k h1 h2
      have := h.nolink k h1 (by rw [List.length_append]; omega)
      rwa [List.take_append_of_le_length h2] at this
    · intro c hc
      rcases List.mem_append.mp hc with hc' | hc'
      · exact (hrc c hc').name
      · exact (h.names c (List.mem_append_left _ hc')).1

/-- The text for the next component. -/
theorem At.join {fs : Files} {rc cs : List Str} {start d : Str} (hrc : ∀ c ∈ rc, Clean c)
    (h : At fs rc start cs) (hd : Name d) :
    pathJoin start d = render (rc ++ (cs ++ [d])) := by
  have hnot : isabs d = false := by
    cases hi : isabs d with
    | false => rfl
    | true =>
      obtain ⟨t, rfl⟩ := isabs_iff.mp hi
      exact absurd List.mem_cons_self hd.2
  unfold pathJoin
  rw [hnot, if_neg (by decide)]
  rcases h.text with ⟨rfl, rfl⟩ | rfl
  · rw [if_pos (Or.inr (by simp [rootText])), List.nil_append, render_snoc]
    simp [rootText]
  · rw [← List.append_assoc, render_snoc]
    by_cases hne : rc ++ cs = []
    · rw [hne]; rfl
    · unfold dirText
      rw [if_neg hne, if_neg]
      rintro (h1 | h1)
      · cases h1
      · obtain ⟨xs, y, hxy⟩ := (List.eq_nil_or_concat (rc ++ cs)).resolve_left hne
        rw [List.concat_eq_append] at hxy
        have hy : Name y := by
          have : y ∈ rc ++ cs := by rw [hxy]; simp
          rcases List.mem_append.mp this with hc' | hc'
          · exact (hrc y hc').name
          · exact (h.names y hc').1
        rw [hxy] at h1
        exact render_getLast hy h1

theorem At.dir {fs : Files} {rc cs : List Str} {start : Str} (h : At fs rc start cs) :
    At fs rc (render (rc ++ cs)) cs := ⟨Or.inr rfl, h.names, h.nolink, h.nodot⟩

theorem normComps_nodot (s : Str) : ∀ x ∈ normComps s, x ≠ dot := by
  have key : ∀ (cs acc : List Str), (∀ x ∈ acc, x ≠ dot) →
      ∀ x ∈ cs.foldl (normStep (isabs s)) acc, x ≠ dot := by
    intro cs
    induction cs with
    | nil => exact fun acc h => h
    | cons c cs ih =>
      intro acc h
      rw [List.foldl_cons]
      refine ih _ ?_
      unfold normStep
      split
      · exact h
      · rename_i h0
        split
        · intro x hx
          rcases List.mem_append.mp hx with hx' | hx'
          · exact h x hx'
          · rw [List.mem_singleton.mp hx']; exact fun e => h0 (Or.inr e)
        · exact fun x hx => h x (List.dropLast_subset _ hx)
  exact key _ _ (fun x hx => by cases hx)

/-- The components of a normalised text: empty ones only at the beginning of an absolute path. -/
theorem splitOn_normpath (t : Str) : ∃ k ns, splitOn '/' (normpath t) = List.replicate k [] ++ ns ∧
    (k = 0 ∨ isabs (normpath t) = true) ∧ (∀ n ∈ ns, Name n) ∧
    (normpath t ≠ dot → ∀ n ∈ ns, n ≠ dot) := by
  have hn := normComps_names t
  have hdd := normComps_nodot t
  unfold normpath
  dsimp only
  generalize normComps t = cs at hn hdd
  generalize initSlashes t = i
  by_cases hcs : cs = []
  · subst hcs
    cases i with
    | zero =>
      refine ⟨0, [dot], rfl, Or.inl rfl, ?_, fun h => absurd rfl h⟩
      intro n h
      rw [List.mem_singleton.mp h]
      exact ⟨by decide, by decide⟩
    | succ i =>
      refine ⟨i + 2, [], ?_, Or.inr ?_, by simp, by simp⟩
      · have : List.replicate (i + 1) '/' ++ join ['/'] ([] : List Str) ≠ [] := by
          rw [List.replicate_succ]; simp
        rw [if_neg this]
        show splitOn '/' (List.replicate (i + 1) '/' ++ []) = _
        rw [List.append_nil, List.append_nil, show i + 2 = (i + 1) + 1 from rfl]
        generalize i + 1 = j
        induction j with
        | zero => rfl
        | succ j ih => rw [List.replicate_succ, splitOn_cons_sep, ih]; rfl
      · rw [if_neg (by rw [List.replicate_succ]; simp)]
        rw [List.replicate_succ]; rfl
  · have hne : List.replicate i '/' ++ join ['/'] cs ≠ [] := by
      intro e
      rw [List.append_eq_nil_iff] at e
      exact join_ne_nil hcs hn e.2
    rw [if_neg hne]
    refine ⟨i, cs, ?_, ?_, hn, fun _ => hdd⟩
    · clear hne
      induction i with
      | zero => exact splitOn_join '/' cs hcs (fun c hc => (hn c hc).2)
      | succ j ih => rw [List.replicate_succ, List.cons_append, splitOn_cons_sep, ih]; rfl
    · cases i with
      | zero => exact Or.inl rfl
      | succ j => exact Or.inr (by rw [List.replicate_succ]; rfl)

/-- What is shown about a call of `__realpath` for a component. -/
def StepOk (fs : Files) (rc : List Str) (f : Str → Except Err (Str × Bool)) : Prop :=
  (∃ b, f (rootText rc) = .ok (rootText rc, b)) ∧
  ∀ cs start d, At fs rc start cs → Name d → d ≠ dotdot → (PlainLinks fs → d ≠ dot) →
    f (render (rc ++ (cs ++ [d]))) ≠ .error .assertion ∧
    ∀ r b, f (render (rc ++ (cs ++ [d]))) = .ok (r, b) → ∃ cs', At fs rc r cs' ∧
      (PlainLinks fs → ∀ todo z, Leads fs rc cs' todo z → Leads fs rc cs (d :: todo) z)

theorem relGo_names {fs : Files} {rc : List Str} {f : Str → Except Err (Str × Bool)} {assume : Bool}
    (hrc : ∀ c ∈ rc, Clean c) (hf : StepOk fs rc f) : ∀ (ds : List Str), (∀ d ∈ ds, Name d) →
    (PlainLinks fs → ∀ d ∈ ds, d ≠ dot) → ∀ start cs hd, At fs rc start cs →
    relGo f (rootText rc) assume ds start hd ≠ .error .assertion ∧
    ∀ r, relGo f (rootText rc) assume ds start hd = .ok r → ∃ cs', At fs rc r cs' ∧
      (PlainLinks fs → ∀ todo z, Leads fs rc cs' todo z → Leads fs rc cs (ds ++ todo) z)
  | [], _, _, start, cs, hd, h => by
    unfold relGo
    exact ⟨fun e => (by cases e), fun r hr => ⟨cs, by cases hr; exact h, fun _ _ _ hz => hz⟩⟩
  | d :: ds, hds, hdot, start, cs, hd, h => by
    have ih := fun start cs hd h => relGo_names (assume := assume) hrc hf ds
      (fun x hx => hds x (List.mem_cons_of_mem _ hx))
      (fun hp x hx => hdot hp x (List.mem_cons_of_mem _ hx)) start cs hd h
    have hdn := hds d List.mem_cons_self
    unfold relGo
    split
    · exact ⟨fun e => (by cases e), fun r hr => (by cases hr)⟩
    · split
      · rename_i hdd
        subst hdd
        have hup := h.up hrc
        dsimp only
        rw [hup.below, if_pos rfl]
        obtain ⟨i1, i2⟩ := ih _ _ hd hup
        refine ⟨i1, fun r hr => ?_⟩
        obtain ⟨cs', h1, h2⟩ := i2 r hr
        exact ⟨cs', h1, fun hp todo z hz => (h2 hp todo z hz).imp fun _ h => .up h⟩
      · rename_i hdd
        rw [h.join hrc hdn]
        obtain ⟨s1, s2⟩ := hf.2 cs start d h hdn hdd (fun hp => hdot hp d List.mem_cons_self)
        cases hfr : f (render (rc ++ (cs ++ [d]))) with
        | error e =>
          rw [hfr] at s1
          exact ⟨fun e' => s1 (by cases e'; rfl), fun r hr => (by cases hr)⟩
        | ok rb =>
          obtain ⟨r1, b1⟩ := rb
          obtain ⟨cs1, h1, h2⟩ := s2 r1 b1 hfr
          dsimp only
          rw [h1.below, if_pos rfl]
          obtain ⟨i1, i2⟩ := ih _ _ b1 h1
          refine ⟨i1, fun r hr => ?_⟩
          obtain ⟨cs', h3, h4⟩ := i2 r hr
          exact ⟨cs', h3, fun hp todo z hz => h2 hp _ _ (h4 hp todo z hz)⟩

theorem relGo_root {fs : Files} {rc : List Str} {f : Str → Except Err (Str × Bool)} {assume : Bool}
    (hrc : ∀ c ∈ rc, Clean c) (hf : StepOk fs rc f) (ds : List Str) (hds : ∀ d ∈ ds, Name d)
    (hdot : PlainLinks fs → ∀ d ∈ ds, d ≠ dot) : ∀ k hd,
    relGo f (rootText rc) assume (List.replicate k [] ++ ds) (rootText rc) hd ≠ .error .assertion ∧
    ∀ r, relGo f (rootText rc) assume (List.replicate k [] ++ ds) (rootText rc) hd = .ok r →
      ∃ cs', At fs rc r cs' ∧
      (PlainLinks fs → ∀ todo z, Leads fs rc cs' todo z →
        Leads fs rc [] (List.replicate k [] ++ ds ++ todo) z)
  | 0, hd => by
    rw [List.replicate_zero, List.nil_append]
    exact relGo_names hrc hf ds hds hdot _ [] hd (At.nil (Or.inl rfl))
  | k + 1, hd => by
    rw [List.replicate_succ, List.cons_append]
    unfold relGo
    split
    · exact ⟨fun e => (by cases e), fun r hr => (by cases hr)⟩
    · rw [if_neg (by decide)]
      have hj : pathJoin (rootText rc) [] = rootText rc := by
        unfold pathJoin
        rw [if_neg (by decide), if_pos (Or.inr (by simp [rootText])), List.append_nil]
      obtain ⟨b, hb⟩ := hf.1
      rw [hj, hb]
      dsimp only
      rw [(At.nil (fs := fs) (rc := rc) (Or.inl rfl)).below, if_pos rfl]
      obtain ⟨i1, i2⟩ := relGo_root (assume := assume) hrc hf ds hds hdot k b
      refine ⟨i1, fun r hr => ?_⟩
      obtain ⟨cs', h1, h2⟩ := i2 r hr
      exact ⟨cs', h1, fun hp todo z hz => (h2 hp todo z hz).imp fun _ h => .skip (Or.inl rfl) h⟩

/-- A component that is not a link. -/
theorem step_file {fs : Files} {rc cs : List Str} {start d : Str} (h : At fs rc start cs)
    (hd : Name d) (hdd : d ≠ dotdot) (hdot : PlainLinks fs → d ≠ dot)
    (hl : fs.link (render (rc ++ (cs ++ [d]))) = none) :
    At fs rc (render (rc ++ (cs ++ [d]))) (cs ++ [d]) ∧
    (PlainLinks fs → ∀ todo z, Leads fs rc (cs ++ [d]) todo z → Leads fs rc cs (d :: todo) z) := by
  refine ⟨⟨Or.inr rfl, ?_, ?_, ?_⟩, ?_⟩
  · intro c hc
    rcases List.mem_append.mp hc with hc' | hc'
    · exact h.names c hc'
    · rw [List.mem_singleton.mp hc']; exact ⟨hd, hdd⟩
  · intro k h1 h2
    rw [List.length_append, List.length_singleton] at h2
    by_cases hk : k ≤ cs.length
    · rw [List.take_append_of_le_length hk]; exact h.nolink k h1 hk
    · rw [List.take_of_length_le (by rw [List.length_append, List.length_singleton]; omega)]
      exact hl
  · intro hp c hc
    rcases List.mem_append.mp hc with hc' | hc'
    · exact h.nodot hp c hc'
    · rw [List.mem_singleton.mp hc']; exact hdot hp
  · intro hp todo z hz
    exact hz.imp fun _ h => .file ⟨hd.1, hdot hp, hdd, hd.2⟩ hl h

theorem rp_ok {fs : Files} {rc : List Str} {assume : Bool} (hrc : ∀ c ∈ rc, Clean c)
    (hs : SlashNoLink fs) : ∀ n, StepOk fs rc (rp fs (rootText rc) assume n)
  | 0 => by
    constructor
    · refine ⟨fs.dir (rootText rc), ?_⟩
      unfold rp
      rw [if_neg ((At.nil (Or.inl rfl)).fixed hs)]
    · intro cs start d h hd hdd hdot
      unfold rp
      by_cases hlk : (fs.link (render (rc ++ (cs ++ [d])))).isSome ∧
          (rootText rc).length ≤ (render (rc ++ (cs ++ [d]))).length
      · rw [if_pos hlk]
        exact ⟨fun e => (by cases e), fun r b hr => (by cases hr)⟩
      · rw [if_neg hlk]
        have hl : fs.link (render (rc ++ (cs ++ [d]))) = none := by
          cases hl : fs.link (render (rc ++ (cs ++ [d]))) with
          | none => rfl
          | some t =>
            refine absurd ⟨by rw [hl]; rfl, ?_⟩ hlk
            rw [render_split (by simp), rootText_length, List.length_append, List.length_cons]
            omega
        refine ⟨fun e => (by cases e), fun r b hr => ?_⟩
        cases hr
        exact ⟨_, step_file h hd hdd hdot hl⟩
  | n + 1 => by
    have ih := rp_ok (assume := assume) hrc hs n
    constructor
    · refine ⟨fs.dir (rootText rc), ?_⟩
      unfold rp
      rw [if_neg ((At.nil (Or.inl rfl)).fixed hs)]
    · intro cs start d h hd hdd hdot
      have hlen : (rootText rc).length ≤ (render (rc ++ (cs ++ [d]))).length := by
        rw [render_split (by simp), rootText_length, List.length_append, List.length_cons]
        omega
      unfold rp
      cases hl : fs.link (render (rc ++ (cs ++ [d]))) with
      | none =>
        rw [if_neg (by rintro ⟨h1, _⟩; cases h1)]
        refine ⟨fun e => (by cases e), fun r b hr => ?_⟩
        cases hr
        exact ⟨_, step_file h hd hdd hdot hl⟩
      | some t =>
        rw [if_pos ⟨rfl, hlen⟩]
        dsimp only [Option.getD_some]
        have hdn : dirname (render (rc ++ (cs ++ [d]))) = render (rc ++ cs) := by
          rw [← List.append_assoc, dirname_render _ hd.2]
          intro c hc
          rcases List.mem_append.mp hc with hc' | hc'
          · exact (hrc c hc').name
          · exact (h.names c hc').1
        rw [hdn, h.dir.below, if_neg (by rintro ⟨_, h1⟩; cases h1)]
        -- the components of the text
        have hrel : ∀ (x : Except Err Str), x = relGo (rp fs (rootText rc) assume n) (rootText rc) assume
            (splitOn '/' (normpath t)) (if isabs (normpath t) = true then rootText rc else
              render (rc ++ cs)) true →
            x ≠ .error .assertion ∧ ∀ r, x = .ok r → ∃ cs', At fs rc r cs' ∧
            (PlainLinks fs → ∀ todo z, Leads fs rc cs' todo z → Leads fs rc cs (d :: todo) z) := by
          intro x hx
          obtain ⟨k, ns, hsp, hk, hns, hndot⟩ := splitOn_normpath t
          have hnd : PlainLinks fs → ∀ m ∈ ns, m ≠ dot := by
            intro hp
            obtain ⟨hp1, hp2⟩ := hp _ _ hl
            exact hndot (by rw [hp1]; exact hp2)
          have hsem : ∀ cs', (PlainLinks fs → ∀ todo z, Leads fs rc cs' todo z →
              Leads fs rc (if isabs (normpath t) = true then [] else cs)
                (splitOn '/' (normpath t) ++ todo) z) →
              PlainLinks fs → ∀ todo z, Leads fs rc cs' todo z → Leads fs rc cs (d :: todo) z := by
            intro cs' hh hp todo z hz
            have h1 := hh hp todo z hz
            rw [(hp _ _ hl).1] at h1
            obtain ⟨k1, h1⟩ := h1
            exact ⟨k1 + 1, .link ⟨hd.1, hdot hp, hdd, hd.2⟩ hl h1⟩
          cases hab : isabs (normpath t) with
          | true =>
            rw [hab, if_pos rfl, hsp] at hx
            obtain ⟨i1, i2⟩ := relGo_root (assume := assume) hrc ih ns hns hnd k true
            refine ⟨by rw [hx]; exact i1, fun r hr => ?_⟩
            obtain ⟨cs', h1, h2⟩ := i2 r (by rw [← hx, hr])
            refine ⟨cs', h1, hsem cs' ?_⟩
            intro hp todo z hz
            rw [hab, if_pos rfl, hsp]
            exact h2 hp todo z hz
          | false =>
            have hk0 : k = 0 := by
              rcases hk with h0 | h0
              · exact h0
              · rw [hab] at h0; cases h0
            subst hk0
            rw [List.replicate_zero, List.nil_append] at hsp
            rw [hab, if_neg (by decide), hsp] at hx
            obtain ⟨i1, i2⟩ := relGo_names (assume := assume) hrc ih ns hns hnd _ _ true h.dir
            refine ⟨by rw [hx]; exact i1, fun r hr => ?_⟩
            obtain ⟨cs', h1, h2⟩ := i2 r (by rw [← hx, hr])
            refine ⟨cs', h1, hsem cs' ?_⟩
            intro hp todo z hz
            rw [hab, if_neg (by decide), hsp]
            exact h2 hp todo z hz
        obtain ⟨j1, j2⟩ := hrel _ rfl
        generalize relGo (rp fs (rootText rc) assume n) (rootText rc) assume
            (splitOn '/' (normpath t)) (if isabs (normpath t) = true then rootText rc else
              render (rc ++ cs)) true = x at j1 j2 ⊢
        cases x with
        | error e =>
          exact ⟨fun e' => j1 (by cases e'; rfl), fun r b hr => (by cases hr)⟩
        | ok f =>
          obtain ⟨cs', h1, h2⟩ := j2 f rfl
          dsimp only
          have hfix : rp fs (rootText rc) assume n f = .ok (f, fs.dir f) := by
            have hx := h1.fixed hs
            cases n with
            | zero => unfold rp; rw [if_neg hx]
            | succ m => unfold rp; rw [if_neg hx]
          rw [hfix]
          refine ⟨fun e => (by cases e), fun r b hr => ?_⟩
          cases hr
          exact ⟨cs', h1, h2⟩

theorem normComps_at {fs : Files} {rc cs : List Str} {r : Str} (hrc : ∀ c ∈ rc, Clean c)
    (h : At fs rc r cs) : normComps r = rc ++ cs.filter (· ≠ dot) := by
  rcases h.text with ⟨rfl, rfl⟩ | rfl
  · rw [List.filter_nil, List.append_nil]
    unfold rootText dirText
    by_cases h0 : rc = []
    · subst h0; rfl
    · rw [if_neg h0, normComps_append (b := []) rfl, normComps_render hrc]
      show [([] : Str)].foldl (normStep true) rc = rc
      rw [List.foldl_cons, normStep_skip]; rfl
  · by_cases hne : rc ++ cs = []
    · rw [hne]
      rw [List.append_eq_nil_iff] at hne
      rw [hne.1, hne.2]; rfl
    · unfold normComps render
      rw [splitOn_cons_sep, splitOn_join '/' _ hne ?_]
      · show List.foldl (normStep true) _ _ = _
        rw [List.foldl_cons, normStep_skip, List.foldl_append, foldl_normStep_clean rc hrc,
          List.nil_append]
        have key : ∀ (xs acc : List Str), (∀ c ∈ xs, Name c ∧ c ≠ dotdot) →
            xs.foldl (normStep true) acc = acc ++ xs.filter (fun x => decide (x ≠ dot)) := by
          intro xs
          induction xs with
          | nil => intro acc _; simp
          | cons x xs ih =>
            intro acc hx
            obtain ⟨hx1, hx2⟩ := hx x List.mem_cons_self
            have hx3 : ∀ c ∈ xs, Name c ∧ c ≠ dotdot := fun c hc => hx c (List.mem_cons_of_mem _ hc)
            rw [List.foldl_cons]
            by_cases hd : x = dot
            · subst hd
              rw [normStep_dot, ih _ hx3, List.filter_cons_of_neg (by simp)]
            · rw [normStep_clean ⟨hx1.1, hd, hx2, hx1.2⟩, ih _ hx3,
                List.filter_cons_of_pos (by simpa using hd)]
              simp
        exact key cs rc h.names
      · intro c hc
        rcases List.mem_append.mp hc with hc' | hc'
        · exact (hrc c hc').2.2.2
        · exact (h.names c hc').1.2

theorem normpath_rootText {root : Str} (hr : initSlashes root = 1) :
    (if (normpath root).getLast? = some '/' then normpath root else normpath root ++ ['/']) =
      rootText (normComps root) := by
  rw [normpath_abs hr]
  have hrc := normComps_clean (initSlashes_abs hr)
  generalize normComps root = rc at hrc
  unfold rootText dirText
  by_cases hne : rc = []
  · subst hne; rfl
  · obtain ⟨xs, y, rfl⟩ := (List.eq_nil_or_concat rc).resolve_left hne
    rw [List.concat_eq_append] at *
    rw [if_neg (render_getLast (hrc y (by simp)).name), if_neg hne]

/-- A file that passes the check at the beginning lies in the root directory. -/
theorem below_comps {rc fc : List Str} (hrc : ∀ c ∈ rc, Clean c) (hfc : ∀ c ∈ fc, Clean c)
    (h : below (render fc) (rootText rc) = true) : ∃ x, fc = rc ++ x := by
  unfold Paths.below at h
  obtain ⟨t, ht⟩ := startsWith_iff.mp h
  unfold rootText dirText at ht
  by_cases hr : rc = []
  · subst hr; exact ⟨fc, rfl⟩
  · rw [if_neg hr] at ht
    by_cases hf : fc = []
    · subst hf
      exfalso
      obtain ⟨c, r, hc, hcs⟩ := head_render hr (fun c hc => (hrc c hc).name)
      rw [hc] at ht
      exact hcs ((List.cons.inj (List.cons.inj ht).2).1).symm
    · have h2 := congrArg (splitOn '/') ht
      rw [List.append_assoc, List.singleton_append, splitOn_append, splitOn_append,
        splitOn_render hfc hf, splitOn_render hrc hr] at h2
      simp only [List.cons_append, List.cons.injEq, true_and] at h2
      have hne : splitOn '/' t ≠ [] := splitOnGo_ne_nil _ _ _
      obtain ⟨us, u, hu⟩ := (List.eq_nil_or_concat (splitOn '/' t)).resolve_left hne
      rw [List.concat_eq_append] at hu
      rw [hu, show splitOn '/' ([] : Str) = [[]] from rfl, ← List.append_assoc] at h2
      exact ⟨us, List.append_inj_left' h2 rfl⟩

/-- All that is shown about `realpath`, with `use_physdir`. -/
theorem realpath_at {fs : Files} {file root : Str} {n : Nat} {assume : Bool}
    (hs : SlashNoLink fs) (hr : initSlashes root = 1) (hf : initSlashes file = 1) :
    realpath fs file root true n assume ≠ .error .assertion ∧
    ∀ r, realpath fs file root true n assume = .ok r → ∃ x cs, normComps file = normComps root ++ x ∧
      At fs (normComps root) r cs ∧ (PlainLinks fs → Leads fs (normComps root) [] x cs) := by
  have hrc := normComps_clean (initSlashes_abs hr)
  have hfc := normComps_clean (initSlashes_abs hf)
  unfold realpath
  dsimp only
  rw [normpath_rootText hr, normpath_abs hf]
  generalize normComps root = rc at hrc ⊢
  generalize normComps file = fc at hfc ⊢
  cases hb : below (render fc) (rootText rc) with
  | false =>
    rw [if_pos rfl]
    exact ⟨fun e => (by cases e), fun r h => (by cases h)⟩
  | true =>
    rw [if_neg (by decide), if_pos rfl]
    obtain ⟨x, rfl⟩ := below_comps hrc hfc hb
    have hx : ∀ c ∈ x, Clean c := fun c hc => hfc c (List.mem_append_right _ hc)
    have hdrop : ∃ k, splitOn '/' ((render (rc ++ x)).drop ((rootText rc).length - 1)) =
        List.replicate k [] ++ x := by
      rw [rootText_length, Nat.add_sub_cancel]
      by_cases h0 : x = []
      · subst h0
        rw [List.append_nil]
        unfold dirText
        split
        · rename_i h1; subst h1; exact ⟨2, rfl⟩
        · rw [List.drop_length]; exact ⟨1, rfl⟩
      · rw [render_split h0, List.drop_left, splitOn_cons_sep,
          splitOn_join '/' x h0 (fun c hc => (hx c hc).2.2.2)]
        exact ⟨1, rfl⟩
    obtain ⟨k, hk⟩ := hdrop
    rw [hk]
    obtain ⟨i1, i2⟩ := relGo_root (assume := assume) hrc (rp_ok (assume := assume) hrc hs n) x
      (fun c hc => (hx c hc).name) (fun _ c hc => (hx c hc).2.1) k true
    refine ⟨i1, fun r h => ?_⟩
    obtain ⟨cs, h1, h2⟩ := i2 r h
    refine ⟨x, cs, rfl, h1, fun hp => ?_⟩
    obtain ⟨kk, h3⟩ := h2 hp [] cs ⟨0, .done cs⟩
    rw [List.append_nil] at h3
    clear hk i1 i2 h h2
    induction k with
    | zero => exact ⟨kk, h3⟩
    | succ k ih =>
      apply ih
      rw [List.replicate_succ, List.cons_append] at h3
      cases h3 with
      | skip _ h => exact h
      | file hc _ _ => exact absurd rfl hc.1
      | link hc _ _ => exact absurd rfl hc.1

/-- **C66.**  `realpath` never fails with one of its own assertions, and its result is a place in
the root directory, whatever links there are. -/
theorem realpath_in_root {fs : Files} {file root : Str} {n : Nat} {assume : Bool}
    (hs : SlashNoLink fs) (hr : initSlashes root = 1) (hf : initSlashes file = 1) :
    realpath fs file root true n assume ≠ .error .assertion ∧
    ∀ r, realpath fs file root true n assume = .ok r → ∃ x, normComps r = normComps root ++ x := by
  obtain ⟨h1, h2⟩ := realpath_at (n := n) (assume := assume) hs hr hf
  refine ⟨h1, fun r h => ?_⟩
  obtain ⟨x, cs, -, h3, -⟩ := h2 r h
  exact ⟨_, normComps_at (normComps_clean (initSlashes_abs hr)) h3⟩

/-- **C66.**  Files outside the root directory are refused. -/
theorem realpath_refuses {fs : Files} {file root : Str} {n : Nat} {assume : Bool}
    (hr : initSlashes root = 1) (hf : initSlashes file = 1)
    (hout : ¬ ∃ x, normComps file = normComps root ++ x) :
    realpath fs file root true n assume = .error .inval := by
  have hrc := normComps_clean (initSlashes_abs hr)
  have hfc := normComps_clean (initSlashes_abs hf)
  unfold realpath
  dsimp only
  rw [normpath_rootText hr, normpath_abs hf]
  cases hb : below (render (normComps file)) (rootText (normComps root)) with
  | false => rw [if_pos rfl]
  | true => exact absurd (below_comps hrc hfc hb) hout

/-- **C67 (partial).**  If the texts of the links are written without needless parts, the result of
`realpath` is the place to which the system would resolve the path in a process whose root
directory is `root`, and no symbolic link is left on the way to it.  Missing: other link texts,
for which it may be another place (`realpath_text_wrong`). -/
theorem realpath_resolves_partial {fs : Files} {file root r : Str} {n : Nat} {assume : Bool}
    (hs : SlashNoLink fs) (hp : PlainLinks fs) (hr : initSlashes root = 1) (hf : initSlashes file = 1)
    (h : realpath fs file root true n assume = .ok r) :
    ∃ x cs, normComps file = normComps root ++ x ∧ normComps r = normComps root ++ cs ∧
      (∃ k, Resolves fs (normComps root) k [] x cs) ∧ NoLinks fs (normComps root) cs := by
  obtain ⟨x, cs, h1, h2, h3⟩ := (realpath_at hs hr hf).2 r h
  refine ⟨x, cs, h1, ?_, h3 hp, h2.nolink⟩
  rw [normComps_at (normComps_clean (initSlashes_abs hr)) h2]
  congr 1
  exact List.filter_eq_self.mpr (fun c hc => by simpa using h2.nodot hp c hc)

/-! ### Every path that the system resolves is resolved -/

theorem Resolves.split {fs : Files} {rc : List Str} {k : Nat} {cur l z : List Str}
    (h : Resolves fs rc k cur l z) : ∀ a b, l = a ++ b →
    ∃ k1 k2 m, Resolves fs rc k1 cur a m ∧ Resolves fs rc k2 m b z ∧ k = k1 + k2 := by
  induction h with
  | done cur =>
    intro a b hab
    obtain ⟨rfl, rfl⟩ := List.append_eq_nil_iff.mp hab.symm
    exact ⟨0, 0, cur, .done cur, .done cur, rfl⟩
  | @skip k cur todo r d hd h ih =>
    intro a b hab
    cases a with
    | nil => exact ⟨0, k, cur, .done cur, by rw [← show d :: todo = b from hab]; exact .skip hd h, by omega⟩
    | cons x a =>
      obtain ⟨rfl, hab'⟩ := List.cons.inj hab
      obtain ⟨k1, k2, m, h1, h2, hk⟩ := ih a b hab'
      exact ⟨k1, k2, m, .skip hd h1, h2, hk⟩
  | @up k cur todo r h ih =>
    intro a b hab
    cases a with
    | nil => exact ⟨0, k, cur, .done cur, by rw [← show dotdot :: todo = b from hab]; exact .up h, by omega⟩
    | cons x a =>
      obtain ⟨rfl, hab'⟩ := List.cons.inj hab
      obtain ⟨k1, k2, m, h1, h2, hk⟩ := ih a b hab'
      exact ⟨k1, k2, m, .up h1, h2, hk⟩
  | @file k cur todo r d hc hl h ih =>
    intro a b hab
    cases a with
    | nil => exact ⟨0, k, cur, .done cur, by rw [← show d :: todo = b from hab]; exact .file hc hl h, by omega⟩
    | cons x a =>
      obtain ⟨rfl, hab'⟩ := List.cons.inj hab
      obtain ⟨k1, k2, m, h1, h2, hk⟩ := ih a b hab'
      exact ⟨k1, k2, m, .file hc hl h1, h2, hk⟩
  | @link k cur todo r d t hc hl h ih =>
    intro a b hab
    cases a with
    | nil =>
      exact ⟨0, k + 1, cur, .done cur, by rw [← show d :: todo = b from hab]; exact .link hc hl h, by omega⟩
    | cons x a =>
      obtain ⟨rfl, hab'⟩ := List.cons.inj hab
      obtain ⟨k1, k2, m, h1, h2, hk⟩ := ih (splitOn '/' t ++ a) b (by rw [show todo = a ++ b from hab', List.append_assoc])
      exact ⟨k1 + 1, k2, m, .link hc hl h1, h2, by omega⟩

/-- What is shown about a call of `__realpath` for a component: if the system gets to `z` with at
most `n` links, so does the call. -/
def Complete (fs : Files) (rc : List Str) (n : Nat) (assume : Bool)
    (f : Str → Except Err (Str × Bool)) : Prop :=
  (∃ b, f (rootText rc) = .ok (rootText rc, b) ∧ (b = true ∨ assume = true)) ∧
  ∀ cs start d k z, At fs rc start cs → Clean d → k ≤ n → Resolves fs rc k cs [d] z →
    ∃ r b, f (render (rc ++ (cs ++ [d]))) = .ok (r, b) ∧ At fs rc r z ∧ (b = true ∨ assume = true)

theorem relGo_complete {fs : Files} {rc : List Str} {f : Str → Except Err (Str × Bool)} {assume : Bool}
    {n : Nat} (hrc : ∀ c ∈ rc, Clean c) (hf : Complete fs rc n assume f) : ∀ (ds : List Str),
    (∀ d ∈ ds, Name d) → (∀ d ∈ ds, d ≠ dot) → ∀ start cs hd k z, At fs rc start cs →
    (hd = true ∨ assume = true) → k ≤ n → Resolves fs rc k cs ds z →
    ∃ r, relGo f (rootText rc) assume ds start hd = .ok r ∧ At fs rc r z
  | [], _, _, start, cs, hd, k, z, h, hh, hk, hz => by
    unfold relGo
    cases hz
    exact ⟨start, rfl, h⟩
  | d :: ds, hds, hdot, start, cs, hd, k, z, h, hh, hk, hz => by
    have ih := fun start cs hd k z h hh hk hz => relGo_complete hrc hf ds
      (fun x hx => hds x (List.mem_cons_of_mem _ hx))
      (fun x hx => hdot x (List.mem_cons_of_mem _ hx)) start cs hd k z h hh hk hz
    have hdn := hds d List.mem_cons_self
    unfold relGo
    rw [if_neg (by rintro ⟨h1, h2⟩; rcases hh with h3 | h3 <;> simp_all)]
    by_cases hdd : d = dotdot
    · subst hdd
      have hup := h.up hrc
      rw [if_pos rfl]
      dsimp only
      rw [hup.below, if_pos rfl]
      cases hz with
      | skip h1 _ => rcases h1 with h1 | h1 <;> cases h1
      | up h1 => exact ih _ _ hd k z hup hh hk h1
      | file hc _ _ => exact absurd rfl hc.2.2.1
      | link hc _ _ => exact absurd rfl hc.2.2.1
    · rw [if_neg hdd, h.join hrc hdn]
      obtain ⟨k1, k2, m, h1, h2, hkk⟩ := hz.split [d] ds rfl
      obtain ⟨r1, b1, hr1, ha1, hb1⟩ := hf.2 cs start d k1 m h
        ⟨hdn.1, hdot d List.mem_cons_self, hdd, hdn.2⟩ (by omega) h1
      rw [hr1]
      dsimp only
      rw [ha1.below, if_pos rfl]
      exact ih _ _ b1 k2 z ha1 hb1 (by omega) h2

theorem relGo_root_complete {fs : Files} {rc : List Str} {f : Str → Except Err (Str × Bool)}
    {assume : Bool} {n : Nat} (hrc : ∀ c ∈ rc, Clean c) (hf : Complete fs rc n assume f)
    (ds : List Str) (hds : ∀ d ∈ ds, Name d) (hdot : ∀ d ∈ ds, d ≠ dot) : ∀ j hd k z,
    (hd = true ∨ assume = true) → k ≤ n → Resolves fs rc k [] (List.replicate j [] ++ ds) z →
    ∃ r, relGo f (rootText rc) assume (List.replicate j [] ++ ds) (rootText rc) hd = .ok r ∧
      At fs rc r z
  | 0, hd, k, z, hh, hk, hz => by
    rw [List.replicate_zero, List.nil_append] at hz ⊢
    exact relGo_complete hrc hf ds hds hdot _ _ hd k z (At.nil (Or.inl rfl)) hh hk hz
  | j + 1, hd, k, z, hh, hk, hz => by
    rw [List.replicate_succ, List.cons_append] at hz ⊢
    unfold relGo
    rw [if_neg (by rintro ⟨h1, h2⟩; rcases hh with h3 | h3 <;> simp_all), if_neg (by decide)]
    have hj : pathJoin (rootText rc) [] = rootText rc := by
      unfold pathJoin
      rw [if_neg (by decide), if_pos (Or.inr (by simp [rootText])), List.append_nil]
    obtain ⟨b, hb, hbt⟩ := hf.1
    rw [hj, hb]
    dsimp only
    rw [(At.nil (fs := fs) (rc := rc) (Or.inl rfl)).below, if_pos rfl]
    cases hz with
    | skip _ h1 => exact relGo_root_complete hrc hf ds hds hdot j b k z hbt hk h1
    | file hc _ _ => exact absurd rfl hc.1
    | link hc _ _ => exact absurd rfl hc.1

theorem rp_complete {fs : Files} {rc : List Str} {assume : Bool} (hrc : ∀ c ∈ rc, Clean c)
    (hs : SlashNoLink fs) (hp : PlainLinks fs) (hdir : assume = true ∨ ∀ p, fs.dir p = true) :
    ∀ n, Complete fs rc n assume (rp fs (rootText rc) assume n) := by
  have hb : ∀ p, fs.dir p = true ∨ assume = true := fun p => hdir.symm.imp (fun h => h p) id
  have hfix : ∀ n start cs, At fs rc start cs →
      rp fs (rootText rc) assume n start = .ok (start, fs.dir start) := by
    intro n start cs h
    have hx := h.fixed hs
    cases n with
    | zero => unfold rp; rw [if_neg hx]
    | succ m => unfold rp; rw [if_neg hx]
  intro n
  induction n with
  | zero =>
    refine ⟨⟨_, hfix 0 _ _ (At.nil (Or.inl rfl)), hb _⟩, ?_⟩
    intro cs start d k z h hd hk hz
    cases hz with
    | skip h1 _ => rcases h1 with h1 | h1; exact absurd h1 hd.1; exact absurd h1 hd.2.1
    | up h1 => exact absurd rfl hd.2.2.1
    | file hc hl h1 =>
      cases h1
      have hst := (step_file h hd.name hd.2.2.1 (fun _ => hd.2.1) hl).1
      exact ⟨_, _, hfix 0 _ _ hst, hst, hb _⟩
    | link hc hl h1 => omega
  | succ n ih =>
    refine ⟨⟨_, hfix _ _ _ (At.nil (Or.inl rfl)), hb _⟩, ?_⟩
    intro cs start d k z h hd hk hz
    cases hz with
    | skip h1 _ => rcases h1 with h1 | h1; exact absurd h1 hd.1; exact absurd h1 hd.2.1
    | up h1 => exact absurd rfl hd.2.2.1
    | file hc hl h1 =>
      cases h1
      have hst := (step_file h hd.name hd.2.2.1 (fun _ => hd.2.1) hl).1
      exact ⟨_, _, hfix _ _ _ hst, hst, hb _⟩
    | @link k _ _ _ _ t hc hl h1 =>
      have hlen : (rootText rc).length ≤ (render (rc ++ (cs ++ [d]))).length := by
        rw [render_split (by simp), rootText_length, List.length_append, List.length_cons]
        omega
      have hdn : dirname (render (rc ++ (cs ++ [d]))) = render (rc ++ cs) := by
        rw [← List.append_assoc, dirname_render _ hd.2.2.2]
        intro c hcc
        rcases List.mem_append.mp hcc with hc' | hc'
        · exact (hrc c hc').name
        · exact (h.names c hc').1
      obtain ⟨hp1, hp2⟩ := hp _ _ hl
      unfold rp
      rw [hl, if_pos ⟨rfl, hlen⟩]
      dsimp only [Option.getD_some]
      rw [hdn, h.dir.below, if_neg (by rintro ⟨_, h1⟩; cases h1), hp1]
      obtain ⟨j, ns, hsp, hj, hns, hnd⟩ := splitOn_normpath t
      rw [hp1] at hsp hj hnd
      rw [List.append_nil, hsp] at h1
      have : ∃ r, relGo (rp fs (rootText rc) assume n) (rootText rc) assume (splitOn '/' t)
          (if isabs t = true then rootText rc else render (rc ++ cs)) true = .ok r ∧ At fs rc r z := by
        rw [hsp]
        cases hab : isabs t with
        | true =>
          rw [hab, if_pos rfl] at h1
          rw [if_pos rfl]
          exact relGo_root_complete hrc ih ns hns (hnd hp2) j true k z (Or.inl rfl) (by omega) h1
        | false =>
          have hj0 : j = 0 := by
            rcases hj with h0 | h0
            · exact h0
            · rw [hab] at h0; cases h0
          subst hj0
          rw [hab, if_neg (by decide), List.replicate_zero, List.nil_append] at h1
          rw [if_neg (by decide), List.replicate_zero, List.nil_append]
          exact relGo_complete hrc ih ns hns (hnd hp2) _ _ true k z h.dir (Or.inl rfl) (by omega) h1
      obtain ⟨r, hr, hrz⟩ := this
      rw [hr]
      dsimp only
      exact ⟨r, _, hfix n r z hrz, hrz, hb _⟩

/-- **C67 (partial).**  Conversely: if the system resolves the path with at most `loop_cnt` links,
`realpath` returns that place, if all the directories exist or `assume_dir` is given.  Missing: link
texts with needless parts, as above. -/
theorem realpath_complete_partial {fs : Files} {file root : Str} {n k : Nat} {assume : Bool}
    {x z : List Str} (hs : SlashNoLink fs) (hp : PlainLinks fs)
    (hdir : assume = true ∨ ∀ p, fs.dir p = true) (hr : initSlashes root = 1)
    (hf : initSlashes file = 1) (hx : normComps file = normComps root ++ x)
    (hz : Resolves fs (normComps root) k [] x z) (hk : k ≤ n) :
    ∃ r, realpath fs file root true n assume = .ok r ∧ normComps r = normComps root ++ z := by
  have hrc := normComps_clean (initSlashes_abs hr)
  have hfc := normComps_clean (initSlashes_abs hf)
  rw [hx] at hfc
  unfold realpath
  dsimp only
  rw [normpath_rootText hr, normpath_abs hf, hx]
  generalize normComps root = rc at hrc hz hfc ⊢
  have hxc : ∀ c ∈ x, Clean c := fun c hc => hfc c (List.mem_append_right _ hc)
  have hb : below (render (rc ++ x)) (rootText rc) = true := by
    unfold Paths.below
    rw [startsWith_iff]
    by_cases h0 : x = []
    · subst h0
      rw [List.append_nil]
      unfold rootText dirText
      split
      · rename_i h1; subst h1; exact ⟨['/'], rfl⟩
      · exact ⟨[], by simp⟩
    · rw [render_split h0]
      exact ⟨join ['/'] x ++ ['/'], by simp [rootText]⟩
  rw [hb, if_neg (by decide), if_pos rfl]
  have hdrop : ∃ k, splitOn '/' ((render (rc ++ x)).drop ((rootText rc).length - 1)) =
      List.replicate k [] ++ x := by
    rw [rootText_length, Nat.add_sub_cancel]
    by_cases h0 : x = []
    · subst h0
      rw [List.append_nil]
      unfold dirText
      split
      · rename_i h1; subst h1; exact ⟨2, rfl⟩
      · rw [List.drop_length]; exact ⟨1, rfl⟩
    · rw [render_split h0, List.drop_left, splitOn_cons_sep,
        splitOn_join '/' x h0 (fun c hc => (hxc c hc).2.2.2)]
      exact ⟨1, rfl⟩
  obtain ⟨j, hj⟩ := hdrop
  rw [hj]
  have hz' : Resolves fs rc k [] (List.replicate j [] ++ x) z := by
    clear hj
    induction j with
    | zero => exact hz
    | succ j ih => rw [List.replicate_succ]; exact .skip (Or.inl rfl) ih
  obtain ⟨r, h1, h2⟩ := relGo_root_complete hrc (rp_complete (assume := assume) hrc hs hp hdir n) x
    (fun c hc => (hxc c hc).name) (fun c hc => (hxc c hc).2.1) j true k z (Or.inl rfl) hk hz'
  refine ⟨r, h1, ?_⟩
  rw [normComps_at hrc h2]
  congr 1
  exact List.filter_eq_self.mpr (fun c hc => by simpa using h2.nodot hp c hc)

/-- A link that leads to the directory `/d/e`, and a link with the text `l/../x`. -/
def badText : Files where
  link p := if p = "/r/l".toList then some "/d/e".toList
    else if p = "/r/k".toList then some "l/../x".toList else none
  dir _ := true

/-- **C67 is false in general**: the text of a link is shortened as text.  The system resolves
`k -> l/../x` with `l -> /d/e` to `/d/x` below the root directory, `realpath` to `/x`. -/
theorem realpath_text_wrong :
    realpath badText "/r/k".toList "/r".toList true 100 false = .ok "/r/x".toList ∧
    Resolves badText ["r".toList] 2 [] ["k".toList] ["d".toList, "x".toList] := by
  refine ⟨by decide +kernel, ?_⟩
  refine .link (t := "l/../x".toList) (by decide) (by decide) ?_
  rw [show (splitOn '/' "l/../x".toList ++ [] : List Str) = ["l".toList, dotdot, "x".toList] by decide,
    show (if isabs "l/../x".toList then ([] : List Str) else []) = [] by decide]
  refine .link (t := "/d/e".toList) (by decide) (by decide) ?_
  rw [show (splitOn '/' "/d/e".toList ++ [dotdot, "x".toList] : List Str) =
    [[], "d".toList, "e".toList, dotdot, "x".toList] by decide,
    show (if isabs "/d/e".toList then ([] : List Str) else []) = [] by decide]
  refine .skip (Or.inl rfl) ?_
  refine .file (by decide) (by decide) ?_
  refine .file (by decide) (by decide) ?_
  refine .up ?_
  refine .file (by decide) (by decide) ?_
  exact .done _

/-- A directory `/a` with a link `self -> .` and a link `k -> ../b`; the name `/a/./k` denotes the
same link. -/
def dotLink : Files where
  link p := if p = "/r/a/self".toList then some ".".toList
    else if p = "/r/a/k".toList ∨ p = "/r/a/./k".toList then some "../b".toList else none
  dir _ := true

/-- **C67 is false in general**: after a link to `.` the step `..` goes to the wrong place.  The
system resolves `/a/self/k` to `/b` below the root directory, `realpath` to `/a/b`. -/
theorem realpath_dot_wrong :
    realpath dotLink "/r/a/self/k".toList "/r".toList true 100 false = .ok "/r/a/b".toList ∧
    Resolves dotLink ["r".toList] 2 [] ["a".toList, "self".toList, "k".toList] ["b".toList] := by
  refine ⟨by decide +kernel, ?_⟩
  refine .file (by decide) (by decide) ?_
  refine .link (t := ".".toList) (by decide) (by decide) ?_
  refine .skip (Or.inr rfl) ?_
  refine .link (t := "../b".toList) (by decide) (by decide) ?_
  refine .up ?_
  exact .file (by decide) (by decide) (.done _)

/-- A root directory with an absolute link and a link upwards, beyond the root directory. -/
def goodLinks : Files where
  link p := if p = "/r/etc/mtab".toList then some "/proc/mounts".toList
    else if p = "/r/lib".toList then some "usr/lib".toList
    else if p = "/r/usr/lib/x".toList then some "../../../etc/mtab".toList else none
  dir _ := true

theorem goodLinks_ok : SlashNoLink goodLinks ∧ PlainLinks goodLinks := by
  constructor
  · intro p hp
    unfold goodLinks
    dsimp only
    rw [if_neg, if_neg, if_neg]
    all_goals (rintro rfl; revert hp; decide)
  · intro p t h
    unfold goodLinks at h
    dsimp only at h
    split at h
    · cases h; decide +kernel
    · split at h
      · cases h; decide +kernel
      · split at h
        · cases h; decide +kernel
        · cases h

example : realpath goodLinks "/r/lib/x".toList "/r".toList true 100 false =
    .ok "/r/proc/mounts".toList := by decide +kernel
example : realpath goodLinks "/r/lib/x".toList "/r".toList true 1 false = .error .loop := by
  decide +kernel

end Isar.Paths
