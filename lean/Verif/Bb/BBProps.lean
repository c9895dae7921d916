import Verif.Bb.BBLemmas
/-!
# A recipe is what its lines say
-/

namespace Bb.BB
open Py Spec

/-- The state before a file is read. -/
def fresh (c : Str) : State := ⟨none, none, [], [], c⟩

/-- In the middle of a statement. -/
def within (c : Str) (rs : List Str) : State := ⟨none, none, [], rs, c⟩

/-- A statement that is complete with its line. -/
def Single (c : Str) (s : Str) (st : Stmt) : Prop := statement (fresh c) s = ⟨fresh c, [st], none⟩

theorem gs_nil (st : State) : getStatements st [] =
    match st.inFunc, st.inPython with
    | none, some name => if st.residue ≠ [] then ⟨{ st with body := [], inPython := none }, [.pyMethod name st.body], some .parse⟩
      else ⟨{ st with body := [], inPython := none }, [.pyMethod name st.body], none⟩
    | _, _ => if st.residue ≠ [] then ⟨st, [], some .parse⟩ else if st.body ≠ [] then ⟨st, [], some .parse⟩ else ⟨st, [], none⟩ := by
  rcases st with ⟨a, b, body, rs, c⟩
  unfold getStatements
  cases a <;> cases b <;> cases rs <;> cases body <;> rfl

theorem gs_cons (st : State) (l : Str) (ls : List Str) : getStatements st (l :: ls) =
    match (feeder st (rstrip l)).err with
    | some e => ⟨(feeder st (rstrip l)).state, (feeder st (rstrip l)).stmts, some e⟩
    | none => ⟨(getStatements (feeder st (rstrip l)).state ls).state,
        (feeder st (rstrip l)).stmts ++ (getStatements (feeder st (rstrip l)).state ls).stmts,
        (getStatements (feeder st (rstrip l)).state ls).err⟩ := by
  have h1 : feedAll st (l :: ls) = match (feeder st (rstrip l)).err with
    | some e => ⟨(feeder st (rstrip l)).state, (feeder st (rstrip l)).stmts, some e⟩
    | none => ⟨(feedAll (feeder st (rstrip l)).state ls).state,
        (feeder st (rstrip l)).stmts ++ (feedAll (feeder st (rstrip l)).state ls).stmts,
        (feedAll (feeder st (rstrip l)).state ls).err⟩ := rfl
  unfold getStatements
  rw [h1]
  rcases (feeder st (rstrip l)) with ⟨σ, o, _ | e⟩
  · dsimp only
    rcases hf : feedAll σ ls with ⟨⟨a, b, body, rs, c⟩, o2, _ | e⟩
    · cases a <;> cases b <;> cases rs <;> cases body <;> simp
    · rfl
  · rfl

/-! ## One line -/

theorem feeder_func (f : Str × Bool × Bool) (B : List Str) (c s : Str) : feeder ⟨some f, none, B, [], c⟩ s =
    if s = ['}'] then ⟨fresh c, [.method f.1 (B ++ [[]]) f.2.1 f.2.2], none⟩
    else ⟨⟨some f, none, B ++ [s], [], c⟩, [], none⟩ := by
  rcases f with ⟨n, py, fr⟩; rfl

theorem feeder_py (n : Str) (B : List Str) (c s : Str) : feeder ⟨none, some n, B, [], c⟩ s =
    if pyLine s then ⟨⟨none, some n, B ++ [s], [], c⟩, [], none⟩
    else ⟨(feeder (fresh c) s).state, .pyMethod n B :: (feeder (fresh c) s).stmts, (feeder (fresh c) s).err⟩ := rfl

theorem feeder_within (c s : Str) (rs : List Str) : feeder (within c rs) s =
    match rs with
    | [] :: _ => ⟨within c rs, [], some .crash⟩
    | rs =>
      if s.head? = some '#' ∧ rs ≠ [] ∧ rs.head?.bind (·.head?) ≠ some '#' then ⟨within c rs, [], some .fatal⟩
      else if rs ≠ [] ∧ rs.head?.bind (·.head?) = some '#' ∧ s.head? ≠ some '#' then ⟨within c rs, [], some .fatal⟩
      else if s.getLast? = some '\\' then ⟨within c (rs ++ [s.dropLast]), [], none⟩
      else if rs.flatten ++ s = [] then ⟨fresh c, [], none⟩
      else if (rs.flatten ++ s).head? = some '#' then ⟨fresh c, [], none⟩
      else statement (fresh c) (rs.flatten ++ s) := by
  cases rs with
  | nil => rfl
  | cons a rs => cases a <;> rfl

theorem statement_head {c s : Str} {n : Option Str} {py fr : Bool} (h : Head s n py fr) :
    statement (fresh c) s = ⟨⟨some (n.getD "__anonymous".toList, py, fr), none, [], [], c⟩, [], none⟩ := by
  unfold statement
  rw [funcStart_head.2 h]; rfl

theorem funcStart_none {s : Str} : funcStart (s.length + 1) false false s = none ↔ ∀ n py fr, ¬ Head s n py fr := by
  constructor
  · intro h n py fr hh
    rw [funcStart_head.2 hh] at h; cases h
  · intro h
    rcases hx : funcStart (s.length + 1) false false s with _ | ⟨n, py, fr⟩
    · rfl
    · exact absurd (funcStart_head.1 hx) (h n py fr)

theorem statement_def {c s n : Str} (hn : ∀ n py fr, ¬ Head s n py fr) (h : Def s n) :
    statement (fresh c) s = ⟨⟨none, some n, [s], [], c⟩, [], none⟩ := by
  unfold statement
  rw [funcStart_none.2 hn]
  dsimp only
  rw [defStart_iff.2 h]; rfl

/-- What a statement does: it begins a function or a definition, it is complete, or it is an error. -/
theorem statement_cases (c s : Str) : (∃ n py fr, Head s n py fr) ∨ ((∀ n py fr, ¬ Head s n py fr) ∧ ∃ n, Def s n) ∨
    (∃ st, Single c s st) ∨ (statement (fresh c) s).err ≠ none := by
  by_cases h1 : ∃ n py fr, Head s n py fr
  · exact Or.inl h1
  have h1' : ∀ n py fr, ¬ Head s n py fr := fun n py fr h => h1 ⟨n, py, fr, h⟩
  by_cases h2 : ∃ n, Def s n
  · exact Or.inr (Or.inl ⟨h1', h2⟩)
  have hd : defStart s = none := by
    rcases hx : defStart s with _ | n
    · rfl
    · exact absurd ⟨n, defStart_iff.1 hx⟩ h2
  refine Or.inr (Or.inr ?_)
  unfold Single statement
  rw [funcStart_none.2 h1']
  dsimp only
  rw [hd]
  dsimp only
  split
  · exact Or.inl ⟨_, rfl⟩
  split
  · split
    · exact Or.inr nofun
    · exact Or.inl ⟨_, rfl⟩
  split
  · exact Or.inl ⟨_, rfl⟩
  split
  · exact Or.inl ⟨_, rfl⟩
  split
  · exact Or.inl ⟨_, rfl⟩
  split
  · exact Or.inl ⟨_, rfl⟩
  split
  · exact Or.inl ⟨_, rfl⟩
  · exact Or.inr nofun

/-! ## Parts of a file -/

/-- A file from within a function. -/
def FuncRest (c : Str) (f : Str × Bool × Bool) (B : List Str) (ls : List Str) (out : List Stmt) : Prop :=
  ∃ body close rest out', ls = body ++ close :: rest ∧ (∀ l, l ∈ body → rstrip l ≠ ['}']) ∧ rstrip close = ['}'] ∧
    out = .method f.1 (B ++ body.map rstrip ++ [[]]) f.2.1 f.2.2 :: out' ∧ File (Single c) rest out'

/-- A file from within a definition. -/
def PyRest (c n : Str) (B : List Str) (ls : List Str) (out : List Stmt) : Prop :=
  ∃ body rest out', ls = body ++ rest ∧ (∀ l, l ∈ body → Body (rstrip l)) ∧ (∀ l t, rest = l :: t → ¬ Body (rstrip l)) ∧
    out = .pyMethod n (B ++ body.map rstrip) :: out' ∧ File (Single c) rest out'

/-- A file after a statement. -/
def After (c s : Str) (ls : List Str) (out : List Stmt) : Prop :=
  (∃ n py fr, Head s n py fr ∧ FuncRest c (n.getD "__anonymous".toList, py, fr) [] ls out) ∨
  ((∀ n py fr, ¬ Head s n py fr) ∧ ∃ n, Def s n ∧ PyRest c n [s] ls out) ∨
  (∃ st out', Single c s st ∧ out = st :: out' ∧ File (Single c) ls out')

/-- A file from within a statement. -/
def StRest (c : Str) (rs : List Str) (ls : List Str) (out : List Stmt) : Prop :=
  ∃ b s rest, ls = b ++ rest ∧ Cont b s ∧ (∀ l, l ∈ b → (rstrip l).head? ≠ some '#') ∧ After c (rs.flatten ++ s) rest out

/-- A file from within a comment. -/
def CoRest (c : Str) (ls : List Str) (out : List Stmt) : Prop :=
  ∃ b s rest, ls = b ++ rest ∧ Cont b s ∧ (∀ l, l ∈ b → (rstrip l).head? = some '#') ∧ File (Single c) rest out

theorem file_of_lines {c s : Str} {b rest : List Str} {out : List Stmt} (hb : Lines b s) (h : After c s rest out) :
    File (Single c) (b ++ rest) out := by
  rcases h with ⟨n, py, fr, hH, body, close, rest', out', e, h1, h2, e2, h3⟩ | ⟨hn, n, hD, body, rest', out', e, h1, h2, e2, h3⟩ |
      ⟨st, out', hs, e, h3⟩
  · subst e; subst e2
    exact .func hb hH h1 h2 h3
  · subst e; subst e2
    exact .defn hb hn hD h1 h2 h3
  · subst e
    exact .statement hb hs h3

/-! ## What is read is what the file says -/

theorem cont_ne {b : List Str} {s : Str} (h : Cont b s) : b ≠ [] := by cases h <;> exact nofun

theorem drop_back {s : Str} (h : s.getLast? = some '\\') : s = s.dropLast ++ ['\\'] := (Conf.dropLast_last h).symm

theorem accepted (c : Str) : ∀ (ls : List Str) (out : List Stmt),
    (getStatements (fresh c) ls = ⟨fresh c, out, none⟩ → File (Single c) ls out) ∧
    (∀ f B, getStatements ⟨some f, none, B, [], c⟩ ls = ⟨fresh c, out, none⟩ → FuncRest c f B ls out) ∧
    (∀ n B, getStatements ⟨none, some n, B, [], c⟩ ls = ⟨fresh c, out, none⟩ → PyRest c n B ls out) ∧
    (∀ a r rs, getStatements (within c ((a :: r) :: rs)) ls = ⟨fresh c, out, none⟩ →
      if a = '#' then CoRest c ls out else StRest c ((a :: r) :: rs) ls out)
  | [], out => by
    refine ⟨?_, ?_, ?_, ?_⟩
    · intro h
      rw [gs_nil] at h
      have h : (⟨fresh c, [], none⟩ : Res) = ⟨fresh c, out, none⟩ := h
      injection h with _ h _
      subst h
      exact .nil
    · intro f B h
      rw [gs_nil] at h
      cases B with
      | nil => injection h with h; injection h with h; cases h
      | cons a B => injection h with _ _ h; cases h
    · intro n B h
      rw [gs_nil] at h
      have h : (⟨fresh c, [.pyMethod n B], none⟩ : Res) = ⟨fresh c, out, none⟩ := h
      injection h with _ h _
      subst h
      exact ⟨[], [], [], rfl, (fun l h => nomatch h), (fun l t h => nomatch h), by rw [List.map_nil, List.append_nil], .nil⟩
    · intro a r rs h
      rw [gs_nil] at h
      have h : (⟨_, [], some .parse⟩ : Res) = ⟨fresh c, out, none⟩ := h
      injection h with _ _ h; cases h
  | l :: ls, out => by
    have ih := fun o => accepted c ls o
    -- after a statement
    have hafter : ∀ s, statement (fresh c) s = ⟨(statement (fresh c) s).state, (statement (fresh c) s).stmts, none⟩ →
        ∀ out, (getStatements (statement (fresh c) s).state ls).state = fresh c →
        (getStatements (statement (fresh c) s).state ls).err = none →
        out = (statement (fresh c) s).stmts ++ (getStatements (statement (fresh c) s).state ls).stmts → After c s ls out := by
      intro s he out h1 h2 h3
      have hg : ∀ σ, (getStatements σ ls).state = fresh c → (getStatements σ ls).err = none →
          getStatements σ ls = ⟨fresh c, (getStatements σ ls).stmts, none⟩ := by
        intro σ h1 h2
        rcases hx : getStatements σ ls with ⟨a, b, d⟩
        rw [hx] at h1 h2
        cases h1; cases h2; rfl
      have h4 := hg _ h1 h2
      rcases statement_cases c s with ⟨n, py, fr, hH⟩ | ⟨hn, n, hD⟩ | ⟨st, hs⟩ | hbad
      · rw [statement_head hH] at h3 h4
        subst h3
        exact Or.inl ⟨n, py, fr, hH, (ih _).2.1 _ _ h4⟩
      · rw [statement_def hn hD] at h3 h4
        subst h3
        exact Or.inr (Or.inl ⟨hn, n, hD, (ih _).2.2.1 _ _ h4⟩)
      · have hs' := hs
        unfold Single at hs'
        rw [hs'] at h3 h4
        exact Or.inr (Or.inr ⟨st, _, hs, h3, (ih _).1 h4⟩)
      · rw [he] at hbad; exact absurd rfl hbad
    -- a line outside of functions
    have hfresh : ∀ out, getStatements (fresh c) (l :: ls) = ⟨fresh c, out, none⟩ → File (Single c) (l :: ls) out := by
      intro out h
      rw [gs_cons] at h
      have hf := feeder_within c (rstrip l) []
      have hf : feeder (fresh c) (rstrip l) = _ := hf
      dsimp only at hf
      rw [if_neg (fun h => h.2.1 rfl), if_neg (fun h => h.1 rfl)] at hf
      by_cases hl : (rstrip l).getLast? = some '\\'
      · rw [if_pos hl] at hf
        rw [hf] at h
        have e := drop_back hl
        rcases hp : (rstrip l).dropLast with _ | ⟨a, r⟩
        · rw [hp] at h
          dsimp only at h
          exfalso
          -- the next line is an error
          injection h with _ _ h
          cases ls with
          | nil =>
            rw [gs_nil] at h
            have h : some Err.parse = none := h
            cases h
          | cons l2 ls =>
            rw [gs_cons, feeder_within] at h
            cases h
        · rw [hp] at h e
          dsimp only at h
          injection h with h1 h2 h3
          have h4 := (ih ((getStatements (within c [a :: r]) ls).stmts)).2.2.2 a r [] (by
            rcases hx : getStatements (within c [a :: r]) ls with ⟨x, y, z⟩
            have h1 : (getStatements (within c [a :: r]) ls).state = fresh c := h1
            have h3 : (getStatements (within c [a :: r]) ls).err = none := h3
            rw [hx] at h1 h3
            cases h1; cases h3; rfl)
          have h2 : (getStatements (within c [a :: r]) ls).stmts = out := h2
          rw [h2] at h4
          split at h4
          · rename_i ha
            obtain ⟨b, s, rest, e1, h5, h6, h7⟩ := h4
            subst e1
            refine .comment (b := l :: b) (s := (a :: r) ++ s) (.more e h5) ?_ h7
            intro x hx
            rcases List.mem_cons.1 hx with rfl | hx
            · rw [e, ha]; rfl
            · exact h6 x hx
          · rename_i ha
            obtain ⟨b, s, rest, e1, h5, h6, h7⟩ := h4
            subst e1
            have h7 : After c ((a :: r) ++ s) rest out := by
              rw [List.flatten_cons, List.flatten_nil, List.append_nil] at h7; exact h7
            refine file_of_lines (b := l :: b) ⟨.more e h5, ?_, ?_, nofun, ?_⟩ h7
            · intro x hx
              rcases List.mem_cons.1 hx with rfl | hx
              · rw [e]; intro h; injection h with h; exact ha h
              · exact h6 x hx
            · intro x hx
              injection hx with hx
              subst hx
              rw [e]
              intro h
              injection h with _ h
              cases r <;> cases h
            · intro h; injection h with h; exact ha h
      · rw [if_neg hl] at hf
        rw [List.flatten_nil, List.nil_append] at hf
        by_cases hz : rstrip l = []
        · rw [if_pos hz] at hf
          rw [hf] at h
          dsimp only at h
          injection h with h1 h2 h3
          refine .blank hz ((ih out).1 ?_)
          rcases hx : getStatements (fresh c) ls with ⟨x, y, z⟩
          rw [hx] at h1 h2 h3
          have h2 : y = out := h2
          cases h1; cases h2; cases h3; rfl
        · rw [if_neg hz] at hf
          by_cases hc : (rstrip l).head? = some '#'
          · rw [if_pos hc] at hf
            rw [hf] at h
            dsimp only at h
            injection h with h1 h2 h3
            refine .comment (b := [l]) (.last hl) (fun x hx => ?_) ((ih out).1 ?_)
            · cases List.mem_singleton.1 hx; exact hc
            rcases hx : getStatements (fresh c) ls with ⟨x, y, z⟩
            rw [hx] at h1 h2 h3
            have h2 : y = out := h2
            cases h1; cases h2; cases h3; rfl
          · rw [if_neg hc] at hf
            rw [hf] at h
            rcases he : (statement (fresh c) (rstrip l)).err with _ | e
            · rw [he] at h
              dsimp only at h
              injection h with h1 h2 h3
              refine file_of_lines (b := [l]) ⟨.last hl, fun x hx => ?_, fun x hx => ?_, hz, hc⟩
                (hafter (rstrip l) ?_ out h1 h3 h2.symm)
              · cases List.mem_singleton.1 hx; exact hc
              · injection hx with hx
                subst hx
                intro h; rw [h] at hl; exact hl rfl
              · rcases hx : statement (fresh c) (rstrip l) with ⟨x, y, z⟩
                rw [hx] at he; cases he; rfl
            · rw [he] at h
              injection h with _ _ h; cases h
    refine ⟨hfresh out, ?_, ?_, ?_⟩
    · intro f B h
      rw [gs_cons, feeder_func] at h
      by_cases hc : rstrip l = ['}']
      · rw [if_pos hc] at h
        dsimp only at h
        injection h with h1 h2 h3
        refine ⟨[], l, ls, (getStatements (fresh c) ls).stmts, rfl, (fun x hx => nomatch hx), hc, ?_, (ih _).1 ?_⟩
        · rw [List.map_nil, List.append_nil]; exact h2.symm
        · rcases hx : getStatements (fresh c) ls with ⟨x, y, z⟩
          rw [hx] at h1 h3
          cases h1; cases h3; rfl
      · rw [if_neg hc] at h
        dsimp only at h
        have h : getStatements ⟨some f, none, B ++ [rstrip l], [], c⟩ ls = ⟨fresh c, out, none⟩ := h
        obtain ⟨body, close, rest, out', e, h1, h2, e2, h3⟩ := (ih _).2.1 _ _ h
        refine ⟨l :: body, close, rest, out', by rw [e]; rfl, ?_, h2, ?_, h3⟩
        · intro x hx
          rcases List.mem_cons.1 hx with rfl | hx
          · exact hc
          · exact h1 x hx
        · rw [e2, List.map_cons, List.append_cons B (rstrip l) (body.map rstrip)]
    · intro n B h
      rw [gs_cons, feeder_py] at h
      by_cases hc : pyLine (rstrip l) = true
      · rw [if_pos hc] at h
        dsimp only at h
        have h : getStatements ⟨none, some n, B ++ [rstrip l], [], c⟩ ls = ⟨fresh c, out, none⟩ := h
        obtain ⟨body, rest, out', e, h1, h2, e2, h3⟩ := (ih _).2.2.1 _ _ h
        refine ⟨l :: body, rest, out', by rw [e]; rfl, ?_, h2, ?_, h3⟩
        · intro x hx
          rcases List.mem_cons.1 hx with rfl | hx
          · exact pyLine_iff.1 hc
          · exact h1 x hx
        · rw [e2, List.map_cons, List.append_cons B (rstrip l) (body.map rstrip)]
      · rw [if_neg hc] at h
        have hg := gs_cons (fresh c) l ls
        rcases he : (feeder (fresh c) (rstrip l)).err with _ | e
        · rw [he] at h hg
          dsimp only at h hg
          injection h with h1 h2 h3
          refine ⟨[], l :: ls, (getStatements (fresh c) (l :: ls)).stmts, rfl, (fun x hx => nomatch hx), ?_, ?_, hfresh _ ?_⟩
          · intro x t hx hb
            injection hx with hx _
            subst hx
            exact hc (pyLine_iff.2 hb)
          · rw [hg, List.map_nil, List.append_nil]; exact h2.symm
          · rw [hg, h1, h3]
        · rw [he] at h
          injection h with _ _ h; cases h
    · intro a r rs h
      rw [gs_cons, feeder_within] at h
      dsimp only at h
      have hh : ((a :: r) :: rs).head?.bind (·.head?) = some a := rfl
      rw [hh] at h
      by_cases h1 : (rstrip l).head? = some '#' ∧ ((a :: r) :: rs) ≠ [] ∧ some a ≠ some '#'
      · rw [if_pos h1] at h
        injection h with _ _ h; cases h
      rw [if_neg h1] at h
      by_cases h2 : ((a :: r) :: rs) ≠ [] ∧ some a = some '#' ∧ (rstrip l).head? ≠ some '#'
      · rw [if_pos h2] at h
        injection h with _ _ h; cases h
      rw [if_neg h2] at h
      by_cases h3 : (rstrip l).getLast? = some '\\'
      · rw [if_pos h3] at h
        have e := drop_back h3
        have h : getStatements (within c ((a :: r) :: (rs ++ [(rstrip l).dropLast]))) ls = ⟨fresh c, out, none⟩ := h
        have h4 := (ih _).2.2.2 a r _ h
        split
        · rename_i ha
          rw [if_pos ha] at h4
          obtain ⟨b, s, rest, e1, h5, h6, h7⟩ := h4
          refine ⟨l :: b, _, rest, by rw [e1]; rfl, .more e h5, ?_, h7⟩
          intro x hx
          rcases List.mem_cons.1 hx with rfl | hx
          · exact Classical.not_not.1 fun hn => h2 ⟨nofun, by rw [ha], hn⟩
          · exact h6 x hx
        · rename_i ha
          rw [if_neg ha] at h4
          obtain ⟨b, s, rest, e1, h5, h6, h7⟩ := h4
          refine ⟨l :: b, (rstrip l).dropLast ++ s, rest, by rw [e1]; rfl, .more e h5, ?_, ?_⟩
          · intro x hx
            rcases List.mem_cons.1 hx with rfl | hx
            · exact fun hn => h1 ⟨hn, nofun, fun h => ha (by injection h)⟩
            · exact h6 x hx
          · have e8 : ((a :: r) :: (rs ++ [(rstrip l).dropLast])).flatten ++ s =
                ((a :: r) :: rs).flatten ++ ((rstrip l).dropLast ++ s) := by
              simp only [List.flatten_cons, List.flatten_append, List.flatten_nil, List.append_nil, List.append_assoc]
            rw [e8] at h7
            exact h7
      rw [if_neg h3] at h
      have hne : ((a :: r) :: rs).flatten ++ rstrip l ≠ [] := nofun
      rw [if_neg hne] at h
      have hhd : (((a :: r) :: rs).flatten ++ rstrip l).head? = some a := rfl
      rw [hhd] at h
      by_cases ha : a = '#'
      · rw [if_pos (by rw [ha]), ] at h
        rw [if_pos ha]
        have h : getStatements (fresh c) ls = ⟨fresh c, out, none⟩ := h
        refine ⟨[l], _, ls, rfl, .last h3, fun x hx => ?_, (ih _).1 h⟩
        cases List.mem_singleton.1 hx
        exact Classical.not_not.1 fun hn => h2 ⟨nofun, by rw [ha], hn⟩
      · rw [if_neg (fun h => ha (by injection h))] at h
        rw [if_neg ha]
        refine ⟨[l], _, ls, rfl, .last h3, fun x hx => ?_, ?_⟩
        · cases List.mem_singleton.1 hx
          exact fun hn => h1 ⟨hn, nofun, fun h => ha (by injection h)⟩
        · rcases he : (statement (fresh c) (((a :: r) :: rs).flatten ++ rstrip l)).err with _ | e
          · rw [he] at h
            dsimp only at h
            injection h with h4 h5 h6
            refine hafter _ ?_ out h4 h6 h5.symm
            rcases hx : statement (fresh c) (((a :: r) :: rs).flatten ++ rstrip l) with ⟨x, y, z⟩
            rw [hx] at he; cases he; rfl
          · rw [he] at h
            injection h with _ _ h; cases h

/-! ## What a file says is what is read -/

theorem gs_append {st st' : State} {o : List Stmt} : ∀ {b : List Str}, feedAll st b = ⟨st', o, none⟩ → ∀ (ls : List Str),
    getStatements st (b ++ ls) = ⟨(getStatements st' ls).state, o ++ (getStatements st' ls).stmts, (getStatements st' ls).err⟩
  | b, h, ls => by
    induction b generalizing st o with
    | nil =>
      have h : (⟨st, [], none⟩ : Res) = ⟨st', o, none⟩ := h
      injection h with h1 h2 _
      subst h1; subst h2; rfl
    | cons l b ih =>
      have hu : feedAll st (l :: b) = match (feeder st (rstrip l)).err with
        | some e => ⟨(feeder st (rstrip l)).state, (feeder st (rstrip l)).stmts, some e⟩
        | none => ⟨(feedAll (feeder st (rstrip l)).state b).state,
            (feeder st (rstrip l)).stmts ++ (feedAll (feeder st (rstrip l)).state b).stmts,
            (feedAll (feeder st (rstrip l)).state b).err⟩ := rfl
      rw [hu] at h
      clear hu
      rw [List.cons_append, gs_cons]
      generalize feeder st (rstrip l) = fe at h ⊢
      rcases fe with ⟨σ, o1, _ | e⟩
      · dsimp only at h ⊢
        rcases hx : feedAll σ b with ⟨x, y, z⟩
        rw [hx] at h
        dsimp only at h
        injection h with h1 h2 h3
        subst h1; subst h2; subst h3
        rw [ih hx, List.append_assoc]
      · injection h with _ _ h; cases h

theorem feed_one (st : State) (l : Str) : feedAll st [l] = feeder st (rstrip l) := by
  show (match (feeder st (rstrip l)).err with
    | some e => (⟨(feeder st (rstrip l)).state, (feeder st (rstrip l)).stmts, some e⟩ : Res)
    | none => ⟨(feeder st (rstrip l)).state, (feeder st (rstrip l)).stmts ++ [], none⟩) = _
  rcases (feeder st (rstrip l)) with ⟨σ, o1, _ | e⟩
  · dsimp only; rw [List.append_nil]
  · rfl

theorem feed_cons {st st' : State} {l : Str} (b : List Str) (h : feeder st (rstrip l) = ⟨st', [], none⟩) :
    feedAll st (l :: b) = feedAll st' b := by
  show (match (feeder st (rstrip l)).err with
    | some e => (⟨(feeder st (rstrip l)).state, (feeder st (rstrip l)).stmts, some e⟩ : Res)
    | none => ⟨(feedAll (feeder st (rstrip l)).state b).state, (feeder st (rstrip l)).stmts ++
        (feedAll (feeder st (rstrip l)).state b).stmts, (feedAll (feeder st (rstrip l)).state b).err⟩) = _
  rw [h]; rfl

theorem feed_lines {c : Str} : ∀ {b : List Str} {s : Str}, Cont b s → (∀ l, l ∈ b → (rstrip l).head? ≠ some '#') →
    ∀ rs : List Str, (∀ x t, rs = x :: t → x ≠ []) → (rs.flatten ++ s).head? ≠ some '#' → rs.flatten ++ s ≠ [] →
    (rs = [] → ∀ l, b.head? = some l → rstrip l ≠ ['\\']) →
    feedAll (within c rs) b = statement (fresh c) (rs.flatten ++ s)
  | _, _, .last (l := l) hl, hb, rs, hrs, hh, hne, hf => by
    rw [feed_one, feeder_within]
    have hc := hb l List.mem_cons_self
    match rs, hrs, hh, hne, hf with
    | [], hrs, hh, hne, hf =>
      dsimp only
      rw [if_neg (fun h => hc h.1), if_neg (fun h => h.1 rfl), if_neg hl, if_neg hne, if_neg hh]
    | [] :: t, hrs, hh, hne, hf => exact absurd rfl (hrs [] t rfl)
    | (a :: x) :: t, hrs, hh, hne, hf =>
      dsimp only
      rw [if_neg (fun h => hc h.1), if_neg (fun h => hh h.2.1), if_neg hl, if_neg hne, if_neg hh]
  | _, _, .more (l := l) (p := p) (s := s) (ls := b) e h, hb, rs, hrs, hh, hne, hf => by
    have hc := hb l List.mem_cons_self
    have hl : (rstrip l).getLast? = some '\\' := by rw [e, List.getLast?_concat]
    have hd : (rstrip l).dropLast = p := by rw [e, List.dropLast_concat]
    have hfe : feeder (within c rs) (rstrip l) = ⟨within c (rs ++ [p]), [], none⟩ := by
      rw [feeder_within]
      match rs, hrs, hh, hne, hf with
      | [], hrs, hh, hne, hf =>
        dsimp only
        rw [if_neg (fun h => hc h.1), if_neg (fun h => h.1 rfl), if_pos hl, hd]
      | [] :: t, hrs, hh, hne, hf => exact absurd rfl (hrs [] t rfl)
      | (a :: x) :: t, hrs, hh, hne, hf =>
        dsimp only
        rw [if_neg (fun h => hc h.1), if_neg (fun h => hh h.2.1), if_pos hl, hd]
    have ef : (rs ++ [p]).flatten ++ s = rs.flatten ++ (p ++ s) := by
      simp only [List.flatten_append, List.flatten_cons, List.flatten_nil, List.append_nil, List.append_assoc]
    rw [feed_cons b hfe, ← ef]
    refine feed_lines h (fun x hx => hb x (List.mem_cons_of_mem _ hx)) _ ?_ (by rw [ef]; exact hh) (by rw [ef]; exact hne)
      (fun h => absurd h (by simp))
    intro x t ht
    cases rs with
    | nil =>
      injection ht with ht _
      subst ht
      intro hp
      rw [hp] at e
      exact hf rfl l rfl e
    | cons y rs =>
      injection ht with ht _
      subst ht
      exact hrs y rs rfl

theorem feed_comment {c : Str} : ∀ {b : List Str} {s : Str}, Cont b s → (∀ l, l ∈ b → (rstrip l).head? = some '#') →
    ∀ rs : List Str, (∀ x t, rs = x :: t → x.head? = some '#') → feedAll (within c rs) b = ⟨fresh c, [], none⟩
  | _, _, .last (l := l) hl, hb, rs, hrs => by
    rw [feed_one, feeder_within]
    have hc := hb l List.mem_cons_self
    match rs, hrs with
    | [], hrs =>
      dsimp only
      rw [if_neg (fun h => h.2.1 rfl), if_neg (fun h => h.1 rfl), if_neg hl]
      rw [List.flatten_nil, List.nil_append, if_neg (fun h => by rw [h] at hc; cases hc), if_pos hc]
    | [] :: t, hrs => exact nomatch hrs [] t rfl
    | (a :: x) :: t, hrs =>
      have ha := hrs _ t rfl
      have ha' : (((a :: x) :: t).flatten ++ rstrip l).head? = some '#' := ha
      dsimp only
      rw [if_neg (fun h => h.2.2 ha), if_neg (fun h => h.2.2 hc), if_neg hl, if_neg nofun, if_pos ha']
  | _, _, .more (l := l) (p := p) (s := s) (ls := b) e h, hb, rs, hrs => by
    have hc := hb l List.mem_cons_self
    have hl : (rstrip l).getLast? = some '\\' := by rw [e, List.getLast?_concat]
    have hd : (rstrip l).dropLast = p := by rw [e, List.dropLast_concat]
    have hfe : feeder (within c rs) (rstrip l) = ⟨within c (rs ++ [p]), [], none⟩ := by
      rw [feeder_within]
      match rs, hrs with
      | [], hrs =>
        dsimp only
        rw [if_neg (fun h => h.2.1 rfl), if_neg (fun h => h.1 rfl), if_pos hl, hd]
      | [] :: t, hrs => exact nomatch hrs [] t rfl
      | (a :: x) :: t, hrs =>
        have ha := hrs _ t rfl
        dsimp only
        rw [if_neg (fun h => h.2.2 ha), if_neg (fun h => h.2.2 hc), if_pos hl, hd]
    rw [feed_cons b hfe]
    refine feed_comment h (fun x hx => hb x (List.mem_cons_of_mem _ hx)) _ ?_
    intro x t ht
    cases rs with
    | nil =>
      injection ht with ht _
      subst ht
      rw [e] at hc
      cases p with
      | nil => injection hc with hc; exact absurd hc (by decide)
      | cons a p => exact hc
    | cons y rs =>
      injection ht with ht _
      subst ht
      exact hrs y rs rfl

theorem feed_body {c : Str} (f : Str × Bool × Bool) : ∀ (body : List Str) (B : List Str) (close : Str),
    (∀ l, l ∈ body → rstrip l ≠ ['}']) → rstrip close = ['}'] →
    feedAll ⟨some f, none, B, [], c⟩ (body ++ [close]) = ⟨fresh c, [.method f.1 (B ++ body.map rstrip ++ [[]]) f.2.1 f.2.2], none⟩
  | [], B, close, _, h => by
    rw [List.nil_append, feed_one, feeder_func, if_pos h, List.map_nil, List.append_nil]
  | l :: body, B, close, hb, h => by
    have hfe : feeder ⟨some f, none, B, [], c⟩ (rstrip l) = ⟨⟨some f, none, B ++ [rstrip l], [], c⟩, [], none⟩ := by
      rw [feeder_func, if_neg (hb l List.mem_cons_self)]
    rw [List.cons_append, feed_cons _ hfe, feed_body f body _ close (fun x hx => hb x (List.mem_cons_of_mem _ hx)) h, List.map_cons,
      ← List.append_cons]

theorem gs_py {c n : Str} : ∀ (body : List Str) (B ls : List Str), (∀ l, l ∈ body → Body (rstrip l)) →
    (∀ l t, ls = l :: t → ¬ Body (rstrip l)) →
    ∀ out, getStatements (fresh c) ls = ⟨fresh c, out, none⟩ →
    getStatements ⟨none, some n, B, [], c⟩ (body ++ ls) = ⟨fresh c, .pyMethod n (B ++ body.map rstrip) :: out, none⟩
  | [], B, ls, _, hls, out, h => by
    rw [List.nil_append, List.map_nil, List.append_nil]
    cases ls with
    | nil =>
      rw [gs_nil] at h ⊢
      have h : (⟨fresh c, [], none⟩ : Res) = ⟨fresh c, out, none⟩ := h
      injection h with _ h _
      subst h
      rfl
    | cons l ls =>
      rw [gs_cons] at h
      rw [gs_cons, feeder_py, if_neg (fun hp => hls l ls rfl (pyLine_iff.1 hp))]
      rcases he : feeder (fresh c) (rstrip l) with ⟨x, y, _ | e⟩
      · rw [he] at h
        dsimp only at h ⊢
        injection h with h1 h2 h3
        rw [h1, h3, ← h2]; rfl
      · rw [he] at h
        injection h with _ _ h; cases h
  | l :: body, B, ls, hb, hls, out, h => by
    rw [List.cons_append, gs_cons, feeder_py, if_pos (pyLine_iff.2 (hb l List.mem_cons_self))]
    dsimp only
    rw [gs_py body _ ls (fun x hx => hb x (List.mem_cons_of_mem _ hx)) hls out h, List.map_cons, ← List.append_cons]
    rfl

theorem lines_feed {c : Str} {b : List Str} {s : Str} (h : Lines b s) : feedAll (fresh c) b = statement (fresh c) s :=
  feed_lines h.1 h.2.1 [] (fun x t h => nomatch h) h.2.2.2.2 h.2.2.2.1 (fun _ => h.2.2.1)

/-- C140: a file gives its statements, in order, with the bodies of functions as they are written. -/
theorem file_read {c : Str} {ls : List Str} {out : List Stmt} (h : File (Single c) ls out) :
    getStatements (fresh c) ls = ⟨fresh c, out, none⟩ := by
  induction h with
  | nil => rfl
  | @blank l ls out hl _ ih =>
    have hf : feedAll (fresh c) [l] = ⟨fresh c, [], none⟩ := by rw [feed_one, hl]; rfl
    have := gs_append hf ls
    rw [ih] at this
    exact this
  | comment hc hb _ ih =>
    have hf : feedAll (fresh c) _ = ⟨fresh c, [], none⟩ := feed_comment hc hb [] (fun x t h => nomatch h)
    rw [gs_append hf, ih]; rfl
  | @func b body ls s close n py fr out hb hH h1 h2 _ ih =>
    have h3 := lines_feed (c := c) hb
    rw [statement_head hH] at h3
    rw [gs_append h3]
    have h4 : body ++ close :: ls = (body ++ [close]) ++ ls := List.append_cons _ _ _
    rw [h4, gs_append (feed_body _ body [] close h1 h2), ih]
    rfl
  | @defn b body ls s n out hb hn hD h1 h2 _ ih =>
    have h3 := lines_feed (c := c) hb
    rw [statement_def hn hD] at h3
    rw [gs_append h3, gs_py body [s] ls h1 h2 _ ih]
    rfl
  | statement hb hs _ ih =>
    have h3 := lines_feed (c := c) hb
    unfold Single at hs
    rw [hs] at h3
    rw [gs_append h3, ih]
    rfl

/-- C140: a file is accepted if and only if it can be read as a sequence of blank lines, comments, functions,
definitions and statements, and then these are what it gives. -/
theorem file_exact (c : Str) (ls : List Str) (out : List Stmt) :
    getStatements (fresh c) ls = ⟨fresh c, out, none⟩ ↔ File (Single c) ls out :=
  ⟨fun h => (accepted c ls out).1 h, file_read⟩

/-! ## Errors -/

/-- C140: a function that is not closed is an error, if it has a line. -/
theorem unclosed {c s : Str} {b body : List Str} {n : Option Str} {py fr : Bool} (hb : Lines b s) (hH : Head s n py fr)
    (hbody : ∀ l, l ∈ body → rstrip l ≠ ['}']) (hne : body ≠ []) : (getStatements (fresh c) (b ++ body)).err = some .parse := by
  have h3 := lines_feed (c := c) hb
  rw [statement_head hH] at h3
  rw [gs_append h3]
  show (getStatements _ body).err = _
  have key : ∀ (body B : List Str), (∀ l, l ∈ body → rstrip l ≠ ['}']) → B ++ body ≠ [] →
      ∀ f, (getStatements ⟨some f, none, B, [], c⟩ body).err = some .parse := by
    intro body
    induction body with
    | nil =>
      intro B _ hB f
      rw [gs_nil]
      cases B with
      | nil => exact absurd rfl hB
      | cons x B => rfl
    | cons l body ih =>
      intro B hb hB f
      rw [gs_cons, feeder_func, if_neg (hb l List.mem_cons_self)]
      exact ih (B ++ [rstrip l]) (fun x hx => hb x (List.mem_cons_of_mem _ hx)) (by simp) f
  exact key body [] hbody hne _

/-- C140: a file that ends in the middle of a statement is an error. -/
theorem unfinished {c : Str} {l : Str} (hl : (rstrip l).getLast? = some '\\') (hp : rstrip l ≠ ['\\'])  :
    (getStatements (fresh c) [l]).err = some .parse := by
  rw [gs_cons]
  have hf : feeder (fresh c) (rstrip l) = ⟨within c [(rstrip l).dropLast], [], none⟩ := by
    have := feeder_within c (rstrip l) []
    have : feeder (fresh c) (rstrip l) = _ := this
    dsimp only at this
    rw [if_neg (fun h => h.2.1 rfl), if_neg (fun h => h.1 rfl), if_pos hl] at this
    exact this
  rw [hf]
  rfl

/-- C140: a comment in the middle of a statement is an error. -/
theorem comment_inside {c : Str} {a : Char} {p l l2 : Str} (hl : rstrip l = a :: p ++ ['\\']) (ha : a ≠ '#')
    (h2 : (rstrip l2).head? = some '#') (ls : List Str) : (getStatements (fresh c) (l :: l2 :: ls)).err = some .fatal := by
  have hf : feeder (fresh c) (rstrip l) = ⟨within c [a :: p], [], none⟩ := by
    have := feeder_within c (rstrip l) []
    have : feeder (fresh c) (rstrip l) = _ := this
    dsimp only at this
    rw [if_neg (fun h => h.2.1 rfl), if_neg (fun h => h.1 rfl), if_pos (by rw [hl, List.getLast?_concat]), hl,
      List.dropLast_concat] at this
    rw [hl]
    exact this
  rw [gs_cons, hf]
  dsimp only
  rw [gs_cons, feeder_within]
  dsimp only
  rw [if_pos ⟨h2, nofun, fun h => ha (by injection h)⟩]

/-- Against C140: a function that is not closed and has no lines is not an error of the file; it is seen after the
evaluation. -/
theorem empty_unclosed {c s : Str} {b : List Str} {n : Option Str} {py fr : Bool} (hb : Lines b s) (hH : Head s n py fr) :
    getStatements (fresh c) b = ⟨⟨some (n.getD "__anonymous".toList, py, fr), none, [], [], c⟩, [], none⟩ := by
  have h3 := lines_feed (c := c) hb
  rw [statement_head hH] at h3
  have := gs_append h3 []
  rw [List.append_nil] at this
  rw [this, gs_nil]; rfl

/-! ## Earlier files -/

theorem statement_py {st : State} {s : Str} (h : st.inPython = none) (he : (statement st s).err ≠ none) :
    (statement st s).state.inPython = none := by
  unfold statement at he ⊢
  split at he
  · exact absurd rfl he
  split at he
  · exact absurd rfl he
  repeat' split
  all_goals first | exact h | contradiction

theorem plain_py {st : State} {s : Str} (h : st.inPython = none) (he : (plain st s).err ≠ none) :
    (plain st s).state.inPython = none := by
  unfold plain at he ⊢
  split
  · exact h
  · rename_i hx
    split at he
    · next heq => exact absurd heq (hx _)
    · repeat' split
      all_goals first
        | exact h
        | skip
      rename_i h1 h2 h3 h4 h5
      rw [if_neg h1, if_neg h2, if_neg h3, if_neg h4, if_neg h5] at he
      exact statement_py (st := { st with residue := [] }) h he

/-- Not in a function and in a definition at the same time. -/
def Sane (st : State) : Prop := st.inFunc = none ∨ st.inPython = none

theorem statement_sane {st : State} {s : Str} (h : st.inPython = none) (hf : st.inFunc = none) : Sane (statement st s).state := by
  unfold statement Sane
  split
  · exact Or.inr h
  split
  · exact Or.inl hf
  repeat' split
  all_goals exact Or.inl hf

theorem plain_sane {st : State} {s : Str} (h : st.inPython = none) (hf : st.inFunc = none) : Sane (plain st s).state := by
  unfold plain
  split
  · exact Or.inl hf
  · repeat' split
    all_goals first
      | exact Or.inl hf
      | exact statement_sane (st := { st with residue := [] }) h hf

theorem feeder_sane {st : State} {s : Str} (h : Sane st) :
    Sane (feeder st s).state ∧ ((feeder st s).err ≠ none → (feeder st s).state.inPython = none) := by
  rcases st with ⟨f, n, B, rs, c⟩
  cases f with
  | some f =>
    have hn : n = none := h.elim (fun h => nomatch h) id
    subst hn
    rcases f with ⟨nm, py, fr⟩
    unfold feeder
    dsimp only
    split
    · exact ⟨Or.inr rfl, fun h => absurd rfl h⟩
    · exact ⟨Or.inr rfl, fun h => absurd rfl h⟩
  | none =>
    cases n with
    | none =>
      exact ⟨plain_sane (st := ⟨none, none, B, rs, c⟩) rfl rfl, plain_py (st := ⟨none, none, B, rs, c⟩) rfl⟩
    | some n =>
      unfold feeder
      dsimp only
      split
      · exact ⟨Or.inl rfl, fun h => absurd rfl h⟩
      · exact ⟨plain_sane (st := ⟨none, none, [], rs, c⟩) rfl rfl, plain_py (st := ⟨none, none, [], rs, c⟩) rfl⟩

theorem feedAll_sane : ∀ {st : State} {ls : List Str}, Sane st →
    Sane (feedAll st ls).state ∧ ((feedAll st ls).err ≠ none → (feedAll st ls).state.inPython = none)
  | st, [], h => ⟨h, fun he => absurd rfl he⟩
  | st, l :: ls, h => by
    have hu : feedAll st (l :: ls) = match (feeder st (rstrip l)).err with
      | some e => ⟨(feeder st (rstrip l)).state, (feeder st (rstrip l)).stmts, some e⟩
      | none => ⟨(feedAll (feeder st (rstrip l)).state ls).state,
          (feeder st (rstrip l)).stmts ++ (feedAll (feeder st (rstrip l)).state ls).stmts,
          (feedAll (feeder st (rstrip l)).state ls).err⟩ := rfl
    rw [hu]
    have h1 := feeder_sane (s := rstrip l) h
    rcases he : (feeder st (rstrip l)).err with _ | e
    · exact feedAll_sane h1.1
    · exact ⟨h1.1, fun _ => h1.2 (by rw [he]; exact nofun)⟩

/-- After a file, with or without errors, no definition is open. -/
theorem closed {st : State} {ls : List Str} (h : Sane st) : (getStatements st ls).state.inPython = none := by
  have h1 := feedAll_sane (ls := ls) h
  unfold getStatements
  rcases hx : feedAll st ls with ⟨⟨f, n, B, rs, c⟩, o, _ | e⟩
  · rw [hx] at h1
    cases f with
    | none => cases n <;> cases rs <;> cases B <;> rfl
    | some f =>
      have hn : n = none := h1.1.elim (fun h => nomatch h) id
      subst hn
      cases rs <;> cases B <;> rfl
  · rw [hx] at h1
    exact h1.2 nofun

theorem reset_fresh {st : State} (h : st.inPython = none) (c : Str) : reset st c = fresh c := by
  unfold reset fresh
  rw [h]

/-- C141: what a file gives does not depend on the files that were read before, also if those had errors. -/
theorem independent (c0 : Str) (before : List (Str × List Str × Bool)) (hb : ∀ f, f ∈ before → f.2.2 = false) (c : Str)
    (ls : List Str) (broken : Bool) : readFile (readAll (fresh c0) before) c ls broken = readFile (fresh c0) c ls broken := by
  have key : ∀ (before : List (Str × List Str × Bool)) (st : State), (∀ f, f ∈ before → f.2.2 = false) → st.inPython = none →
      (readAll st before).inPython = none := by
    intro before
    induction before with
    | nil => intro st _ h; exact h
    | cons f before ih =>
      intro st hb h
      rcases f with ⟨c, ls, b⟩
      refine ih _ (fun x hx => hb x (List.mem_cons_of_mem _ hx)) ?_
      have hb : b = false := hb _ List.mem_cons_self
      subst hb
      exact closed (Or.inl rfl)
  have h1 := reset_fresh (key before (fresh c0) hb rfl) c
  unfold readFile
  rw [h1]
  rfl

/-- Against C141: after a file that could not be read to its end, within a definition, the next file has that
definition. -/
theorem python_leaks :
    readFile (readAll (fresh []) [("a".toList, ["def f():".toList], true)]) "b".toList ["A = \"1\"".toList] false =
      ⟨fresh "b".toList, [.pyMethod "f".toList [], .conf (.data ⟨false, "A".toList, none, .set, "1".toList⟩)], none⟩ ∧
    readFile (fresh []) "b".toList ["A = \"1\"".toList] false =
      ⟨fresh "b".toList, [.conf (.data ⟨false, "A".toList, none, .set, "1".toList⟩)], none⟩ := by decide +kernel

/-! ## Examples -/

example : Head "fakeroot python do_x () {".toList (some "do_x".toList) true true :=
  .fakeroot (w := [' ']) (by unfold White; decide) (by decide) (by intro c t h; injection h with h _; subst h; decide)
    (.python (w := [' ']) (by unfold White; decide) (Or.inl (by decide)) (by intro c t h; injection h with h _; subst h; decide)
      (.plain (n := "do_x".toList) (w1 := [' ']) (w2 := []) (w3 := [' ']) (by unfold NameChar WordChar; decide) (by decide) (by decide)
        (by unfold White; decide) (by unfold White; decide) (by unfold White; decide)))

example : (getStatements (fresh []) ["# a".toList, "do_x() {".toList, "  # b".toList, " }".toList, "}  ".toList, "def f(a):".toList,
    "  return 1".toList, [], "# c".toList, "A = \"a \\".toList, "b\"".toList]).stmts =
    [.method "do_x".toList ["  # b".toList, " }".toList, []] false false,
      .pyMethod "f".toList ["def f(a):".toList, "  return 1".toList, [], "# c".toList],
      .conf (.data ⟨false, "A".toList, none, .set, "a b".toList⟩)] := by decide +kernel

end Bb.BB
