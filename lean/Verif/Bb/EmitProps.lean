import Verif.Bb.EmitModel

/- C171 and C172: variables and functions of shell tasks. -/

namespace Bb.Emit
open Py

/-! ### How the shell reads it

The specification: text within double quotes (POSIX, 2.2.3), where a dollar or a backquote that is not quoted begins an expansion; and a
script of `export` and `unset`. -/

/-- The value of a text in double quotes and what follows the closing one; `none` if something would be expanded or the text does not
end. -/
def quoted : Str → Option (Str × Str)
  | [] => none
  | '"' :: r => some ([], r)
  | '$' :: _ => none
  | '`' :: _ => none
  | '\\' :: '\n' :: r => quoted r
  | '\\' :: '"' :: r => (quoted r).map fun p => ('"' :: p.1, p.2)
  | '\\' :: '$' :: r => (quoted r).map fun p => ('$' :: p.1, p.2)
  | '\\' :: '`' :: r => (quoted r).map fun p => ('`' :: p.1, p.2)
  | '\\' :: '\\' :: r => (quoted r).map fun p => ('\\' :: p.1, p.2)
  | c :: r => (quoted r).map fun p => (c :: p.1, p.2)

/-- What a script does to the environment. -/
inductive Reads : Str → List (Str × Option Str) → Prop where
  | nil : Reads [] []
  | exported {n s v r l} : '=' ∉ n → quoted s = some (v, '\n' :: r) → Reads r l → Reads ("export ".toList ++ n ++ "=\"".toList ++ s) ((n, some v) :: l)
  | unset {n r l} : '\n' ∉ n → Reads r l → Reads ("unset ".toList ++ n ++ '\n' :: r) ((n, none) :: l)

/-- A character that means nothing after a backslash within double quotes. -/
def Harmless (c : Char) : Prop := c ≠ '\\' ∧ c ≠ '"' ∧ c ≠ '$' ∧ c ≠ '`'

/-- A value without backquotes, and with backslashes only before harmless characters. -/
def Plain : Str → Prop
  | [] => True
  | '`' :: _ => False
  | '\\' :: r => (∃ c t, r = c :: t ∧ Harmless c) ∧ Plain r
  | _ :: r => Plain r

/-- Ends of lines become blanks. -/
def oneLine (v : Str) : Str := v.map fun c => if c = '\n' then ' ' else c

/-! ### Proofs -/

/-- One character. -/
def esc (c : Char) : Str := if c = '"' then "\\\"".toList else if c = '\n' then " \\\n".toList else if c = '$' then "\\$".toList else [c]

theorem sub_append (c : Char) (r a b : Str) : sub c r (a ++ b) = sub c r a ++ sub c r b := List.flatMap_append

theorem alter_append (a b : Str) : alter (a ++ b) = alter a ++ alter b := by
  unfold alter
  rw [sub_append, sub_append, sub_append]

theorem sub_one (c x : Char) (r : Str) : sub c r [x] = if x = c then r else [x] := by
  show (if x = c then r else [x]) ++ [] = _
  rw [List.append_nil]

theorem alter_one (c : Char) : alter [c] = esc c := by
  by_cases h1 : c = '"'
  · subst h1; decide
  · by_cases h2 : c = '\n'
    · subst h2; decide
    · by_cases h3 : c = '$'
      · subst h3; decide
      · unfold alter esc
        rw [sub_one, if_neg h1, sub_one, if_neg h2, sub_one, if_neg h3, if_neg h1, if_neg h2]

theorem alter_cons (c : Char) (v : Str) : alter (c :: v) = esc c ++ alter v := by
  have : c :: v = [c] ++ v := rfl
  rw [this, alter_append, alter_one]

theorem alter_nil : alter [] = [] := rfl

theorem quoted_other {c : Char} (h1 : c ≠ '"') (h2 : c ≠ '$') (h3 : c ≠ '`') (h4 : c ≠ '\\') (r : Str) :
    quoted (c :: r) = (quoted r).map fun p => (c :: p.1, p.2) := by
  rw [quoted]
  · exact h1
  · exact h2
  · exact h3
  all_goals (intro _ h; exact absurd h h4)

theorem quoted_backslash {c : Char} (h1 : c ≠ '"') (h2 : c ≠ '$') (h3 : c ≠ '`') (h4 : c ≠ '\\') (h5 : c ≠ '\n') (r : Str) :
    quoted ('\\' :: c :: r) = (quoted (c :: r)).map fun p => ('\\' :: p.1, p.2) := by
  rw [quoted]
  · decide
  · decide
  · decide
  all_goals (intro t _ h; have := (List.cons.inj h).1; first | exact absurd this h1 | exact absurd this h2 | exact absurd this h3 | exact absurd this h4 | exact absurd this h5)

/-- What is written is read as the value, on one line. -/
theorem quoted_alter {rest : Str} : ∀ {v : Str}, Plain v → quoted (alter v ++ '"' :: rest) = some (oneLine v, rest)
  | [], _ => rfl
  | c :: v, h => by
    rw [alter_cons, List.append_assoc]
    by_cases h1 : c = '"'
    · subst h1
      have ih := quoted_alter (rest := rest) (v := v) (by simpa [Plain] using h)
      have e : esc '"' ++ (alter v ++ '"' :: rest) = '\\' :: '"' :: (alter v ++ '"' :: rest) := rfl
      rw [e, quoted, ih]; rfl
    · by_cases h2 : c = '\n'
      · subst h2
        have ih := quoted_alter (rest := rest) (v := v) (by simpa [Plain] using h)
        have e : esc '\n' ++ (alter v ++ '"' :: rest) = ' ' :: '\\' :: '\n' :: (alter v ++ '"' :: rest) := rfl
        rw [e, quoted_other (by decide) (by decide) (by decide) (by decide), quoted, ih]; rfl
      · by_cases h3 : c = '$'
        · subst h3
          have ih := quoted_alter (rest := rest) (v := v) (by simpa [Plain] using h)
          have e : esc '$' ++ (alter v ++ '"' :: rest) = '\\' :: '$' :: (alter v ++ '"' :: rest) := rfl
          rw [e, quoted, ih]; rfl
        · have he : esc c = [c] := by unfold esc; rw [if_neg h1, if_neg h2, if_neg h3]
          have ho : oneLine (c :: v) = c :: oneLine v := by unfold oneLine; rw [List.map_cons, if_neg h2]
          rw [he, List.singleton_append, ho]
          by_cases h4 : c = '`'
          · subst h4; simp [Plain] at h
          · by_cases h5 : c = '\\'
            · subst h5
              have hp : (∃ c t, v = c :: t ∧ Harmless c) ∧ Plain v := by simpa [Plain] using h
              obtain ⟨⟨x, t, hv, hx1, hx2, hx3, hx4⟩, hpv⟩ := hp
              have ih := quoted_alter (rest := rest) (v := v) hpv
              -- the next character that is written
              have hnext : ∃ y s, alter v ++ '"' :: rest = y :: s ∧ y ≠ '"' ∧ y ≠ '$' ∧ y ≠ '`' ∧ y ≠ '\\' ∧ y ≠ '\n' := by
                rw [hv, alter_cons]
                by_cases hn : x = '\n'
                · subst hn
                  exact ⟨' ', '\\' :: '\n' :: (alter t ++ '"' :: rest), rfl, by decide, by decide, by decide, by decide, by decide⟩
                · have he : esc x = [x] := by unfold esc; rw [if_neg hx2, if_neg hn, if_neg hx3]
                  rw [he]
                  exact ⟨x, alter t ++ '"' :: rest, rfl, hx2, hx3, hx4, hx1, hn⟩
              obtain ⟨y, s, e, y1, y2, y3, y4, y5⟩ := hnext
              rw [e, quoted_backslash y1 y2 y3 y4 y5, ← e, ih]; rfl
            · have hp : Plain v := by
                unfold Plain at h
                split at h
                · trivial
                · rename_i heq; exact absurd (List.cons.inj heq).1 h4
                · rename_i heq; exact absurd (List.cons.inj heq).1 h5
                · rename_i heq; cases heq; exact h
              rw [quoted_other h1 h3 h4 h5, quoted_alter hp]; rfl

/-! ### C171 -/

/-- What the recipe says of a variable: its value for the task, or that it has none, or nothing. -/
def meant (v : Var) : List (Str × Option Str) :=
  if v.unexport then [(v.name, none)] else if v.exported then match v.val with
    | some x => [(v.name, some (oneLine x))]
    | none => []
  else []

/-- A name that a shell knows. -/
def Usual (n : Str) : Prop := ∀ c ∈ n, c.isAlphanum = true ∨ c = '_'

theorem usual_not {n : Str} (h : Usual n) {c : Char} (hc : c.isAlphanum = false ∧ c ≠ '_') : c ∉ n := fun hm => by
  rcases h c hm with h | h
  · rw [hc.1] at h; cases h
  · exact hc.2 h

theorem usual_odd {n : Str} (h : Usual n) : oddName n = false := by
  unfold oddName
  refine List.any_eq_false.2 fun c hc => ?_
  have key : ∀ x : Char, x.isAlphanum = false ∧ x ≠ '_' → c ≠ x := fun x hx e => usual_not h hx (e ▸ hc)
  have k1 := key '-' (by decide)
  have k2 := key '.' (by decide)
  have k3 := key '{' (by decide)
  have k4 := key '}' (by decide)
  have k5 := key '+' (by decide)
  simp [k1, k2, k3, k4, k5]

/-- C171, where it holds: when the script of a task runs, each exported variable gets its value with blanks for ends of lines, variables that are
not to be exported have none, and nothing else is set; if the values have no backquotes and no backslashes before characters that mean
something to the shell. -/
theorem script_partial : ∀ {vs : List Var}, (∀ v ∈ vs, Usual v.name ∧ ∀ x, v.val = some x → Plain x) → Reads (emitVars vs) (vs.flatMap meant)
  | [], _ => .nil
  | v :: vs, h => by
    have ih := script_partial (vs := vs) fun x hx => h x (List.mem_cons_of_mem _ hx)
    obtain ⟨hn, hv⟩ := h v List.mem_cons_self
    unfold emitVars at ih ⊢
    rw [List.flatMap_cons, List.flatMap_cons]
    generalize vs.flatMap meant = ms at ih ⊢
    generalize vs.flatMap emitVar = es at ih ⊢
    unfold emitVar meant
    rw [usual_odd hn]
    cases hu : v.unexport with
    | true =>
      rw [Bool.not_true, Bool.and_false, if_neg Bool.false_ne_true, if_neg Bool.false_ne_true, if_pos rfl, if_pos rfl, List.singleton_append, List.append_assoc]
      exact .unset (usual_not hn (by decide)) ih
    | false =>
      rw [if_neg Bool.false_ne_true, if_neg Bool.false_ne_true]
      cases he : v.exported with
      | false => exact ih
      | true =>
        rw [if_pos rfl]
        rw [if_neg (by decide), if_neg (by decide)]
        cases hx : v.val with
        | none => exact ih
        | some x =>
          dsimp only
          rw [List.singleton_append]
          have e : "export ".toList ++ v.name ++ "=\"".toList ++ alter x ++ "\"\n".toList ++ es =
              "export ".toList ++ v.name ++ "=\"".toList ++ (alter x ++ '"' :: ('\n' :: es)) := by
            simp only [List.append_assoc]; rfl
          rw [e]
          exact .exported (usual_not hn (by decide)) (quoted_alter (hv x hx)) ih

example : Reads (emitVars [{ name := "A".toList, val := some "x \"$y\"\n\\d".toList, exported := true }, { name := "B".toList, val := none, unexport := true }])
    [("A".toList, some "x \"$y\" \\d".toList), ("B".toList, none)] :=
  script_partial (vs := [{ name := "A".toList, val := some "x \"$y\"\n\\d".toList, exported := true }, { name := "B".toList, val := none, unexport := true }]) (fun v hv => by
    rcases List.mem_cons.1 hv with rfl | hv
    · refine ⟨by intro c hc; revert c; decide, fun x hx => ?_⟩
      cases hx
      exact ⟨⟨'d', [], rfl, by unfold Harmless; decide⟩, trivial⟩
    · rw [List.mem_singleton.1 hv]
      exact ⟨by intro c hc; revert c; decide, fun x hx => by cases hx⟩)

/-- Against C171: two backslashes become one. -/
theorem backslash_lost : quoted (alter "a\\\\b".toList ++ "\"\n".toList) = some ("a\\b".toList, ['\n']) := by decide

/-- Against C171: a quote after a backslash ends the value, and what follows it is taken for commands. -/
theorem quote_ends : quoted (alter "\\\" ; rm -rf x ; \\\"".toList ++ "\"\n".toList) = some ("\\".toList, " ; rm -rf x ; \\\\\"\"\n".toList) := by decide

/-- Against C171: a dollar after a backslash is expanded, and so is what is in backquotes. -/
theorem expanded : quoted (alter "\\$x".toList ++ "\"\n".toList) = none ∧ quoted (alter "`x`".toList ++ "\"\n".toList) = none := by decide

/-- Against C171: a value that ends with a backslash goes on into the next variable. -/
theorem not_ended : quoted (alter "C:\\".toList ++ "\"\nexport B=\"b\"\n".toList) = some ("C:\"\nexport B=".toList, "b\"\n".toList) := by decide

/-- Against C171: a variable with a dash in its name is not exported. -/
theorem dash : emitVars [{ name := "A-B".toList, val := some "x".toList, exported := true }] = [] := by decide

/-! ### C172 -/

/-- What a task needs: what it calls, and what shell functions that it needs call. -/
inductive Needs (isShell : Str → Bool) (calls : Str → List Str) (f : Str) : Str → Prop where
  | called {g} : g ∈ calls f → Needs isShell calls f g
  | through {g h} : Needs isShell calls f g → isShell g = true → h ∈ calls g → Needs isShell calls f h

variable {isShell : Str → Bool} {calls : Str → List Str}

/-- All names of all rounds. -/
def visited (isShell : Str → Bool) (calls : Str → List Str) : Nat → List Str → List Str → List Str
  | 0, _, _ => []
  | n + 1, new, seen =>
    if new = [] then []
    else new ++ visited isShell calls n (sortSet (((new.filter isShell).flatMap calls).filter fun x => !(new ++ seen).contains x)) (new ++ seen)

theorem rounds_visited : ∀ (n : Nat) (new seen : List Str), rounds isShell calls n new seen = (visited isShell calls n new seen).filter isShell
  | 0, _, _ => rfl
  | n + 1, new, seen => by
    unfold rounds visited
    split
    · rfl
    · dsimp only
      rw [List.filter_append, rounds_visited n]

def next (isShell : Str → Bool) (calls : Str → List Str) (new seen : List Str) : List Str :=
  sortSet (((new.filter isShell).flatMap calls).filter fun x => !(new ++ seen).contains x)

theorem mem_next {new seen : List Str} {x : Str} : x ∈ next isShell calls new seen ↔ (∃ g ∈ new, isShell g = true ∧ x ∈ calls g) ∧ x ∉ new ∧ x ∉ seen := by
  unfold next
  rw [mem_sortSet, List.mem_filter, List.mem_flatMap]
  constructor
  · rintro ⟨⟨g, hg, hx⟩, hc⟩
    have hg := List.mem_filter.1 hg
    have : x ∉ new ++ seen := fun hm => by rw [List.contains_iff_mem.2 hm] at hc; cases hc
    exact ⟨⟨g, hg.1, hg.2, hx⟩, fun hm => this (List.mem_append_left _ hm), fun hm => this (List.mem_append_right _ hm)⟩
  · rintro ⟨⟨g, hg, hs, hx⟩, h1, h2⟩
    refine ⟨⟨g, List.mem_filter.2 ⟨hg, hs⟩, hx⟩, ?_⟩
    have : ¬ x ∈ new ++ seen := fun hm => (List.mem_append.1 hm).elim h1 h2
    rw [Bool.eq_false_iff.2 fun hc => this (List.contains_iff_mem.1 hc)]
    rfl

theorem visited_sound (P : Str → Prop) (hstep : ∀ g x, P g → isShell g = true → x ∈ calls g → P x) :
    ∀ (n : Nat) (new seen : List Str), (∀ x ∈ new, P x) → ∀ x ∈ visited isShell calls n new seen, P x
  | 0, _, _, _, x, hx => by cases hx
  | n + 1, new, seen, h, x, hx => by
    unfold visited at hx
    split at hx
    · cases hx
    · rcases List.mem_append.1 hx with hx | hx
      · exact h x hx
      · refine visited_sound P hstep n _ _ (fun y hy => ?_) x hx
        obtain ⟨⟨g, hg, hs, hy⟩, _⟩ := mem_next.1 hy
        exact hstep g y (h g hg) hs hy

/-- Names that are not seen yet. -/
def unseen (U seen : List Str) : List Str := U.filter fun x => !seen.contains x

theorem unseen_mem {U seen : List Str} {x : Str} : x ∈ unseen U seen ↔ x ∈ U ∧ x ∉ seen := by
  unfold unseen
  rw [List.mem_filter]
  constructor
  · rintro ⟨h1, h2⟩
    exact ⟨h1, fun hm => by rw [List.contains_iff_mem.2 hm] at h2; cases h2⟩
  · rintro ⟨h1, h2⟩
    exact ⟨h1, by rw [Bool.eq_false_iff.2 fun hc => h2 (List.contains_iff_mem.1 hc)]; rfl⟩

theorem unseen_lt {U seen new : List Str} {x : Str} (hx : x ∈ new) (hU : x ∈ U) (hs : x ∉ seen) : (unseen U (new ++ seen)).length < (unseen U seen).length := by
  induction U with
  | nil => cases hU
  | cons u U ih =>
    have hle : (unseen U (new ++ seen)).length ≤ (unseen U seen).length := by
      have : unseen U (new ++ seen) = (unseen U seen).filter fun x => !(new ++ seen).contains x := by
        unfold unseen
        rw [List.filter_filter]
        refine List.filter_congr fun y _ => ?_
        cases h1 : (new ++ seen).contains y with
        | true => rfl
        | false =>
          cases h2 : seen.contains y with
          | false => rfl
          | true =>
            have := List.mem_append_right new (List.contains_iff_mem.1 h2)
            rw [List.contains_iff_mem.2 this] at h1; cases h1
      rw [this]
      exact List.length_filter_le _ _
    have hcons : ∀ (s : List Str), unseen (u :: U) s = if u ∈ s then unseen U s else u :: unseen U s := by
      intro s
      unfold unseen
      by_cases hm : u ∈ s
      · rw [if_pos hm, List.filter_cons_of_neg (by rw [List.contains_iff_mem.2 hm]; decide)]
      · rw [if_neg hm, List.filter_cons_of_pos (by rw [Bool.eq_false_iff.2 fun hc => hm (List.contains_iff_mem.1 hc)]; rfl)]
    rw [hcons, hcons]
    by_cases hux : u = x
    · subst hux
      rw [if_pos (List.mem_append_left _ hx), if_neg hs, List.length_cons]
      omega
    · have ih := ih ((List.mem_cons.1 hU).resolve_left fun e => hux e.symm)
      by_cases h1 : u ∈ seen
      · rw [if_pos (List.mem_append_right _ h1), if_pos h1]; exact ih
      · rw [if_neg h1, List.length_cons]
        split
        · omega
        · rw [List.length_cons]; omega

theorem new_visited {n : Nat} {new seen : List Str} (h : new ≠ [] → 0 < n) {x : Str} (hx : x ∈ new) : x ∈ visited isShell calls n new seen := by
  cases n with
  | zero => exact absurd (h fun e => by rw [e] at hx; cases hx) (Nat.lt_irrefl 0)
  | succ n =>
    unfold visited
    rw [if_neg fun e => by rw [e] at hx; cases hx]
    exact List.mem_append_left _ hx

theorem visited_closed {U : List Str} (hU : ∀ f, ∀ g ∈ calls f, g ∈ U) :
    ∀ (n : Nat) (new seen : List Str), (∀ x ∈ new, x ∈ U ∧ x ∉ seen) → (unseen U seen).length ≤ n →
      ∀ x ∈ visited isShell calls n new seen, isShell x = true → ∀ y ∈ calls x, y ∈ visited isShell calls n new seen ∨ y ∈ seen
  | 0, _, _, _, _, x, hx => by cases hx
  | n + 1, new, seen, hnew, hn, x, hx => by
    intro hs y hy
    unfold visited at hx ⊢
    by_cases he : new = []
    · rw [if_pos he] at hx; cases hx
    · rw [if_neg he] at hx ⊢
      obtain ⟨z, hz⟩ := List.exists_mem_of_ne_nil _ he
      have hlt := unseen_lt (U := U) (seen := seen) hz (hnew z hz).1 (hnew z hz).2
      have hnext : ∀ y ∈ next isShell calls new seen, y ∈ U ∧ y ∉ new ++ seen := fun y hy => by
        obtain ⟨⟨g, _, _, hg⟩, h1, h2⟩ := mem_next.1 hy
        exact ⟨hU g y hg, fun hm => (List.mem_append.1 hm).elim h1 h2⟩
      have hfuel : next isShell calls new seen ≠ [] → 0 < n := fun hne => by
        obtain ⟨w, hw⟩ := List.exists_mem_of_ne_nil _ hne
        have : 0 < (unseen U (new ++ seen)).length := List.length_pos_of_mem (unseen_mem.2 (hnext w hw))
        omega
      rcases List.mem_append.1 hx with hx | hx
      · by_cases h1 : y ∈ new
        · exact .inl (List.mem_append_left _ h1)
        · by_cases h2 : y ∈ seen
          · exact .inr h2
          · exact .inl (List.mem_append_right _ (new_visited hfuel (mem_next.2 ⟨⟨x, hx, hs, hy⟩, h1, h2⟩)))
      · rcases visited_closed hU n (next isShell calls new seen) (new ++ seen) hnext (by omega) x hx hs y hy with h | h
        · exact .inl (List.mem_append_right _ h)
        · rcases List.mem_append.1 h with h | h
          · exact .inl (List.mem_append_left _ h)
          · exact .inr h

/-- C172: the functions of the script of a task are the task and exactly the shell functions that it needs, directly or through
others, however they call each other. -/
theorem functions {U : List Str} (hU : ∀ f, ∀ g ∈ calls f, g ∈ U) {n : Nat} (hn : U.length ≤ n) {f g : Str} :
    g ∈ emitFuncs isShell calls n f ↔ g = f ∨ (isShell g = true ∧ Needs isShell calls f g) := by
  unfold emitFuncs
  rw [List.mem_cons, rounds_visited, List.mem_filter]
  have hlen : (unseen U []).length ≤ n := Nat.le_trans (List.length_filter_le _ _) hn
  have hnew : ∀ x ∈ sortSet (calls f), x ∈ U ∧ x ∉ ([] : List Str) := fun x hx => ⟨hU f x (mem_sortSet.1 hx), fun h => by cases h⟩
  constructor
  · rintro (rfl | ⟨hv, hs⟩)
    · exact .inl rfl
    · refine .inr ⟨hs, visited_sound (Needs isShell calls f) (fun g x hg hs hx => .through hg hs hx) n _ _ (fun x hx => .called (mem_sortSet.1 hx)) g hv⟩
  · rintro (rfl | ⟨hs, hr⟩)
    · exact .inl rfl
    · refine .inr ⟨?_, hs⟩
      clear hs
      induction hr with
      | called hm =>
        refine new_visited (fun hne => ?_) (mem_sortSet.2 hm)
        obtain ⟨w, hw⟩ := List.exists_mem_of_ne_nil _ hne
        have : 0 < U.length := List.length_pos_of_mem (hnew w hw).1
        omega
      | through _ hs hm ih =>
        exact (visited_closed hU n _ [] hnew hlen _ ih hs _ hm).resolve_right fun h => by cases h

/-- C172: none is written twice, but for the task itself if it calls itself. -/
theorem visited_nodup : ∀ (n : Nat) (new seen : List Str), new.Nodup → (∀ x ∈ new, x ∉ seen) → (visited isShell calls n new seen).Nodup ∧ ∀ x ∈ visited isShell calls n new seen, x ∉ seen
  | 0, _, _, _, _ => ⟨List.nodup_nil, fun x hx => by cases hx⟩
  | n + 1, new, seen, hd, hs => by
    unfold visited
    split
    · exact ⟨List.nodup_nil, fun x hx => by cases hx⟩
    · obtain ⟨h1, h2⟩ := visited_nodup n (next isShell calls new seen) (new ++ seen) (sortSet_nodup _) (fun x hx hm => by
        obtain ⟨_, a, b⟩ := mem_next.1 hx
        exact (List.mem_append.1 hm).elim a b)
      refine ⟨List.nodup_append.2 ⟨hd, h1, fun a ha b hb e => h2 b hb (List.mem_append_left _ (e ▸ ha))⟩, fun x hx hm => ?_⟩
      rcases List.mem_append.1 hx with hx | hx
      · exact hs x hx hm
      · exact h2 x hx (List.mem_append_right _ hm)

theorem functions_once (n : Nat) (f : Str) : (emitFuncs isShell calls n f).tail.Nodup := by
  show (rounds isShell calls n (sortSet (calls f)) []).Nodup
  rw [rounds_visited]
  exact (visited_nodup n _ _ (sortSet_nodup _) (fun x _ h => by cases h)).1.filter _

/-- Two functions that call each other, and a python function. -/
def sampleCalls (f : Str) : List Str := if f = "do_x".toList then ["b".toList, "a".toList] else if f = "a".toList then ["c".toList] else if f = "c".toList then ["a".toList, "p".toList, "ls".toList] else []

def sampleShell (f : Str) : Bool := f = "do_x".toList ∨ f = "a".toList ∨ f = "b".toList ∨ f = "c".toList ∨ f = "d".toList

example : emitFuncs sampleShell sampleCalls 6 "do_x".toList = ["do_x".toList, "a".toList, "b".toList, "c".toList] := by decide +kernel

example : "c".toList ∈ emitFuncs sampleShell sampleCalls 5 "do_x".toList :=
  (functions (U := ["a".toList, "b".toList, "c".toList, "p".toList, "ls".toList]) (fun f g hg => by
    unfold sampleCalls at hg
    split at hg
    · revert g; decide
    · split at hg
      · revert g; decide
      · split at hg
        · revert g; decide
        · cases hg) (by decide)).2 (.inr ⟨by decide, .through (.called (g := "a".toList) (by decide)) (by decide) (by decide)⟩)

end Bb.Emit
