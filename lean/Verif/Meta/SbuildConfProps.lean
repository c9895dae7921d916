import Verif.Meta.SbuildConfSpec
/-!
# Exported variables reach the build
-/

namespace Meta.SbuildConf
open Py

/-! ## The lines -/

theorem Name.first {n : Str} (h : Name n) : ∃ c r, n = c :: r ∧ (c.isAlphanum = true ∨ c = '_') := by
  cases n with
  | nil => exact absurd rfl h.1
  | cons c r => exact ⟨c, r, rfl, h.2 c List.mem_cons_self⟩

theorem Name.not_mem {n : Str} (h : Name n) {c : Char} (hc : c.isAlphanum = false) (hu : c ≠ '_') : c ∉ n := fun hm => by
  rcases h.2 c hm with h1 | h1
  · rw [hc] at h1; cases h1
  · exact hu h1

theorem startsWith_ne {c d : Char} (l p : Str) (h : d ≠ c) : startsWith (c :: l) (d :: p) = false := by
  have : (d == c) = false := beq_eq_false_iff_ne.2 h
  show (d == c && _) = false
  rw [this]; rfl

theorem startsWith_cons (c : Char) (l p : Str) : startsWith (c :: l) (c :: p) = startsWith l p := by
  show (c == c && _) = _
  rw [beq_self_eq_true]; rfl

/-- Text up to a character that is not in the names. -/
theorem until_inj {a b x y : Str} {c : Char} (ha : c ∉ a) (hb : c ∉ b) (h : a ++ c :: x = b ++ c :: y) : a = b ∧ x = y := by
  induction a generalizing b with
  | nil =>
    cases b with
    | nil => exact ⟨rfl, by simpa using h⟩
    | cons d b =>
      rw [List.nil_append, List.cons_append] at h
      injection h with h1 h2
      exact absurd (h1 ▸ List.mem_cons_self) hb
  | cons d a ih =>
    cases b with
    | nil =>
      rw [List.nil_append, List.cons_append] at h
      injection h with h1 h2
      exact absurd (h1 ▸ List.mem_cons_self) ha
    | cons e b =>
      rw [List.cons_append, List.cons_append] at h
      injection h with h1 h2
      obtain ⟨h3, h4⟩ := ih (fun h' => ha (List.mem_cons_of_mem _ h')) (fun h' => hb (List.mem_cons_of_mem _ h')) h2
      exact ⟨by rw [h1, h3], h4⟩

theorem entry_eq (k v : Str) :
    entry k v = '\'' :: (k ++ ('\'' :: (" => ".toList ++ '\'' :: (v ++ "',".toList)))) := by
  unfold entry
  simp only [List.cons_append, List.append_assoc]
  rfl

/-- The expression of `sbuild_export` finds the lines of this variable and no others. -/
theorem drop_entry {k var : Str} (v : Str) (hk : Name k) (hv : Name var) :
    startsWith (entry k v) ('\'' :: var ++ "' =>".toList) = decide (k = var) := by
  by_cases h : k = var
  · subst h
    rw [decide_eq_true rfl, startsWith_iff]
    refine ⟨" '".toList ++ v ++ "',".toList, ?_⟩
    rw [entry_eq]
    simp only [List.cons_append, List.append_assoc]
    rfl
  · rw [decide_eq_false h]
    by_cases hs : startsWith (entry k v) ('\'' :: var ++ "' =>".toList) = true
    · obtain ⟨t, ht⟩ := startsWith_iff.1 hs
      rw [entry_eq, List.cons_append, List.cons_append] at ht
      injection ht with _ ht
      rw [List.append_assoc] at ht
      exact absurd (until_inj (c := '\'') (hk.not_mem (by decide) (by decide)) (hv.not_mem (by decide) (by decide)) ht).1 h
    · rwa [Bool.not_eq_true] at hs

/-- Whether a quote is followed by a caret. -/
def qc : Str → Bool
  | [] => false
  | [_] => false
  | a :: b :: l => (a == '\'' && b == '^') || qc (b :: l)

theorem qc_skip {a b : Str} (h : '\'' ∉ a) : qc (a ++ b) = qc b := by
  induction a with
  | nil => rfl
  | cons c a ih =>
    have hc : c ≠ '\'' := fun h' => h (h' ▸ List.mem_cons_self)
    have ih := ih fun h' => h (List.mem_cons_of_mem _ h')
    rw [List.cons_append]
    cases hl : a ++ b with
    | nil =>
      rw [hl] at ih
      rw [← ih]; rfl
    | cons d l =>
      rw [hl] at ih
      show (c == '\'' && d == '^' || qc (d :: l)) = _
      rw [ih, beq_eq_false_iff_ne.2 hc, Bool.false_and, Bool.false_or]

theorem qc_cons {a : Char} {b : Str} (h : qc b = true) : qc (a :: b) = true := by
  cases b with
  | nil => cases h
  | cons c b => unfold qc; rw [h, Bool.or_true]

theorem qc_of_sub {f s : Str} (h : isSub (quoted f) s = true) : qc s = true := by
  obtain ⟨a, b, rfl⟩ := isSub_iff.1 h
  unfold quoted
  induction a with
  | nil => rfl
  | cons c a ih => exact qc_cons (ih (isSub_iff.2 ⟨a, b, rfl⟩))

theorem qc_entry {k v : Str} (hk : Name k) (hv : Plain v) : qc (entry k v) = false := by
  have hlast : qc ('\'' :: (v ++ "',".toList)) = false := by
    cases hc : v with
    | nil => rfl
    | cons c r =>
      have : c ≠ '^' := fun h' => hv.caret (by rw [hc, h']; rfl)
      have h2 : qc (c :: r ++ "',".toList) = false := by
        rw [← hc, qc_skip hv.quote]; rfl
      show (('\'' == '\'') && (c == '^') || qc (c :: r ++ "',".toList)) = false
      rw [h2, beq_eq_false_iff_ne.2 this]; rfl
  obtain ⟨c, r, h1, h2⟩ := hk.first
  have hcc : c ≠ '^' := by
    rintro rfl
    rcases h2 with h2 | h2
    · revert h2; decide
    · revert h2; decide
  have e := entry_eq k v
  have h3 : qc (k ++ ('\'' :: (" => ".toList ++ '\'' :: (v ++ "',".toList)))) = false := by
    rw [qc_skip (hk.not_mem (by decide) (by decide))]
    have : qc (" => ".toList ++ '\'' :: (v ++ "',".toList)) = false := by
      rw [qc_skip (by decide)]; exact hlast
    show (('\'' == '\'') && (' ' == '^') || qc (" => ".toList ++ '\'' :: (v ++ "',".toList))) = false
    rw [this]; rfl
  rw [e]
  rw [h1] at h3 ⊢
  show (('\'' == '\'') && (c == '^') || qc (c :: r ++ _)) = false
  rw [h3, beq_eq_false_iff_ne.2 hcc]; rfl

/-- The expression of `sbuild_add_env_filter` finds no variables, ... -/
theorem filter_entry {k v f : Str} (hk : Name k) (hv : Plain v) : isSub (quoted f) (entry k v) = false := by
  by_cases h : isSub (quoted f) (entry k v) = true
  · have := qc_of_sub h
    rw [qc_entry hk hv] at this; cases this
  · rwa [Bool.not_eq_true] at h

/-- The line of an expression. -/
def qline (f : Str) : Str := quoted f ++ "',".toList

/-- ... and of the expressions only its own. -/
theorem filter_qline {f g : Str} (hf : Name f) (hg : Name g) : isSub (quoted f) (qline g) = decide (g = f) := by
  by_cases h : g = f
  · subst h
    rw [decide_eq_true rfl, isSub_iff]
    exact ⟨[], "',".toList, rfl⟩
  · rw [decide_eq_false h]
    by_cases hs : isSub (quoted f) (qline g) = true
    · obtain ⟨a, b, he⟩ := isSub_iff.1 hs
      have e : qline g = '\'' :: '^' :: (g ++ '$' :: "',".toList) := by
        unfold qline quoted
        rw [List.cons_append, List.cons_append, List.cons_append, List.cons_append, List.append_assoc]; rfl
      have e2 : a ++ quoted f ++ b = a ++ '\'' :: '^' :: (f ++ '$' :: b) := by
        unfold quoted
        rw [List.append_assoc, List.cons_append, List.cons_append, List.cons_append, List.cons_append, List.append_assoc]; rfl
      rw [e, e2] at he
      cases a with
      | nil =>
        rw [List.nil_append] at he
        injection he with _ he
        injection he with _ he
        exact absurd (until_inj (hg.not_mem (by decide) (by decide)) (hf.not_mem (by decide) (by decide)) he).1 h
      | cons c a =>
        rw [List.cons_append] at he
        injection he with _ he
        have hq : qc ('^' :: (g ++ '$' :: "',".toList)) = true := by
          rw [he]
          exact qc_of_sub (f := f) (isSub_iff.2 ⟨a, b, by
            unfold quoted
            rw [List.append_assoc, List.cons_append, List.cons_append, List.cons_append, List.cons_append,
              List.append_assoc]; rfl⟩)
        have hq2 : qc (('^' :: g ++ ['$']) ++ "',".toList) = true := by
          rw [← hq]
          rw [List.append_assoc]; rfl
        rw [qc_skip] at hq2
        · cases hq2
        · intro hm
          rw [List.mem_append, List.mem_cons] at hm
          rcases hm with (hm | hm) | hm
          · revert hm; decide
          · exact hg.not_mem (by decide) (by decide) hm
          · revert hm; decide
    · rwa [Bool.not_eq_true] at hs

/-! ## The file -/

/-- The block of variables, with any number of them. -/
def hash' (l : List (Str × Str)) : List Str := envHead :: l.map (fun e => entry e.1 e.2) ++ ["};".toList]

/-- The block of expressions. -/
def array' (l : List Str) : List Str := filterHead :: l.map qline ++ ["];".toList]

theorem hash_eq (l : List (Str × Str)) : hash l = if l = [] then [] else hash' l := by
  cases l with
  | nil => rfl
  | cons a l => rw [if_neg (List.cons_ne_nil a l)]; rfl

theorem array_eq (l : List Str) : array l = array' l := by
  unfold array array'
  congr 2
  refine List.map_congr_left fun f _ => ?_
  unfold qline quoted
  simp only [List.cons_append, List.append_assoc]
  rfl

theorem sed_append (drop : Str → Bool) (head text : Str) (a b : List Str) :
    sed drop head text (a ++ b) = sed drop head text a ++ sed drop head text b := List.flatMap_append

theorem sed_line {drop : Str → Bool} {head text l : Str} (h1 : drop l = false) (h2 : startsWith l head = false) (r : List Str) :
    sed drop head text (l :: r) = l :: sed drop head text r := by
  unfold sed
  rw [List.flatMap_cons, if_neg (by rw [h1]; exact Bool.false_ne_true), if_neg (by rw [h2]; exact Bool.false_ne_true)]
  rfl

/-- One pass of `sbuild_export`. -/
def pass (var val : Str) : List Str → List Str :=
  sed (fun l => startsWith l ('\'' :: var ++ "' =>".toList)) "$build_environment =".toList (entry var val)

theorem pass_entries {var val : Str} (hv : Name var) : ∀ l : List (Str × Str), (∀ e, e ∈ l → Name e.1) →
    pass var val (l.map fun e => entry e.1 e.2) = (l.filter fun e => decide (e.1 ≠ var)).map fun e => entry e.1 e.2
  | [], _ => rfl
  | e :: l, h => by
    have ih := pass_entries (val := val) hv l fun x hx => h x (List.mem_cons_of_mem _ hx)
    have hd := drop_entry e.2 (h e List.mem_cons_self) hv
    unfold pass sed at ih ⊢
    rw [List.map_cons, List.flatMap_cons, ih]
    show (if startsWith (entry e.1 e.2) ('\'' :: var ++ "' =>".toList) = true then _ else _) ++ _ = _
    rw [hd, List.filter_cons]
    by_cases hc : e.1 = var
    · rw [if_pos (decide_eq_true hc), if_neg (by rw [decide_eq_true_iff]; exact fun h => h hc)]; rfl
    · rw [if_neg (by rw [decide_eq_true_iff]; exact hc), if_pos (decide_eq_true hc), if_neg]
      · rfl
      · rw [show startsWith (entry e.1 e.2) "$build_environment =".toList = false from startsWith_ne _ _ (by decide)]
        exact Bool.false_ne_true

/-- The variables after one is set. -/
def put (l : List (Str × Str)) (var val : Str) : List (Str × Str) := (var, val) :: l.filter fun e => decide (e.1 ≠ var)

theorem pass_hash {var val : Str} (hv : Name var) (l : List (Str × Str)) (h : ∀ e, e ∈ l → Name e.1) :
    pass var val (hash' l) = hash' (put l var val) := by
  have e1 : hash' l = [envHead] ++ l.map (fun e => entry e.1 e.2) ++ ["};".toList] := rfl
  have e2 : pass var val [envHead] = [envHead, entry var val] := by
    unfold pass sed
    rw [List.flatMap_cons, if_neg, if_pos]
    · rfl
    · decide
    · show ¬ startsWith envHead ('\'' :: var ++ "' =>".toList) = true
      rw [show startsWith envHead ('\'' :: var ++ "' =>".toList) = false from startsWith_ne _ _ (by decide)]
      exact Bool.false_ne_true
  have e3 : pass var val ["};".toList] = ["};".toList] := by
    refine sed_line (r := []) ?_ ?_
    · exact startsWith_ne _ _ (by decide)
    · decide
  rw [e1]
  unfold pass at e2 e3 ⊢
  rw [sed_append, sed_append, e2, e3]
  have := pass_entries (val := val) hv l h
  unfold pass at this
  rw [this]
  rfl

theorem pass_qlines {var val : Str} (hv : Name var) : ∀ fs : List Str, pass var val (fs.map qline) = fs.map qline
  | [] => rfl
  | f :: fs => by
    have ih := pass_qlines (val := val) hv fs
    unfold pass at ih ⊢
    rw [List.map_cons, sed_line, ih]
    · obtain ⟨c, r, h1, h2⟩ := hv.first
      have hcc : c ≠ '^' := by
        rintro rfl
        rcases h2 with h2 | h2
        · revert h2; decide
        · revert h2; decide
      rw [h1]
      show startsWith ('\'' :: ('^' :: f ++ ['$'] ++ "',".toList)) ('\'' :: (c :: (r ++ "' =>".toList))) = false
      rw [startsWith_cons]
      exact startsWith_ne _ _ hcc
    · exact startsWith_ne _ _ (by decide)

theorem pass_array {var val : Str} (hv : Name var) (fs : List Str) : pass var val (array' fs) = array' fs := by
  have e1 : array' fs = [filterHead] ++ fs.map qline ++ ["];".toList] := rfl
  have e2 : pass var val [filterHead] = [filterHead] := by
    refine sed_line (r := []) ?_ ?_
    · exact startsWith_ne _ _ (by decide)
    · decide
  have e3 : pass var val ["];".toList] = ["];".toList] := by
    refine sed_line (r := []) ?_ ?_
    · exact startsWith_ne _ _ (by decide)
    · decide
  rw [e1]
  have := pass_qlines (val := val) hv fs
  unfold pass at e2 e3 this ⊢
  rw [sed_append, sed_append, e2, e3, this]

/-- One pass of `sbuild_add_env_filter`. -/
def fpass (f : Str) : List Str → List Str := sed (isSub (quoted f)) "$environment_filter =".toList (qline f)

theorem fpass_hash {f : Str} (l : List (Str × Str)) (h : ∀ e, e ∈ l → Name e.1 ∧ Plain e.2) :
    fpass f (hash' l) = hash' l := by
  have hno : ∀ s, qc s = false → isSub (quoted f) s = false := fun s hs => by
    by_cases h : isSub (quoted f) s = true
    · rw [qc_of_sub h] at hs; cases hs
    · rwa [Bool.not_eq_true] at h
  have e1 : hash' l = [envHead] ++ l.map (fun e => entry e.1 e.2) ++ ["};".toList] := rfl
  have e2 : fpass f [envHead] = [envHead] := sed_line (r := []) (hno _ (by decide)) (by decide)
  have e3 : fpass f ["};".toList] = ["};".toList] := sed_line (r := []) (hno _ (by decide)) (by decide)
  have e4 : ∀ l : List (Str × Str), (∀ e, e ∈ l → Name e.1 ∧ Plain e.2) →
      fpass f (l.map fun e => entry e.1 e.2) = l.map fun e => entry e.1 e.2 := by
    intro l
    induction l with
    | nil => intro _; rfl
    | cons e l ih =>
      intro h
      have ih := ih fun x hx => h x (List.mem_cons_of_mem _ hx)
      have he := h e List.mem_cons_self
      unfold fpass at ih ⊢
      rw [List.map_cons, sed_line (filter_entry he.1 he.2), ih]
      exact startsWith_ne _ _ (by decide)
  rw [e1]
  have e4 := e4 l h
  unfold fpass at e2 e3 e4 ⊢
  rw [sed_append, sed_append, e2, e3, e4]

theorem fpass_array {f : Str} (hf : Name f) (fs : List Str) (h : ∀ g, g ∈ fs → Name g) :
    fpass f (array' fs) = array' (f :: fs.filter fun g => decide (g ≠ f)) := by
  have hno : ∀ s, qc s = false → isSub (quoted f) s = false := fun s hs => by
    by_cases h : isSub (quoted f) s = true
    · rw [qc_of_sub h] at hs; cases hs
    · rwa [Bool.not_eq_true] at h
  have e1 : array' fs = [filterHead] ++ fs.map qline ++ ["];".toList] := rfl
  have e2 : fpass f [filterHead] = [filterHead, qline f] := by
    unfold fpass sed
    rw [List.flatMap_cons, if_neg, if_pos]
    · rfl
    · decide
    · rw [hno _ (by decide)]; exact Bool.false_ne_true
  have e3 : fpass f ["];".toList] = ["];".toList] := sed_line (r := []) (hno _ (by decide)) (by decide)
  have e4 : ∀ l : List Str, (∀ g, g ∈ l → Name g) →
      fpass f (l.map qline) = (l.filter fun g => decide (g ≠ f)).map qline := by
    intro l
    induction l with
    | nil => intro _; rfl
    | cons g l ih =>
      intro h
      have ih := ih fun x hx => h x (List.mem_cons_of_mem _ hx)
      have hg := filter_qline hf (h g List.mem_cons_self)
      unfold fpass sed at ih ⊢
      rw [List.map_cons, List.flatMap_cons, ih, hg, List.filter_cons]
      by_cases hc : g = f
      · rw [if_pos (decide_eq_true hc), if_neg (by rw [decide_eq_true_iff]; exact fun h => h hc)]; rfl
      · rw [if_neg (by rw [decide_eq_true_iff]; exact hc), if_pos (decide_eq_true hc), if_neg]
        · rfl
        · rw [show startsWith (qline g) "$environment_filter =".toList = false from startsWith_ne _ _ (by decide)]
          exact Bool.false_ne_true
  rw [e1]
  have e4 := e4 fs h
  unfold fpass at e2 e3 e4 ⊢
  rw [sed_append, sed_append, e2, e3, e4]
  rfl

/-! ## Histories -/

/-- The contents of the file: the variables, the expressions, and whether the variables come first. -/
structure Abs where
  vars : List (Str × Str)
  fs : Option (List Str)
  first : Bool

def arr : Option (List Str) → List Str
  | none => []
  | some fs => array' fs

def render (a : Abs) : List Str := if a.first then hash a.vars ++ arr a.fs else arr a.fs ++ hash a.vars

structure Good (a : Abs) : Prop where
  vars : ∀ e, e ∈ a.vars → Name e.1 ∧ Plain e.2
  fs : ∀ l, a.fs = some l → ∀ f, f ∈ l → Name f
  /-- without expressions the variables come first, without variables the expressions do -/
  order : (a.fs = none → a.first = true) ∧ (a.fs ≠ none → a.vars = [] → a.first = false)

theorem any_hash (l : List (Str × Str)) : ((hash' l).any fun x => startsWith x "$build_environment =".toList) = true :=
  List.any_eq_true.2 ⟨envHead, List.mem_cons_self, by decide⟩

theorem any_array (l : List Str) : ((array' l).any fun x => startsWith x "$environment_filter =".toList) = true :=
  List.any_eq_true.2 ⟨filterHead, List.mem_cons_self, by decide⟩

theorem not_any_hash (l : List (Str × Str)) : ((hash l).any fun x => startsWith x "$environment_filter =".toList) = false := by
  rw [List.any_eq_false]
  intro x hx
  rw [hash_eq] at hx
  split at hx
  · cases hx
  · unfold hash' at hx
    rw [List.mem_append, List.mem_cons, List.mem_map, List.mem_singleton] at hx
    rcases hx with (rfl | ⟨e, _, rfl⟩) | rfl
    · decide
    · rw [show startsWith (entry e.1 e.2) "$environment_filter =".toList = false from startsWith_ne _ _ (by decide)]
      exact Bool.false_ne_true
    · decide

theorem not_any_array (l : Option (List Str)) : ((arr l).any fun x => startsWith x "$build_environment =".toList) = false := by
  rw [List.any_eq_false]
  intro x hx
  cases l with
  | none => cases hx
  | some l =>
    replace hx : x ∈ array' l := hx
    unfold array' at hx
    rw [List.mem_append, List.mem_cons, List.mem_map, List.mem_singleton] at hx
    rcases hx with (rfl | ⟨e, _, rfl⟩) | rfl
    · decide
    · rw [show startsWith (qline e) "$build_environment =".toList = false from startsWith_ne _ _ (by decide)]
      exact Bool.false_ne_true
    · decide

theorem pass_arr {var val : Str} (hv : Name var) (fs : Option (List Str)) : pass var val (arr fs) = arr fs := by
  cases fs with
  | none => rfl
  | some fs => exact pass_array hv fs

theorem put_put {l : List (Str × Str)} {var val : Str} : put (put l var val) var val = put l var val := by
  unfold put
  rw [List.filter_cons, if_neg (by rw [decide_eq_true_iff]; exact fun h => h rfl), List.filter_filter]
  congr 2
  funext e
  rw [Bool.and_self]

theorem mem_put {l : List (Str × Str)} {var val : Str} {e : Str × Str} (h : e ∈ put l var val) : e = (var, val) ∨ e ∈ l :=
  (List.mem_cons.1 h).imp id fun h => (List.mem_filter.1 h).1

theorem not_mem_entry {var val : Str} {c : Char} (hn : Name var) (hc : c.isAlphanum = false ∧ c ≠ '_') (hv : c ∉ val)
    (h1 : c ∉ "' => '".toList) (h2 : c ∉ "',".toList) (h3 : c ≠ '\'') : c ∉ entry var val := by
  unfold entry
  rw [List.mem_append, List.mem_append, List.mem_append, List.mem_cons]
  rintro ((((h | h) | h) | h) | h)
  · exact h3 h
  · exact hn.not_mem hc.1 hc.2 h
  · exact h1 h
  · exact hv h
  · exact h2 h

theorem sed_entry {sedText : Str → Str} (hs : Sed sedText) {var val : Str} (hn : Name var) (hv : Plain val) :
    sedText (entry var val) = entry var val :=
  hs _ (not_mem_entry hn ⟨by decide, by decide⟩ hv.slash (by decide) (by decide) (by decide))
    (not_mem_entry hn ⟨by decide, by decide⟩ hv.line (by decide) (by decide) (by decide))

/-- The variables come first if they were there, or if there is nothing else. -/
def Abs.put (a : Abs) (var val : Str) : Abs := { a with vars := SbuildConf.put a.vars var val }

theorem export_render {sedText : Str → Str} (hs : Sed sedText) {a : Abs} (h : Good a) {var val : Str} (hn : Name var)
    (hv : Plain val) : exportVar sedText (render a) var val = render (a.put var val) ∧ Good (a.put var val) := by
  have hnames : ∀ e, e ∈ a.vars → Name e.1 := fun e he => (h.vars e he).1
  have hnames2 : ∀ e, e ∈ put a.vars var val → Name e.1 := fun e he => by
    rcases mem_put he with rfl | he
    · exact hn
    · exact hnames e he
  have hb : block "$build_environment =".toList envHead "};".toList (render a) =
      if a.first then hash' a.vars ++ arr a.fs else arr a.fs ++ hash' a.vars := by
    unfold block render
    by_cases hv : a.vars = []
    · have h0 : hash a.vars = [] := by rw [hv]; rfl
      have h1 : hash' a.vars = [envHead, "};".toList] := by rw [hv]; rfl
      rw [h0, h1, List.append_nil, List.nil_append, ite_self, if_neg (by rw [not_any_array]; exact Bool.false_ne_true)]
      by_cases hf : a.fs = none
      · rw [hf, if_pos (h.order.1 hf)]; rfl
      · rw [if_neg (by rw [h.order.2 hf hv]; exact Bool.false_ne_true)]
    · rw [hash_eq, if_neg hv]
      rw [if_pos]
      split
      · rw [List.any_append, any_hash]; rfl
      · rw [List.any_append, any_hash, Bool.or_true]
  refine ⟨?_, ⟨fun e he => ?_, h.fs, h.order.1, fun _ h2 => (List.cons_ne_nil _ _ h2).elim⟩⟩
  · have e1 : exportVar sedText (render a) var val =
        pass var val (pass var val (block "$build_environment =".toList envHead "};".toList (render a))) := by
      unfold exportVar pass
      rw [sed_entry hs hn hv]
    rw [e1, hb]
    have hne : hash (put a.vars var val) = hash' (put a.vars var val) := by
      rw [hash_eq, if_neg]; exact List.cons_ne_nil _ _
    have hp : ∀ x y : List Str, pass var val (x ++ y) = pass var val x ++ pass var val y := sed_append _ _ _
    unfold render Abs.put
    show _ = if a.first then hash (put a.vars var val) ++ arr a.fs else arr a.fs ++ hash (put a.vars var val)
    rw [hne]
    split
    · rw [hp, pass_hash hn _ hnames, pass_arr hn, hp, pass_hash hn _ hnames2, pass_arr hn, put_put]
    · rw [hp, pass_hash hn _ hnames, pass_arr hn, hp, pass_hash hn _ hnames2, pass_arr hn, put_put]
  · rcases mem_put he with rfl | he
    · exact ⟨hn, hv⟩
    · exact h.vars e he

/-- The expressions after one is added. -/
def Abs.addf (a : Abs) (f : Str) : Abs :=
  { a with fs := some (f :: (a.fs.getD []).filter fun g => decide (g ≠ f)), first := if a.fs = none then a.vars ≠ [] else a.first }

theorem sed_qline {sedText : Str → Str} (hs : Sed sedText) {f : Str} (hn : Name f) :
    sedText (quoted f ++ "',".toList) = qline f := by
  have : ∀ c : Char, c.isAlphanum = false → c ≠ '_' → c ∉ ['\'', '^', '$', ','] → c ∉ quoted f ++ "',".toList := by
    intro c h1 h2 h3 h4
    unfold quoted at h4
    rw [List.mem_append, List.mem_append, List.mem_cons, List.mem_cons] at h4
    rcases h4 with ((h | h | h) | h) | h
    · subst h; exact h3 (by decide)
    · subst h; exact h3 (by decide)
    · exact hn.not_mem h1 h2 h
    · rw [List.mem_singleton] at h; subst h; exact h3 (by decide)
    · have h : c ∈ ['\'', ','] := h
      rw [List.mem_cons, List.mem_singleton] at h
      rcases h with h | h
      · subst h; exact h3 (by decide)
      · subst h; exact h3 (by decide)
  exact hs _ (this _ (by decide) (by decide) (by decide)) (this _ (by decide) (by decide) (by decide))

theorem filter_render {sedText : Str → Str} (hs : Sed sedText) {a : Abs} (h : Good a) {f : Str} (hn : Name f) :
    addFilter sedText (render a) f = render (a.addf f) ∧ Good (a.addf f) := by
  have hfp : ∀ x y : List Str, fpass f (x ++ y) = fpass f x ++ fpass f y := sed_append _ _ _
  have hhash : fpass f (hash a.vars) = hash a.vars := by
    rw [hash_eq]
    split
    · rfl
    · exact fpass_hash _ h.vars
  have e1 : addFilter sedText (render a) f = fpass f (block "$environment_filter =".toList filterHead "];".toList (render a)) := by
    unfold addFilter fpass
    rw [sed_qline hs hn]
  rw [e1]
  cases hf : a.fs with
  | none =>
    have hr : render a = hash a.vars := by
      unfold render
      rw [hf, if_pos (h.order.1 hf)]
      exact List.append_nil _
    have hb : block "$environment_filter =".toList filterHead "];".toList (render a) = hash a.vars ++ array' [] := by
      unfold block
      rw [hr, if_neg (by rw [not_any_hash]; exact Bool.false_ne_true)]; rfl
    refine ⟨?_, ⟨h.vars, fun l hl g hg => ?_, fun h2 => (nomatch h2), fun _ h3 => ?_⟩⟩
    · rw [hb, hfp, hhash, fpass_array hn [] nofun]
      unfold render Abs.addf
      rw [hf]
      by_cases hv : a.vars = []
      · have : hash a.vars = [] := by rw [hv]; rfl
        show _ = if (if (none : Option (List Str)) = none then decide (a.vars ≠ []) else a.first) = true then
          hash a.vars ++ array' [f] else array' [f] ++ hash a.vars
        rw [this, List.append_nil, List.nil_append, List.nil_append, ite_self]; rfl
      · show _ = if (if (none : Option (List Str)) = none then decide (a.vars ≠ []) else a.first) = true then
          hash a.vars ++ array' [f] else array' [f] ++ hash a.vars
        rw [if_pos rfl, if_pos (decide_eq_true hv)]; rfl
    · have hl : some (f :: ((a.fs.getD []).filter fun g => decide (g ≠ f))) = some l := hl
      rw [hf] at hl
      injection hl with hl
      subst hl
      rw [List.mem_cons] at hg
      rcases hg with rfl | hg
      · exact hn
      · cases hg
    · show (if a.fs = none then decide (a.vars ≠ []) else a.first) = false
      rw [if_pos hf]
      exact decide_eq_false fun h4 => h4 h3
  | some fs =>
    have hb : block "$environment_filter =".toList filterHead "];".toList (render a) = render a := by
      unfold block
      rw [if_pos]
      unfold render
      rw [hf]
      split
      · rw [List.any_append, show arr (some fs) = array' fs from rfl, any_array, Bool.or_true]
      · rw [List.any_append, show arr (some fs) = array' fs from rfl, any_array]; rfl
    have hne : a.fs ≠ none := by rw [hf]; exact nofun
    refine ⟨?_, ⟨h.vars, fun l hl g hg => ?_, fun h2 => (nomatch h2), fun _ h3 => ?_⟩⟩
    · rw [hb]
      unfold render Abs.addf
      rw [if_neg hne, hf]
      show _ = if a.first then hash a.vars ++ array' _ else array' _ ++ hash a.vars
      split
      · rw [hfp, hhash, show arr (some fs) = array' fs from rfl, fpass_array hn fs (h.fs fs hf)]; rfl
      · rw [hfp, hhash, show arr (some fs) = array' fs from rfl, fpass_array hn fs (h.fs fs hf)]; rfl
    · have hl : some (f :: ((a.fs.getD []).filter fun g => decide (g ≠ f))) = some l := hl
      rw [hf] at hl
      injection hl with hl
      subst hl
      rw [List.mem_cons] at hg
      rcases hg with rfl | hg
      · exact hn
      · exact h.fs fs hf g (List.mem_filter.1 hg).1
    · show (if a.fs = none then decide (a.vars ≠ []) else a.first) = false
      rw [if_neg hne]
      exact h.order.2 hne h3

/-! ## Reading the environment -/

theorem name_ne_blank {n : Str} (h : Name n) : ∃ c r, n = c :: r ∧ blank c = false := by
  obtain ⟨c, r, h1, h2⟩ := h.first
  refine ⟨c, r, h1, ?_⟩
  by_cases hb : blank c = true
  · unfold blank at hb
    rw [Bool.or_eq_true, beq_iff_eq, beq_iff_eq] at hb
    rcases hb with rfl | rfl
    · rcases h2 with h2 | h2 <;> · revert h2; decide
    · rcases h2 with h2 | h2 <;> · revert h2; decide
  · rwa [Bool.not_eq_true] at hb

theorem dropWhile_id {p : Char → Bool} {l : Str} (h : ∀ c, l.head? = some c → p c = false) : l.dropWhile p = l := by
  cases l with
  | nil => rfl
  | cons c l => rw [List.dropWhile_cons, if_neg (by rw [h c rfl]; exact Bool.false_ne_true)]

theorem read_line {n v : Str} (hn : Name n) (hv : Plain v) : readLine (line (n, v)) = line (n, v) := by
  obtain ⟨c, r, h1, h2⟩ := name_ne_blank hn
  have e1 : (line (n, v)).dropWhile blank = line (n, v) := dropWhile_id fun d hd => by
    unfold line at hd
    rw [h1] at hd
    have : some c = some d := hd
    injection this with this
    rw [← this]; exact h2
  have e2 : (line (n, v)).reverse.dropWhile blank = (line (n, v)).reverse := dropWhile_id fun d hd => by
    rw [List.head?_reverse] at hd
    unfold line at hd
    by_cases hc : v = []
    · subst hc
      rw [List.append_nil, List.getLast?_append] at hd
      have : some '=' = some d := hd
      injection this with this
      rw [← this]; rfl
    · rw [List.getLast?_append, List.getLast?_eq_some_getLast hc, Option.some_or, ← List.getLast?_eq_some_getLast hc] at hd
      obtain ⟨h3, h4⟩ := hv.blank d hd
      unfold blank
      rw [beq_eq_false_iff_ne.2 h3, beq_eq_false_iff_ne.2 h4]; rfl
  unfold readLine
  rw [e1, e2, List.reverse_reverse]

theorem takeWhile_eq {a b : Str} (h : '=' ∉ a) : (a ++ '=' :: b).takeWhile (· ≠ '=') = a ∧
    (a ++ '=' :: b).dropWhile (· ≠ '=') = '=' :: b := by
  induction a with
  | nil => exact ⟨rfl, rfl⟩
  | cons c a ih =>
    obtain ⟨h1, h2⟩ := ih fun h' => h (List.mem_cons_of_mem _ h')
    have hc : decide (c ≠ '=') = true := decide_eq_true fun h' => h (h' ▸ List.mem_cons_self)
    rw [List.cons_append, List.takeWhile_cons, List.dropWhile_cons, if_pos hc, if_pos hc, h1, h2]
    exact ⟨rfl, rfl⟩

theorem line_eq (n v : Str) : line (n, v) = n ++ '=' :: v := by
  unfold line
  rw [List.append_assoc]; rfl

theorem cut_line {n v : Str} (hn : Name n) : cutName (line (n, v)) = n ∧ cutValue (line (n, v)) = v := by
  have h : '=' ∉ n := hn.not_mem (by decide) (by decide)
  unfold cutName cutValue
  rw [line_eq, if_pos (List.mem_append_right _ List.mem_cons_self), (takeWhile_eq h).1, (takeWhile_eq h).2]
  exact ⟨rfl, rfl⟩

theorem starts_line {n v m : Str} (hn : '=' ∉ n) (hm : '=' ∉ m) : startsWith (line (n, v)) (m ++ ['=']) = decide (n = m) := by
  rw [line_eq]
  by_cases h : n = m
  · subst h
    rw [decide_eq_true rfl, startsWith_iff]
    exact ⟨v, by rw [List.append_assoc]; rfl⟩
  · rw [decide_eq_false h]
    by_cases hs : startsWith (n ++ '=' :: v) (m ++ ['=']) = true
    · obtain ⟨t, ht⟩ := startsWith_iff.1 hs
      rw [List.append_assoc] at ht
      exact absurd (until_inj hn hm ht).1 h
    · rwa [Bool.not_eq_true] at hs

/-- Whether a variable of the environment is exported. -/
def Kept (grep : Str → Str → Bool) (ref : List Str) (e : Str × Str) : Prop :=
  ¬ Host e.1 ∧ ∀ l, l ∈ ref → grep (line e) l = false

theorem envLine_cases (sedText : Str → Str) (grep : Str → Str → Bool) (ref file : List Str) {e : Str × Str} (hn : Name e.1)
    (hv : Plain e.2) :
    (Kept grep ref e ∧ envLine sedText grep ref file (line e) = exportVar sedText file e.1 e.2) ∨
    (¬ Kept grep ref e ∧ envLine sedText grep ref file (line e) = file) := by
  obtain ⟨n, v⟩ := e
  have hq : '=' ∉ n := hn.not_mem (by decide) (by decide)
  unfold envLine
  rw [read_line hn hv, (cut_line hn).1, (cut_line hn).2]
  have s1 : startsWith (line (n, v)) "HOME=".toList = decide (n = "HOME".toList) := starts_line (m := "HOME".toList) hq (by decide)
  have s2 : startsWith (line (n, v)) "PWD=".toList = decide (n = "PWD".toList) := starts_line (m := "PWD".toList) hq (by decide)
  have s3 : startsWith (line (n, v)) "SOURCE_DATE_EPOCH=".toList = decide (n = "SOURCE_DATE_EPOCH".toList) :=
    starts_line (m := "SOURCE_DATE_EPOCH".toList) hq (by decide)
  rw [s1, s2, s3]
  by_cases hr : ref.any (grep (line (n, v))) = true
  · rw [if_pos hr]
    refine Or.inr ⟨fun hk => ?_, rfl⟩
    obtain ⟨l, hl, hg⟩ := List.any_eq_true.1 hr
    rw [hk.2 l hl] at hg; cases hg
  · rw [if_neg hr]
    by_cases h1 : n = "HOME".toList
    · rw [if_pos (decide_eq_true h1)]
      exact Or.inr ⟨fun hk => hk.1 (Or.inl h1), rfl⟩
    · rw [if_neg (by rw [decide_eq_true_iff]; exact h1)]
      by_cases h2 : n = "PWD".toList
      · rw [if_pos (decide_eq_true h2)]
        exact Or.inr ⟨fun hk => hk.1 (Or.inr (Or.inl h2)), rfl⟩
      · rw [if_neg (by rw [decide_eq_true_iff]; exact h2)]
        by_cases h3 : n = "SOURCE_DATE_EPOCH".toList
        · rw [if_pos (decide_eq_true h3)]
          exact Or.inr ⟨fun hk => hk.1 (Or.inr (Or.inr h3)), rfl⟩
        · rw [if_neg (by rw [decide_eq_true_iff]; exact h3)]
          refine Or.inl ⟨⟨fun hh => ?_, fun l hl => ?_⟩, rfl⟩
          · rcases hh with hh | hh | hh
            · exact h1 hh
            · exact h2 hh
            · exact h3 hh
          · rw [Bool.not_eq_true, List.any_eq_false] at hr
            have := hr l hl
            rwa [Bool.not_eq_true] at this

/-! ## All of it -/

/-- What is known of the file so far: the variables are the last ones that were set. -/
structure Holds (file : List Str) (a : Abs) (V : Str → Str → Prop) : Prop where
  eq : file = render a
  good : Good a
  nodup : (a.vars.map (·.1)).Nodup
  vars : ∀ n v, (n, v) ∈ a.vars ↔ V n v

theorem put_nodup {l : List (Str × Str)} (h : (l.map (·.1)).Nodup) (n v : Str) : ((put l n v).map (·.1)).Nodup := by
  unfold put
  rw [List.map_cons, List.nodup_cons]
  refine ⟨fun hm => ?_, h.sublist (List.filter_sublist.map _)⟩
  obtain ⟨e, he, h1⟩ := List.mem_map.1 hm
  exact absurd h1 (of_decide_eq_true (List.mem_filter.1 he).2)

theorem Holds.put {sedText : Str → Str} (hs : Sed sedText) {file : List Str} {a : Abs} {V : Str → Str → Prop} (h : Holds file a V)
    {n v : Str} (hn : Name n) (hv : Plain v) :
    Holds (exportVar sedText file n v) (a.put n v) fun m w => m = n ∧ w = v ∨ m ≠ n ∧ V m w := by
  obtain ⟨h1, h2⟩ := export_render hs h.good hn hv
  refine ⟨by rw [h.eq, h1], h2, put_nodup h.nodup n v, fun m w => ?_⟩
  show (m, w) ∈ (n, v) :: _ ↔ _
  rw [List.mem_cons, List.mem_filter, h.vars, decide_eq_true_iff, Prod.mk.injEq, and_comm (a := V m w)]

theorem Holds.congr {file : List Str} {a : Abs} {V W : Str → Str → Prop} (h : Holds file a V) (hw : ∀ n v, V n v ↔ W n v) :
    Holds file a W := ⟨h.eq, h.good, h.nodup, fun n v => by rw [h.vars, hw]⟩

/-- Several exports, with one value for each name. -/
theorem holds_puts {sedText : Str → Str} (hs : Sed sedText) : ∀ (l : List (Str × Str)) {file : List Str} {a : Abs}
    {V : Str → Str → Prop}, Holds file a V → (∀ e, e ∈ l → Name e.1 ∧ Plain e.2) →
    (∀ n v w, (n, v) ∈ l → (n, w) ∈ l → v = w) →
    ∃ b, Holds (l.foldl (fun f e => exportVar sedText f e.1 e.2) file) b
      (fun n v => (n, v) ∈ l ∨ (∀ w, (n, w) ∉ l) ∧ V n v) ∧ b.fs = a.fs
  | [], file, a, V, h, _, _ => ⟨a, h.congr fun n v => by simp, rfl⟩
  | (n, v) :: l, file, a, V, h, hg, hu => by
    have hnv := hg (n, v) List.mem_cons_self
    obtain ⟨b, hb, hf⟩ := holds_puts hs l (h.put hs hnv.1 hnv.2) (fun e he => hg e (List.mem_cons_of_mem _ he))
      (fun m x y h1 h2 => hu m x y (List.mem_cons_of_mem _ h1) (List.mem_cons_of_mem _ h2))
    refine ⟨b, hb.congr fun m w => ?_, hf⟩
    constructor
    · rintro (h1 | ⟨h1, ⟨rfl, rfl⟩ | ⟨h2, h3⟩⟩)
      · exact Or.inl (List.mem_cons_of_mem _ h1)
      · exact Or.inl List.mem_cons_self
      · refine Or.inr ⟨fun x hx => ?_, h3⟩
        rcases List.mem_cons.1 hx with hx | hx
        · exact h2 (congrArg Prod.fst hx)
        · exact h1 x hx
    · rintro (h1 | ⟨h1, h2⟩)
      · rcases List.mem_cons.1 h1 with h3 | h3
        · injection h3 with h3 h4
          subst h3; subst h4
          by_cases hx : ∃ x, (m, x) ∈ l
          · obtain ⟨x, hx⟩ := hx
            have := hu m w x List.mem_cons_self (List.mem_cons_of_mem _ hx)
            exact Or.inl (this ▸ hx)
          · exact Or.inr ⟨fun x hx' => hx ⟨x, hx'⟩, Or.inl ⟨rfl, rfl⟩⟩
        · exact Or.inl h3
      · exact Or.inr ⟨fun x hx => h1 x (List.mem_cons_of_mem _ hx),
          Or.inr ⟨fun he => h1 v (he ▸ List.mem_cons_self), h2⟩⟩

theorem holds_filters {sedText : Str → Str} (hs : Sed sedText) : ∀ (l : List Str) {file : List Str} {a : Abs}
    {V : Str → Str → Prop}, Holds file a V → (∀ f, f ∈ l → Name f) →
    Holds (l.foldl (addFilter sedText) file) (l.foldl Abs.addf a) V
  | [], _, _, _, h, _ => h
  | f :: l, file, a, V, h, hn => by
    obtain ⟨h1, h2⟩ := filter_render hs h.good (hn f List.mem_cons_self)
    exact holds_filters hs l ⟨by rw [h.eq, h1], h2, h.nodup, h.vars⟩ fun g hg => hn g (List.mem_cons_of_mem _ hg)

theorem addf_fs (fs : List Str) : ∀ (l : List Str) (a : Abs), a.fs = some fs →
    (l.foldl Abs.addf a).fs = some (l.foldl (fun fs f => f :: fs.filter fun g => decide (g ≠ f)) fs) := by
  intro l
  induction l generalizing fs with
  | nil => intro a h; exact h
  | cons f l ih =>
    intro a h
    rw [List.foldl_cons, List.foldl_cons]
    refine ih _ _ ?_
    show some (f :: ((a.fs.getD []).filter fun g => decide (g ≠ f))) = _
    rw [h]; rfl

theorem addf_filters (a : Abs) (h : a.fs = none) : (filters.foldl Abs.addf a).fs = some filters.reverse := by
  have h1 : (a.addf "PATH".toList).fs = some ["PATH".toList] := by
    show some (_ :: ((a.fs.getD []).filter _)) = _
    rw [h]; rfl
  have h2 : ∀ l : List Str, l = "PATH".toList :: l.tail → (l.foldl Abs.addf a).fs =
      some (l.tail.foldl (fun fs f => f :: fs.filter fun g => decide (g ≠ f)) ["PATH".toList]) := by
    intro l hl
    rw [hl, List.foldl_cons]
    exact addf_fs ["PATH".toList] _ _ h1
  rw [h2 filters rfl]
  exact congrArg some (by decide +kernel)

theorem env_fold {sedText : Str → Str} {grep : Str → Str → Bool} {ref : List Str} (K : Str × Str → Bool)
    (hK : ∀ e, K e = true ↔ Kept grep ref e) : ∀ (env : List (Str × Str)) (file : List Str),
    (∀ e, e ∈ env → Name e.1 ∧ Plain e.2) →
    (env.map line).foldl (envLine sedText grep ref) file =
      (env.filter K).foldl (fun f e => exportVar sedText f e.1 e.2) file
  | [], _, _ => rfl
  | e :: env, file, h => by
    have he := h e List.mem_cons_self
    rw [List.map_cons, List.foldl_cons, List.filter_cons]
    rcases envLine_cases sedText grep ref file he.1 he.2 with ⟨h1, h2⟩ | ⟨h1, h2⟩
    · rw [if_pos ((hK e).2 h1), List.foldl_cons, h2]
      exact env_fold K hK env _ fun x hx => h x (List.mem_cons_of_mem _ hx)
    · rw [if_neg fun h3 => h1 ((hK e).1 h3), h2]
      exact env_fold K hK env _ fun x hx => h x (List.mem_cons_of_mem _ hx)

theorem fs_names : ∀ f, f ∈ filters → Name f := by
  have : ∀ f, f ∈ filters → f ≠ [] ∧ f.all (fun c => c.isAlphanum || c == '_') = true := by decide +kernel
  intro f hf
  obtain ⟨h1, h2⟩ := this f hf
  refine ⟨h1, fun c hc => ?_⟩
  have := List.all_eq_true.1 h2 c hc
  rw [Bool.or_eq_true, beq_iff_eq] at this
  exact this

/-- **C136.**  The file that `sbuild` reads defines exactly these variables, each once and with its value: those of
SBUILD_PASSTHROUGH_ADDITIONS that are set; and of the others those of the environment that are not the host's own and
that the reference environment does not have.  It lets exactly the path and the proxies through.  This is for plain
values. -/
theorem exported_reach_partial {sedText : Str → Str} (hs : Sed sedText) (grep : Str → Str → Bool) (env : List (Str × Str))
    (ref : List Str) (get : Str → Option Str) (names : List Str) (timeout : Str) (hu : (env.map (·.1)).Nodup)
    (he : ∀ e, e ∈ env → Name e.1 ∧ Plain e.2) (ha : ∀ n, n ∈ names → Name n ∧ ∀ v, get n = some v → Plain v) :
    ∃ vars fs, Reads (config sedText grep (env.map line) ref get names timeout) vars fs
        ["$apt_keep_downloaded_packages = 1;".toList, "$stalled_pkg_timeout = ".toList ++ timeout ++ ";".toList] ∧
      (vars.map (·.1)).Nodup ∧
      (∀ n v, (n, v) ∈ vars ↔ (n ∈ names ∧ get n = some v) ∨
        ((n ∈ names → get n = none) ∧ (n, v) ∈ env ∧ ¬ Host n ∧ ∀ l, l ∈ ref → grep (line (n, v)) l = false)) ∧
      fs.Nodup ∧ ∀ f, f ∈ fs ↔ f ∈ ["PATH", "http_proxy", "HTTP_PROXY", "https_proxy", "HTTPS_PROXY", "ftp_proxy",
        "FTP_PROXY", "no_proxy", "NO_PROXY"].map String.toList := by
  have start : Holds [] ⟨[], none, true⟩ fun _ _ => False :=
    ⟨rfl, ⟨nofun, nofun, fun _ => rfl, fun h => absurd rfl h⟩, List.nodup_nil, fun n v => by simp⟩
  have hK : ∃ K : Str × Str → Bool, ∀ e, K e = true ↔ Kept grep ref e := by
    classical
    exact ⟨fun e => decide (Kept grep ref e), fun e => decide_eq_true_iff⟩
  obtain ⟨K, hK⟩ := hK
  have huniq : ∀ (l : List (Str × Str)), (l.map (·.1)).Nodup → ∀ n v w, (n, v) ∈ l → (n, w) ∈ l → v = w := by
    intro l
    induction l with
    | nil => intro _ n v w h; cases h
    | cons e l ih =>
      intro hn n v w h1 h2
      rw [List.map_cons, List.nodup_cons] at hn
      rcases List.mem_cons.1 h1 with h1 | h1 <;> rcases List.mem_cons.1 h2 with h2 | h2
      · rw [← h1] at h2; injection h2 with _ h2; exact h2.symm
      · exact absurd (List.mem_map.2 ⟨_, h2, by rw [← h1]⟩) hn.1
      · exact absurd (List.mem_map.2 ⟨_, h1, by rw [← h2]⟩) hn.1
      · exact ih hn.2 n v w h1 h2
  obtain ⟨a1, h1, hf1⟩ := holds_puts hs (env.filter K) start (fun e h => he e (List.mem_filter.1 h).1)
    (huniq _ (hu.sublist (List.filter_sublist.map _)))
  rw [← env_fold K hK env [] he] at h1
  have h2 := holds_filters hs filters h1 fs_names
  have hmem : ∀ n v, (n, v) ∈ additions get names ↔ n ∈ names ∧ get n = some v := by
    intro n v
    unfold additions
    rw [List.mem_filterMap]
    constructor
    · rintro ⟨m, hm, hv⟩
      rw [Option.map_eq_some_iff] at hv
      obtain ⟨w, hw, hv⟩ := hv
      injection hv with hv1 hv2
      subst hv1; subst hv2
      exact ⟨hm, hw⟩
    · rintro ⟨h1, h2⟩
      exact ⟨n, h1, by rw [h2]; rfl⟩
  obtain ⟨a3, h3, hf3⟩ := holds_puts hs (additions get names) h2
    (fun e h => by
      obtain ⟨n, v⟩ := e
      obtain ⟨h4, h5⟩ := (hmem n v).1 h
      exact ⟨(ha n h4).1, (ha n h4).2 v h5⟩)
    (fun n v w h4 h5 => by
      have := ((hmem n v).1 h4).2.symm.trans ((hmem n w).1 h5).2
      injection this)
  have hfs : a3.fs = some filters.reverse := by
    rw [hf3, addf_filters a1 hf1]
  refine ⟨a3.vars, filters.reverse, ?_, h3.nodup, fun n v => ?_, ?_, fun f => ?_⟩
  · unfold Reads config
    rw [h3.eq]
    unfold render
    rw [hfs, array_eq]
    show (if a3.first then _ else _) ++ _ = _ ∨ (if a3.first then _ else _) ++ _ = _
    cases a3.first
    · exact Or.inr rfl
    · exact Or.inl rfl
  · rw [h3.vars, hmem]
    refine or_congr Iff.rfl (and_congr ⟨fun h hn => ?_, fun h w hw => ?_⟩ ?_)
    · cases hg : get n with
      | none => rfl
      | some w => exact absurd ((hmem n w).2 ⟨hn, hg⟩) (h w)
    · obtain ⟨h4, h5⟩ := (hmem n w).1 hw
      rw [h h4] at h5; cases h5
    · have hm : (n, v) ∈ env.filter K ↔ (n, v) ∈ env ∧ Kept grep ref (n, v) := by rw [List.mem_filter, hK]
      constructor
      · rintro (h4 | ⟨_, h4⟩)
        · exact ⟨(hm.1 h4).1, (hm.1 h4).2.1, (hm.1 h4).2.2⟩
        · exact h4.elim
      · rintro ⟨h4, h5, h6⟩
        exact Or.inl (hm.2 ⟨h4, h5, h6⟩)
  · decide +kernel
  · rw [List.mem_reverse]
    exact Iff.rfl

/-! ## What the reference environment hides -/

/-- What `grep` finds for a line begins with the name in it; names have no special characters. -/
def ByName (grep : Str → Str → Bool) : Prop :=
  ∀ n v x, Name n → grep (line (n, v)) x = true → startsWith x (n ++ "=".toList) = true

/-- **C136.**  A variable that the reference environment does not have is not hidden by it, whatever its value. -/
theorem new_variable_kept {grep : Str → Str → Bool} (hg : ByName grep)
    {ref : List (Str × Str)} {n v : Str} (hn : Name n) (hr : ∀ e, e ∈ ref → Name e.1) (h : n ∉ ref.map (·.1)) :
    ∀ l, l ∈ ref.map line → grep (line (n, v)) l = false := by
  intro l hl
  obtain ⟨⟨m, w⟩, hm, rfl⟩ := List.mem_map.1 hl
  by_cases hc : grep (line (n, v)) (line (m, w)) = true
  · have := hg _ _ _ hn hc
    have h2 := starts_line (n := m) (v := w) (m := n) ((hr _ hm).not_mem (by decide) (by decide)) (hn.not_mem (by decide) (by decide))
    rw [show n ++ "=".toList = n ++ ['='] from rfl, h2, decide_eq_true_iff] at this
    exact absurd (List.mem_map.2 ⟨(m, w), hm, this⟩) h
  · rwa [Bool.not_eq_true] at hc

/-- `grep` for expressions in which only dots are special. -/
def dots : Str → Str → Bool := Schroot.dotPrefix

theorem dots_byName : ByName dots := by
  have key : ∀ (p t x : Str), '.' ∉ p → dots (p ++ t) x = true → startsWith x p = true := by
    intro p
    induction p with
    | nil => intro t x _ _; exact startsWith_iff.2 ⟨x, rfl⟩
    | cons c p ih =>
      intro t x hp h
      cases x with
      | nil => cases h
      | cons d x =>
        have h : ((c == '.' || c == d) && dots (p ++ t) x) = true := h
        rw [Bool.and_eq_true, Bool.or_eq_true, beq_iff_eq, beq_iff_eq] at h
        have hc : c = d := h.1.resolve_left fun hc => hp (hc ▸ List.mem_cons_self)
        subst hc
        rw [startsWith_cons]
        exact ih t x (fun h' => hp (List.mem_cons_of_mem _ h')) h.2
  intro n v x hn h
  unfold line at h
  refine key (n ++ "=".toList) v x (fun hm => ?_) h
  rcases List.mem_append.1 hm with hm | hm
  · exact hn.not_mem (by decide) (by decide) hm
  · revert hm; decide

theorem vars_sample : Name "FOO".toList ∧ Plain "/opt/1.2".toList ∧ Sed id :=
  ⟨⟨by decide, by decide⟩, ⟨by decide, by decide, by decide, by decide, fun c h => by
    have : some '2' = some c := h
    injection this with this
    subst this
    decide⟩, fun _ _ _ => rfl⟩

example : config id dots ["FOO=/opt/1.2".toList, "HOME=/root".toList, "BAR=a b".toList, "LANG=C".toList] ["LANG=C".toList]
    (fun n => if n = "FOO".toList then some "x".toList else none) ["FOO".toList, "NONE".toList] "150".toList =
    ["$build_environment = {", "'FOO' => 'x',", "'BAR' => 'a b',", "};", "$environment_filter = [", "'^NO_PROXY$',", "'^no_proxy$',",
      "'^FTP_PROXY$',", "'^ftp_proxy$',", "'^HTTPS_PROXY$',", "'^https_proxy$',", "'^HTTP_PROXY$',", "'^http_proxy$',", "'^PATH$',",
      "];", "$apt_keep_downloaded_packages = 1;", "$stalled_pkg_timeout = 150;"].map String.toList := by decide +kernel

/-- Against C136: a variable that is changed to the beginning of its old value does not reach the build. -/
theorem shorter_value_lost :
    config id dots ["FOO=-O".toList] ["FOO=-O2".toList] (fun _ => none) [] "150".toList =
      config id dots [] [] (fun _ => none) [] "150".toList := by decide +kernel

/-- Against C136: a value with a quote ends too early, and what follows is taken for Perl. -/
theorem quote_breaks :
    (config id dots ["FOO=a','X' => 'b".toList] [] (fun _ => none) [] "150".toList)[1]? =
      some "'FOO' => 'a','X' => 'b',".toList := by decide +kernel

/-- Against C136: a value that looks like an expression is removed with it. -/
theorem caret_lost :
    config id dots ["FOO=^PATH$".toList, "BAR=x".toList] [] (fun _ => none) [] "150".toList =
      config id dots ["BAR=x".toList] [] (fun _ => none) [] "150".toList := by decide +kernel

end Meta.SbuildConf
