import Verif.Bb.ExpandLemmas3
/-!
# Properties of expansion: C118, C119, C120 and C121
-/

namespace Bb.Expand
open Py Spec

/-- Operations that do not ask for values without weak defaults. -/
def Usual : Op → Prop
  | .get noweak _ => noweak = false
  | _ => True

theorem run_snoc (f d : Nat) (ops : List Op) (o : Op) : run f d (ops ++ [o]) = (step f d (run f d ops) o).1 := by
  unfold run
  rw [List.foldl_append]; rfl

theorem run_sound (f d : Nat) (ops : List Op) (h : ∀ o, o ∈ ops → Usual o) :
    Sound (raw (run f d ops).vars false) (run f d ops).cache := by
  have : ∀ (ops : List Op) (st : Store), Sound (raw st.vars false) st.cache → (∀ o, o ∈ ops → Usual o) →
      Sound (raw (ops.foldl (fun st o => (step f d st o).1) st).vars false)
        (ops.foldl (fun st o => (step f d st o).1) st).cache := by
    intro ops
    induction ops with
    | nil => intro st h _; exact h
    | cons o ops ih =>
      intro st hs h
      refine ih _ ?_ fun o ho => h o (List.mem_cons_of_mem _ ho)
      cases o with
      | set k t => intro k v h; cases h
      | weak k t => intro k v h; cases h
      | del k => intro k v h; cases h
      | get noweak k =>
        have : noweak = false := h _ List.mem_cons_self
        subst this
        exact (getVar_reads st.vars f d).sound k st.cache hs
      | expand s => exact (loop_reads (getVar_reads st.vars f d) none f s st.cache hs).1
  exact this ops ⟨[], []⟩ (fun k v h => nomatch h) h

/-- What an operation returns. -/
def answer (f d : Nat) (ops : List Op) (o : Op) : Option (Except Err (Option Str)) := (step f d (run f d ops) o).2

/-! ## C118: what references mean -/

/-- **C118.**  After every history of writes and reads: if the values of the variables are texts with
properly nested references, a text with such references expands to what it means. -/
theorem expand_means (prog : Str → Option Text) (hp : ∀ k p, prog k = some p → Plain p) (t : Text) (ht : Plain t)
    (s : Str) (hm : Means prog t s) : ∃ D, ∀ f d, D ≤ f → D ≤ d → ∀ ops, (∀ o, o ∈ ops → Usual o) →
      (∀ k, raw (run f d ops).vars false k = (prog k).map Text.render) →
      answer f d ops (.expand t.render) = some (.ok (some s)) := by
  obtain ⟨D, hD⟩ := means_loop (env := fun k => (prog k).map Text.render) (fun _ => rfl) hp hm ht
  refine ⟨D, fun f d hf hd ops ho hv => ?_⟩
  have hs := run_sound f d ops ho
  have := (loop_reads (getVar_reads (run f d ops).vars f d) none f t.render _ hs).2.2 s (by
    rw [show raw (run f d ops).vars false = fun k => (prog k).map Text.render from funext hv]
    exact hD f d hf hd)
  show some ((expand (run f d ops).vars f d t.render (run f d ops).cache).1.map some) = _
  unfold expand
  rw [this]; rfl

/-- **C118.**  The same for the value of a variable. -/
theorem getVar_means (prog : Str → Option Text) (hp : ∀ k p, prog k = some p → Plain p) (k : Str) (p : Text)
    (hk : prog k = some p) (s : Str) (hm : Means prog p s) : ∃ D, ∀ f d, D ≤ f → D ≤ d → ∀ ops,
      (∀ o, o ∈ ops → Usual o) → (∀ k, raw (run f d ops).vars false k = (prog k).map Text.render) →
      answer f d ops (.get false k) = some (.ok (some s)) := by
  obtain ⟨D, hD⟩ := means_value (env := fun k => (prog k).map Text.render) (fun _ => rfl) hp hk hm
  refine ⟨D, fun f d hf hd ops ho hv => ?_⟩
  have hs := run_sound f d ops ho
  have := (getVar_reads (run f d ops).vars f d).full k _ (some s) hs (by
    rw [show raw (run f d ops).vars false = fun k => (prog k).map Text.render from funext hv]
    exact hD f d hf hd)
  show some (getVar (run f d ops).vars f d false k (run f d ops).cache).1 = _
  rw [this]

/-- Characters before a text. -/
def chars (s : String) (t : Text) : Text := s.toList.foldr Text.ch t

/-- Three variables: `B`, `A_x`, which refers to `B` and to `C`, and `D`. -/
def prog : Str → Option Text := fun k =>
  if k = "B".toList then some (chars "x" .nil)
  else if k = "A_x".toList then some (.ref (chars "B" .nil) (chars "-" (.ref (chars "C" .nil) .nil)))
  else if k = "D".toList then some (chars "$y ${u%z}" .nil)
  else none

/-- `${A_${B}} ${D}` -/
def sample : Text := .ref (chars "A_" (.ref (chars "B" .nil) .nil)) (chars " " (.ref (chars "D" .nil) .nil))

theorem means_chars (p : Str → Option Text) {t : Text} {s : Str} (h : Means p t s) : ∀ (w : Str),
    Means p (w.foldr Text.ch t) (w ++ s)
  | [] => h
  | _ :: w => .ch (means_chars p h w)

theorem sample_means : Means prog sample "x-${C} $y ${u%z}".toList := by
  have name : ∀ w : String, Means prog (chars w .nil) w.toList := fun w => by
    have := means_chars prog .nil w.toList
    rwa [List.append_nil] at this
  have isn : ∀ k : Str, isName k = true → IsName k := fun k h => isName_spec.1 h
  have hB : Means prog (.ref (chars "B" .nil) .nil) ("x".toList ++ []) :=
    .set (name "B") (isn _ (by decide)) (p := chars "x" .nil) (by decide +kernel) (name "x") .nil
  have hC : Means prog (.ref (chars "C" .nil) .nil) ('$' :: '{' :: ("C".toList ++ '}' :: [])) :=
    .unset (name "C") (isn _ (by decide)) (by decide +kernel) .nil
  have hA : Means prog (.ref (chars "B" .nil) (chars "-" (.ref (chars "C" .nil) .nil))) ("x".toList ++ ("-".toList ++ _)) :=
    .set (name "B") (isn _ (by decide)) (p := chars "x" .nil) (by decide +kernel) (name "x")
      (means_chars prog hC "-".toList)
  have hD : Means prog (.ref (chars "D" .nil) .nil) ("$y ${u%z}".toList ++ []) :=
    .set (name "D") (isn _ (by decide)) (p := chars "$y ${u%z}" .nil) (by decide +kernel) (name "$y ${u%z}") .nil
  exact .set (means_chars prog hB "A_".toList) (isn _ (by decide)) (by decide +kernel) hA
    (means_chars prog hD " ".toList)

/-- For `expand_means`: a history that gives the variables these values, reading in between. -/
example : ∃ ops : List Op, (∀ o, o ∈ ops → Usual o) ∧
    (∀ k, raw (run 9 9 ops).vars false k = (prog k).map Text.render) ∧
    answer 9 9 ops (.expand sample.render) = some (.ok (some "x-${C} $y ${u%z}".toList)) := by
  refine ⟨[.set "B".toList "old".toList, .set "D".toList "$y ${u%z}".toList, .weak "A_x".toList "${B}-${C}".toList,
    .get false "A_x".toList, .set "B".toList "x".toList, .get false "D".toList], ?_, ?_, ?_⟩
  · intro o ho
    rcases List.mem_cons.1 ho with rfl | ho
    · trivial
    rcases List.mem_cons.1 ho with rfl | ho
    · trivial
    rcases List.mem_cons.1 ho with rfl | ho
    · trivial
    rcases List.mem_cons.1 ho with rfl | ho
    · rfl
    rcases List.mem_cons.1 ho with rfl | ho
    · trivial
    rw [List.mem_singleton.1 ho]; rfl
  · intro k
    have hv : (run 9 9 [.set "B".toList "old".toList, .set "D".toList "$y ${u%z}".toList,
        .weak "A_x".toList "${B}-${C}".toList, .get false "A_x".toList, .set "B".toList "x".toList,
        .get false "D".toList]).vars =
        [("B".toList, ⟨some "x".toList, none⟩), ("D".toList, ⟨some "$y ${u%z}".toList, none⟩),
          ("A_x".toList, ⟨none, some "${B}-${C}".toList⟩)] := by decide +kernel
    rw [hv]
    unfold raw prog
    rw [List.lookup_cons, List.lookup_cons, List.lookup_cons, List.lookup_nil]
    by_cases h1 : k = "B".toList
    · subst h1; decide +kernel
    by_cases h2 : k = "A_x".toList
    · subst h2; decide +kernel
    by_cases h3 : k = "D".toList
    · subst h3; decide +kernel
    rw [if_neg h1, if_neg h2, if_neg h3, show (k == "B".toList) = false from by simpa using h1,
      show (k == "A_x".toList) = false from by simpa using h2, show (k == "D".toList) = false from by simpa using h3]
    rfl
  · have : (answer 9 9 [.set "B".toList "old".toList, .set "D".toList "$y ${u%z}".toList,
        .weak "A_x".toList "${B}-${C}".toList, .get false "A_x".toList, .set "B".toList "x".toList,
        .get false "D".toList] (.expand sample.render)).map Except.toOption =
        some (some (some "x-${C} $y ${u%z}".toList)) := by decide +kernel
    cases ha : answer 9 9 [.set "B".toList "old".toList, .set "D".toList "$y ${u%z}".toList,
        .weak "A_x".toList "${B}-${C}".toList, .get false "A_x".toList, .set "B".toList "x".toList,
        .get false "D".toList] (.expand sample.render) with
    | none => rw [ha] at this; cases this
    | some r =>
      rw [ha] at this
      cases r with
      | error e => cases this
      | ok v => rw [show v = _ from Option.some.inj (Option.some.inj this)]

/-! ## C119: nothing is left -/

/-- **C119.**  After every history, what is read has no reference to a variable that is set. -/
theorem nothing_left (f d : Nat) (ops : List Op) (h : ∀ o, o ∈ ops → Usual o) (o : Op) (ho : Usual o) (r : Str)
    (hr : answer f d ops o = some (.ok (some r))) (k : Str) (hk : IsName k)
    (hset : raw (run f d ops).vars false k ≠ none) (a b : Str) : r ≠ a ++ ("${".toList ++ k ++ "}".toList) ++ b := by
  have hs := run_sound f d ops h
  have main : Settled (raw (run f d ops).vars false) r := by
    cases o with
    | set => cases hr
    | weak => cases hr
    | del => cases hr
    | get noweak j =>
      have : noweak = false := ho
      subst this
      exact val_settled ((getVar_reads (run f d ops).vars f d).right j _ (some r) hs (Option.some.inj hr))
    | expand s =>
      have hl := loop_reads (getVar_reads (run f d ops).vars f d) none f s _ hs
      replace hr : (expand (run f d ops).vars f d s (run f d ops).cache).1.map some = .ok (some r) := Option.some.inj hr
      unfold expand at hr
      cases he : (loop (getVar (run f d ops).vars f d false) none f s (run f d ops).cache).1 with
      | error e => rw [he] at hr; cases hr
      | ok x =>
        rw [he] at hr
        cases hr
        obtain ⟨f', d', h'⟩ := hl.2.1 _ he
        exact loopP_settled (fun k h => valueP_settled.1 h) (fun k v h => valueP_settled.2 v h) h'
  exact settled_iff.1 main k hk hset a b

/-- Also when pieces of values make a new reference. -/
example : (answer 9 9 [.set "P".toList "${".toList, .set "Q".toList "v".toList] (.expand "${P}Q}".toList)).map
    Except.toOption = some (some (some "v".toList)) := by decide +kernel

/-! ## C120: circles, and the end -/

/-- **C120.**  Variables that refer to each other in a circle have no value, after every history. -/
theorem circle_fails (S : Str → Prop) (f d : Nat) (ops : List Op) (h : ∀ o, o ∈ ops → Usual o)
    (hS : ∀ k, S k → ∃ a j b, raw (run f d ops).vars false k = some (a ++ ("${".toList ++ j ++ "}".toList) ++ b) ∧
      IsName j ∧ S j) (k : Str) (hk : S k) (v : Option Str) : answer f d ops (.get false k) ≠ some (.ok v) := by
  intro hr
  have hs := run_sound f d ops h
  obtain ⟨f', d', hv⟩ := (getVar_reads (run f d ops).vars f d).right k _ v hs (Option.some.inj hr)
  refine cycle_error (S := S) (fun k hk => ?_) f' d' k hk v hv
  obtain ⟨a, j, b, h1, h2, h3⟩ := hS k hk
  exact ⟨_, j, h1, h3, scan_finds (isName_spec.2 h2) _ a b rfl⟩

/-- Two variables. -/
example : (answer 9 9 [.set "A".toList "x${B}".toList, .set "B".toList "${A}y".toList] (.get false "A".toList)).map
    Except.toOption = some none := by decide +kernel

/-- **C120.**  A text with references that mean something is expanded in finitely many passes; that is
`expand_means`.  Against C120: pieces of references in values can make the loop go on for ever. -/
def endless : Dict Var := [("ax".toList, ⟨some "x}x}${a${a".toList, none⟩)]

def xs : Nat → Str
  | 0 => []
  | n + 1 => 'x' :: '}' :: 'x' :: '}' :: xs n

def opens : Nat → Str
  | 0 => []
  | n + 1 => '$' :: '{' :: 'a' :: '$' :: '{' :: 'a' :: opens n

def lits (s : Str) : List Seg := s.map Seg.lit

theorem scan_xs (s : Str) : ∀ n, scan 0 (xs n ++ s) = lits (xs n) ++ scan 0 s
  | 0 => rfl
  | n + 1 => by
    show scan 0 ('x' :: '}' :: 'x' :: '}' :: (xs n ++ s)) = _
    rw [scan_lit (by decide), scan_lit (by decide), scan_lit (by decide), scan_lit (by decide), scan_xs s n]; rfl

theorem opens_head : ∀ n, opens n = [] ∨ ∃ s, opens n = '$' :: s
  | 0 => Or.inl rfl
  | _ + 1 => Or.inr ⟨_, rfl⟩

theorem refAt_open {s : Str} (h : s = [] ∨ ∃ t, s = '$' :: t) : refAt ('{' :: 'a' :: s) = none := by
  rcases h with rfl | ⟨t, rfl⟩
  · decide
  · exact refAt_stops (k := ['a', '$']) ⟨['a'], '$', [], rfl, by decide, by decide, by decide⟩

theorem scan_opens : ∀ n, scan 0 (opens n) = lits (opens n)
  | 0 => rfl
  | n + 1 => by
    show scan 0 ('$' :: '{' :: 'a' :: '$' :: '{' :: 'a' :: opens n) = _
    rw [scan_dollar (refAt_open (Or.inr ⟨_, rfl⟩)), scan_lit (by decide), scan_lit (by decide),
      scan_dollar (refAt_open (opens_head n)), scan_lit (by decide), scan_lit (by decide), scan_opens n]; rfl

/-- The two shapes of the text. -/
def even (n : Nat) : Str := xs n ++ ("${a".toList ++ (refText "ax".toList ++ opens n))

def odd (n : Nat) : Str := xs n ++ (refText "ax".toList ++ ("x}".toList ++ opens (n + 1)))

theorem scan_even (n : Nat) : scan 0 (even n) = lits (xs n ++ "${a".toList) ++ .ref "ax".toList :: lits (opens n) := by
  unfold even
  rw [scan_xs, refText_append]
  show lits (xs n) ++ scan 0 ('$' :: '{' :: 'a' :: '$' :: '{' :: ("ax".toList ++ '}' :: opens n)) = _
  rw [scan_dollar (refAt_open (Or.inr ⟨_, rfl⟩)), scan_lit (by decide), scan_lit (by decide), scan_ref (by decide),
    scan_opens]
  unfold lits
  rw [List.map_append, List.append_assoc]; rfl

theorem scan_odd (n : Nat) : scan 0 (odd n) = lits (xs n) ++ .ref "ax".toList :: lits ("x}".toList ++ opens (n + 1)) := by
  unfold odd
  rw [scan_xs, refText_append, scan_ref (by decide)]
  show _ ++ Seg.ref "ax".toList :: scan 0 ('x' :: '}' :: opens (n + 1)) = _
  rw [scan_lit (by decide), scan_lit (by decide), scan_opens]; rfl

/-- The cache while the loop runs. -/
def Few (c : Cache) : Prop := c = [] ∨ c = [("ax".toList, some "x}x}${a${a".toList)]

theorem get_ax (f d : Nat) (c : Cache) (hc : Few c) :
    getVar endless (f + 1) (d + 1) false "ax".toList c =
      (.ok (some "x}x}${a${a".toList), [("ax".toList, some "x}x}${a${a".toList)]) := by
  rcases hc with rfl | rfl
  · rfl
  · rfl

theorem subst_lits (get : Str → Cache → Except Err (Option Str) × Cache) (c : Cache) : ∀ s : Str,
    subst get none (lits s) c = (.ok s, c)
  | [] => rfl
  | a :: s => by
    show subst get none (.lit a :: lits s) c = _
    rw [subst, subst_lits get c s]

theorem subst_one (f d : Nat) (c : Cache) (hc : Few c) (t : Str) : ∀ s : Str,
    subst (getVar endless (f + 1) (d + 1) false) none (lits s ++ .ref "ax".toList :: lits t) c =
      (.ok (s ++ ("x}x}${a${a".toList ++ t)), [("ax".toList, some "x}x}${a${a".toList)])
  | [] => by
    show subst _ none (.ref "ax".toList :: lits t) c = _
    rw [subst, if_neg (nomatch ·), get_ax f d c hc]
    dsimp only
    rw [subst_lits]; rfl
  | a :: s => by
    show subst _ none (.lit a :: (lits s ++ .ref "ax".toList :: lits t)) c = _
    rw [subst, subst_one f d c hc t s]; rfl

theorem xs_length : ∀ n, (xs n).length = 4 * n
  | 0 => rfl
  | n + 1 => by show (xs n).length + 4 = _; rw [xs_length n]; omega

theorem opens_length : ∀ n, (opens n).length = 6 * n
  | 0 => rfl
  | n + 1 => by show (opens n).length + 6 = _; rw [opens_length n]; omega

theorem xs_snoc (s : Str) : ∀ n, xs n ++ ("x}x}".toList ++ s) = xs (n + 1) ++ s
  | 0 => rfl
  | n + 1 => by
    show 'x' :: '}' :: 'x' :: '}' :: (xs n ++ ("x}x}".toList ++ s)) = _
    rw [xs_snoc s n]; rfl

theorem runs_on (f d : Nat) : ∀ (m n : Nat) (c : Cache), Few c →
    (loop (getVar endless (f + 1) (d + 1) false) none m (even n) c).1 = .error .running ∧
    (loop (getVar endless (f + 1) (d + 1) false) none m (odd n) c).1 = .error .running
  | 0, _, _, _ => ⟨rfl, rfl⟩
  | m + 1, n, c, hc => by
    have h1 : isSub ['$', '{'] (even n) = true :=
      isSub_iff.2 ⟨xs n, 'a' :: (refText "ax".toList ++ opens n), by unfold even; rw [List.append_assoc]; rfl⟩
    have h2 : isSub ['$', '{'] (odd n) = true :=
      isSub_iff.2 ⟨xs n, "ax}".toList ++ ("x}".toList ++ opens (n + 1)), by unfold odd; rw [List.append_assoc]; rfl⟩
    have e1 : xs n ++ "${a".toList ++ ("x}x}${a${a".toList ++ opens n) = odd n := by
      unfold odd; rw [List.append_assoc]; rfl
    have e2 : xs n ++ ("x}x}${a${a".toList ++ ("x}".toList ++ opens (n + 1))) = even (n + 1) := by
      unfold even; exact xs_snoc _ n
    have n1 : odd n ≠ even n := fun h => by
      have := congrArg List.length h
      unfold odd even at this
      simp only [List.length_append, xs_length, opens_length] at this
      have a1 : (refText "ax".toList).length = 5 := by decide
      have a2 : "x}".toList.length = 2 := by decide
      have a3 : "${a".toList.length = 3 := by decide
      omega
    have n2 : even (n + 1) ≠ odd n := fun h => by
      have := congrArg List.length h
      unfold odd even at this
      simp only [List.length_append, xs_length, opens_length] at this
      have a1 : (refText "ax".toList).length = 5 := by decide
      have a2 : "x}".toList.length = 2 := by decide
      have a3 : "${a".toList.length = 3 := by decide
      omega
    constructor
    · rw [loop, if_pos h1, scan_even, subst_one f d c hc]
      dsimp only
      rw [e1, if_neg n1]
      exact (runs_on f d m n _ (Or.inr rfl)).2
    · rw [loop, if_pos h2, scan_odd, subst_one f d c hc]
      dsimp only
      rw [e2, if_neg n2]
      exact (runs_on f d m (n + 1) _ (Or.inr rfl)).1

/-- Against C120: one variable, and a text that is expanded for ever. -/
theorem expansion_endless (f d : Nat) : answer (f + 1) (d + 1) [.set "ax".toList "x}x}${a${a".toList]
    (.expand "${a${ax}".toList) = some (.error .running) := by
  have h := (runs_on f d (f + 1) 0 [] (Or.inl rfl)).1
  show some ((loop (getVar endless (f + 1) (d + 1) false) none (f + 1) (even 0) []).1.map some) = _
  rw [h]; rfl

/-! ## C121: reading does not matter -/

/-- The variables after a history, without reading anything. -/
def written : List Op → Dict Var → Dict Var
  | [], vars => vars
  | .set k t :: ops, vars => written ops (vars.set k { varOf vars k with content := some t })
  | .weak k t :: ops, vars => written ops (vars.set k { varOf vars k with default := some t })
  | .del k :: ops, vars => written ops (vars.set k ⟨none, none⟩)
  | _ :: ops, vars => written ops vars

theorem run_vars (f d : Nat) : ∀ (ops : List Op) (st : Store),
    (ops.foldl (fun st o => (step f d st o).1) st).vars = written ops st.vars
  | [], _ => rfl
  | .set _ _ :: ops, _ => run_vars f d ops _
  | .weak _ _ :: ops, _ => run_vars f d ops _
  | .del _ :: ops, _ => run_vars f d ops _
  | .get _ _ :: ops, _ => run_vars f d ops _
  | .expand _ :: ops, _ => run_vars f d ops _

/-- **C121.**  What is read after a history is what is read from a new store with the same variables, if
nothing has asked for values without weak defaults. -/
theorem reads_fresh_partial (f d : Nat) (ops : List Op) (h : ∀ o, o ∈ ops → Usual o) (k : Str) (v : Option Str) :
    (answer f d ops (.get false k) = some (.ok v) → ∃ f' d', (getVar (written ops []) f' d' false k []).1 = .ok v) ∧
    ((getVar (written ops []) f d false k []).1 = .ok v → ∃ D, ∀ f' d', D ≤ f' → D ≤ d' →
      written ops [] = (run f' d' ops).vars ∧ answer f' d' ops (.get false k) = some (.ok v)) := by
  have he : Sound (raw (written ops []) false) [] := fun k v h => nomatch h
  have hv : ∀ f d, (run f d ops).vars = written ops [] := fun f d => run_vars f d ops _
  constructor
  · intro hr
    obtain ⟨f', d', hv'⟩ := (getVar_reads (run f d ops).vars f d).right k _ v (run_sound f d ops h) (Option.some.inj hr)
    rw [hv] at hv'
    exact ⟨f', d', (getVar_reads (written ops []) f' d').full k [] v he hv'⟩
  · intro hr
    obtain ⟨f', d', hv'⟩ := (getVar_reads (written ops []) f d).right k [] v he hr
    refine ⟨max f' d', fun f'' d'' h1 h2 => ⟨(hv f'' d'').symm, ?_⟩⟩
    have := (getVar_reads (run f'' d'' ops).vars f'' d'').full k (run f'' d'' ops).cache v (run_sound f'' d'' ops h) (by
      rw [hv]
      exact valueP_mono (by omega) (by omega) k v hv')
    show some (getVar (run f'' d'' ops).vars f'' d'' false k (run f'' d'' ops).cache).1 = _
    rw [this]

/-- The value is read, changed, and read again. -/
example : (answer 9 9 [.set "A".toList "${B}".toList, .set "B".toList "1".toList, .get false "A".toList,
    .set "B".toList "2".toList] (.get false "A".toList)).map Except.toOption = some (some (some "2".toList)) := by
  decide +kernel

/-- Against C121: a variable with a weak default is read without it; after that it has no value. -/
theorem default_lost :
    (answer 9 9 [.weak "A".toList "x".toList] (.get false "A".toList)).map Except.toOption =
      some (some (some "x".toList)) ∧
    (answer 9 9 [.weak "A".toList "x".toList, .get true "A".toList] (.get false "A".toList)).map Except.toOption =
      some (some none) := by decide +kernel

/-! ### Which text a variable has -/

theorem lookup_set (vars : Dict Var) (k j : Str) (v : Var) :
    (vars.set k v).lookup j = if j = k then some v else vars.lookup j := Dict.lookup_set vars k v j

/-- **C121.**  `setVar` gives the variable this text, whatever it was before. -/
theorem set_text (f d : Nat) (ops : List Op) (k t : Str) (nw : Bool) (j : Str) :
    raw (run f d (ops ++ [.set k t])).vars nw j = if j = k then some t else raw (run f d ops).vars nw j := by
  rw [run_snoc]
  show raw ((run f d ops).vars.set k _) nw j = _
  unfold raw
  rw [lookup_set]
  by_cases h : j = k
  · rw [if_pos h, if_pos h]
  · rw [if_neg h, if_neg h]

/-- **C121.**  A weak default is the text of a variable that has no other. -/
theorem weak_text (f d : Nat) (ops : List Op) (k t : Str) (j : Str) :
    raw (run f d (ops ++ [.weak k t])).vars false j =
      if j = k then some ((raw (run f d ops).vars true k).getD t) else raw (run f d ops).vars false j := by
  rw [run_snoc]
  show raw ((run f d ops).vars.set k _) false j = _
  unfold raw
  rw [lookup_set]
  by_cases h : j = k
  · rw [if_pos h, if_pos h]
    unfold varOf
    cases (run f d ops).vars.lookup k with
    | none => rfl
    | some v =>
      cases hc : v.content with
      | none => dsimp only [Option.getD]; rw [hc]; rfl
      | some c => dsimp only [Option.getD]; rw [hc]
  · rw [if_neg h, if_neg h]

/-- **C121.**  `delVar` removes both. -/
theorem del_text (f d : Nat) (ops : List Op) (k : Str) (nw : Bool) (j : Str) :
    raw (run f d (ops ++ [.del k])).vars nw j = if j = k then none else raw (run f d ops).vars nw j := by
  rw [run_snoc]
  show raw ((run f d ops).vars.set k _) nw j = _
  unfold raw
  rw [lookup_set]
  by_cases h : j = k
  · rw [if_pos h, if_pos h]; cases nw <;> rfl
  · rw [if_neg h, if_neg h]

/-- **C121.**  Reading without weak defaults only leaves out the variable's own: a variable that has a text
reads the same, with the weak defaults of the variables it refers to. -/
theorem noweak_same (f d : Nat) (ops : List Op) (k : Str) (h : raw (run f d ops).vars true k ≠ none) :
    answer f d ops (.get true k) = answer f d ops (.get false k) := by
  have hr : raw (run f d ops).vars true k = raw (run f d ops).vars false k := by
    unfold raw at h ⊢
    cases hl : (run f d ops).vars.lookup k with
    | none => rfl
    | some v =>
      rw [hl] at h
      cases hc : v.content with
      | none => dsimp only at h; rw [hc] at h; exact absurd rfl h
      | some c => dsimp only; rw [hc]
  show some (getVar _ f d true k _).1 = some (getVar _ f d false k _).1
  cases d with
  | zero => rfl
  | succ d =>
    unfold getVar
    rw [hr]

example : (answer 9 9 [.weak "B".toList "1".toList, .set "A".toList "${B}".toList] (.get true "A".toList)).map
    Except.toOption = some (some (some "1".toList)) := by decide +kernel

end Bb.Expand
