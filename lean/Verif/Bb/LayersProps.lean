import Verif.Bb.LayersModel
import Verif.Bb.ChunkProps
import Verif.Py.Path
/-!
# Properties of adding and removing layers
-/

namespace Bb.Layers

open Py

/-! ## What a bblayers.conf is -/

inductive Op where
  | set
  | now
  | weak
  | add
  deriving DecidableEq

def Op.text : Op → Str
  | .set => "=".toList
  | .now => ":=".toList
  | .weak => "?=".toList
  | .add => "+=".toList

/-- A setting of BBLAYERS: its operator with spaces around it, a quote, and the pieces of the value on its lines. -/
structure Block where
  op : Op
  n : Nat
  m : Nat
  quote : Char
  first : Str
  more : List Str

/-- Text without quotes, backslashes and newlines. -/
def Clear (p : Str) : Prop := ∀ c ∈ p, c ≠ '"' ∧ c ≠ '\'' ∧ c ≠ '\\' ∧ c ≠ '\n'

/-- Pieces on lines, which are continued but for the last one. -/
def written (q : Char) : List Str → List Str
  | [] => []
  | [p] => [p ++ [q, '\n']]
  | p :: p' :: ps => (p ++ ['\\', '\n']) :: written q (p' :: ps)

def spaces (n : Nat) : Str := List.replicate n ' '

/-- Up to the operator. -/
def Block.start (b : Block) : Str := "BBLAYERS".toList ++ spaces b.n ++ b.op.text

def Block.lines (b : Block) : List Str :=
  written b.quote ((b.start ++ spaces b.m ++ b.quote :: b.first) :: b.more)

def Block.layers (b : Block) : List Str := words (b.first ++ b.more.flatten)

/-- The path of a layer. -/
def Layer (x : Str) : Prop := Clear x ∧ '~' ∉ x ∧ ∀ t, x ≠ t ++ ['/']

def Block.Ok (b : Block) : Prop :=
  (b.quote = '"' ∨ b.quote = '\'') ∧ (∀ p ∈ b.first :: b.more, Clear p) ∧ ∀ x ∈ b.layers, Layer x

inductive Item where
  | line (s : Str)
  | layers (b : Block)

def Item.Ok : Item → Prop
  | .line s => (∀ t, s ≠ "BBLAYERS".toList ++ t) ∧ ∃ t, s = t ++ ['\n']
  | .layers b => b.Ok

def Item.text : Item → List Str
  | .line s => [s]
  | .layers b => b.lines

/-- The lines of the file. -/
def file (l : List Item) : List Str := (l.map Item.text).flatten

/-- All settings. -/
def blocks : List Item → List Block
  | [] => []
  | .line _ :: l => blocks l
  | .layers b :: l => b :: blocks l

/-- All other lines. -/
def others : List Item → List Str
  | [] => []
  | .line s :: l => s :: others l
  | .layers _ :: l => others l

/-- What BBLAYERS is after these settings. -/
def evalFrom : Option (List Str) → List Block → Option (List Str)
  | v, [] => v
  | v, b :: bs =>
    match b.op with
    | .set => evalFrom (some b.layers) bs
    | .now => evalFrom (some b.layers) bs
    | .weak => evalFrom (some (v.getD b.layers)) bs
    | .add => evalFrom (some (v.getD [] ++ b.layers)) bs

/-- BBLAYERS. -/
def value (l : List Item) : List Str := (evalFrom none (blocks l)).getD []

/-- All settings but the first one add to it. -/
def Simple (l : List Item) : Prop := blocks l ≠ [] ∧ ∀ b ∈ (blocks l).tail, b.op = .add

/-! ## Reading -/

theorem not_blank {c : Char} (h : c = '"' ∨ c = '\'') : isWs c = false := by
  rcases h with rfl | rfl <;> decide

theorem rstrip_end {a : Str} {c : Char} (h : isWs c = false) : rstrip (a ++ [c, '\n']) = a ++ [c] := by
  have e : a ++ [c, '\n'] = (a ++ [c]) ++ ['\n'] := by simp
  rw [e, Bb.Chunk.rstrip_nl, Bb.Chunk.rstrip_clean]
  intro x d e2
  obtain ⟨-, e3⟩ := List.append_inj' e2 rfl
  cases e3; exact h

theorem rstrip_spaces {a : Str} (m : Nat) (h : Bb.Chunk.EndsClean a) : rstrip (a ++ spaces m) = a := by
  unfold rstrip spaces
  rw [List.reverse_append, List.reverse_replicate]
  have : ∀ m, (List.replicate m ' ' ++ a.reverse).dropWhile isWs = a.reverse.dropWhile isWs := by
    intro m
    induction m with
    | zero => rfl
    | succ m ih => rw [List.replicate_succ, List.cons_append, List.dropWhile_cons_of_pos (by decide), ih]
  rw [this]
  exact Bb.Chunk.rstrip_clean h

theorem text_ends (o : Op) : ∃ t, o.text = t ++ ['='] := by
  cases o
  · exact ⟨[], rfl⟩
  · exact ⟨[':'], rfl⟩
  · exact ⟨['?'], rfl⟩
  · exact ⟨['+'], rfl⟩

theorem start_ends (b : Block) : Bb.Chunk.EndsClean b.start := by
  intro a c e
  obtain ⟨t, ht⟩ := text_ends b.op
  unfold Block.start at e
  rw [ht, ← List.append_assoc] at e
  obtain ⟨-, e3⟩ := List.append_inj' e rfl
  cases e3; decide

theorem spaces_all (n : Nat) : ∀ x ∈ spaces n, spaceChar x = true := by
  intro x hx
  rw [List.eq_of_mem_replicate hx]; decide

theorem stop_take {p : Char → Bool} {a r : Str} (ha : ∀ x ∈ a, p x = true) (hr : ∃ c t, r = c :: t ∧ p c = false) :
    (a ++ r).takeWhile p = a ∧ (a ++ r).dropWhile p = r := by
  obtain ⟨c, t, rfl, hc⟩ := hr
  exact ⟨takeWhile_append_stop ha hc, dropWhile_append_stop ha hc⟩

theorem matchOp_text (before : Str) (o : Op) (m : Nat) {q : Char} (hq : q = '"' ∨ q = '\'') (x : Str) :
    matchOp before (o.text ++ (spaces m ++ q :: x)) = some (before ++ o.text ++ spaces m, q, x) := by
  obtain ⟨w, hw, ho⟩ : ∃ w, (∀ c ∈ w, opChar c = true) ∧ o.text = w ++ ['='] := by
    cases o
    · exact ⟨[], (fun _ h => nomatch h), rfl⟩
    · exact ⟨[':'], by decide, rfl⟩
    · exact ⟨['?'], by decide, rfl⟩
    · exact ⟨['+'], by decide, rfl⟩
  have e0 : o.text ++ (spaces m ++ q :: x) = w ++ '=' :: (spaces m ++ q :: x) := by rw [ho, List.append_assoc]; rfl
  obtain ⟨t1, d1⟩ := stop_take (p := opChar) (r := '=' :: (spaces m ++ q :: x)) hw ⟨'=', _, rfl, by decide⟩
  have hqs : spaceChar q = false := by rcases hq with rfl | rfl <;> decide
  obtain ⟨t2, d2⟩ := stop_take (p := endChar) (a := []) (r := spaces m ++ q :: x) (fun _ h => nomatch h) (by
    cases m with
    | zero => exact ⟨q, x, rfl, by rcases hq with rfl | rfl <;> decide⟩
    | succ m => exact ⟨' ', spaces m ++ q :: x, rfl, by decide⟩)
  rw [List.nil_append] at t2 d2
  obtain ⟨t3, d3⟩ := stop_take (p := spaceChar) (r := q :: x) (spaces_all m) ⟨q, x, rfl, hqs⟩
  unfold matchOp
  rw [e0, t1, d1]
  show (match ((spaces m ++ q :: x).dropWhile endChar).dropWhile spaceChar with
    | q' :: r5 =>
      if q' = '"' ∨ q' = '\'' then
        some (before ++ w ++ '=' :: ((spaces m ++ q :: x).takeWhile endChar ++
          ((spaces m ++ q :: x).dropWhile endChar).takeWhile spaceChar), q', r5)
      else none
    | [] => none) = _
  rw [d2, d3]
  show (if q = '"' ∨ q = '\'' then _ else _) = _
  rw [if_pos hq, t2, t3, ho]
  simp only [List.append_assoc, List.nil_append, List.cons_append]

theorem matchVar_block {b : Block} (hb : b.Ok) (x : Str) :
    matchVar (b.start ++ spaces b.m ++ b.quote :: x) = some (b.start ++ spaces b.m, b.quote, x) := by
  have e : b.start ++ spaces b.m ++ b.quote :: x =
      "BBLAYERS".toList ++ (spaces b.n ++ (b.op.text ++ (spaces b.m ++ b.quote :: x))) := by
    unfold Block.start
    simp only [List.append_assoc]
  have hs : startsWith ("BBLAYERS".toList ++ (spaces b.n ++ (b.op.text ++ (spaces b.m ++ b.quote :: x)))) "BBLAYERS".toList = true :=
    startsWith_iff.2 ⟨_, rfl⟩
  have hd : ("BBLAYERS".toList ++ (spaces b.n ++ (b.op.text ++ (spaces b.m ++ b.quote :: x)))).drop 8 =
      spaces b.n ++ (b.op.text ++ (spaces b.m ++ b.quote :: x)) := rfl
  obtain ⟨t1, d1⟩ := stop_take (p := spaceChar) (r := b.op.text ++ (spaces b.m ++ b.quote :: x)) (spaces_all b.n) (by
    cases b.op
    · exact ⟨'=', _, rfl, by decide⟩
    · exact ⟨':', _, rfl, by decide⟩
    · exact ⟨'?', _, rfl, by decide⟩
    · exact ⟨'+', _, rfl, by decide⟩)
  unfold matchVar
  rw [e, if_pos hs, hd, t1, d1, matchOp_text _ _ _ hb.1]
  unfold Block.start
  simp only [List.append_assoc]

/-- BitBake's operators. -/
def operators : List Str :=
  ["=".toList, ":=".toList, "?=".toList, "??=".toList, "+=".toList, ".=".toList, "=+".toList, "=.".toList]

/-- C202: a line that sets BBLAYERS is found with each of BitBake's operators, also with those that no setting of the
files below has (`??=`, `.=`, `=+`, `=.`): what is before the quote, the quote and what is after it. -/
theorem every_operator {o : Str} (ho : o ∈ operators) (n m : Nat) {q : Char} (hq : q = '"' ∨ q = '\'') (x : Str) :
    matchVar ("BBLAYERS".toList ++ (spaces n ++ (o ++ (spaces m ++ q :: x)))) =
      some ("BBLAYERS".toList ++ spaces n ++ o ++ spaces m, q, x) := by
  obtain ⟨w, v, hw, hv, hn, rfl⟩ : ∃ w v, (∀ c ∈ w, opChar c = true) ∧ (∀ c ∈ v, endChar c = true) ∧
      (∀ r : Str, ∃ c t, w ++ '=' :: r = c :: t ∧ spaceChar c = false) ∧ o = w ++ '=' :: v := by
    have ho' : o ∈ [['='], [':', '='], ['?', '='], ['?', '?', '='], ['+', '='], ['.', '='], ['=', '+'], ['=', '.']] := ho
    simp only [List.mem_cons, List.not_mem_nil, or_false] at ho'
    rcases ho' with rfl | rfl | rfl | rfl | rfl | rfl | rfl | rfl
    · exact ⟨[], [], by decide, by decide, fun _ => ⟨_, _, rfl, by decide⟩, rfl⟩
    · exact ⟨[':'], [], by decide, by decide, fun _ => ⟨_, _, rfl, by decide⟩, rfl⟩
    · exact ⟨['?'], [], by decide, by decide, fun _ => ⟨_, _, rfl, by decide⟩, rfl⟩
    · exact ⟨['?', '?'], [], by decide, by decide, fun _ => ⟨_, _, rfl, by decide⟩, rfl⟩
    · exact ⟨['+'], [], by decide, by decide, fun _ => ⟨_, _, rfl, by decide⟩, rfl⟩
    · exact ⟨['.'], [], by decide, by decide, fun _ => ⟨_, _, rfl, by decide⟩, rfl⟩
    · exact ⟨[], ['+'], by decide, by decide, fun _ => ⟨_, _, rfl, by decide⟩, rfl⟩
    · exact ⟨[], ['.'], by decide, by decide, fun _ => ⟨_, _, rfl, by decide⟩, rfl⟩
  have hqs : spaceChar q = false := by rcases hq with rfl | rfl <;> decide
  have e0 : w ++ '=' :: v ++ (spaces m ++ q :: x) = w ++ '=' :: (v ++ (spaces m ++ q :: x)) := by
    rw [List.append_assoc, List.cons_append]
  rw [e0]
  obtain ⟨t0, d0⟩ := stop_take (p := spaceChar) (spaces_all n) (hn (v ++ (spaces m ++ q :: x)))
  obtain ⟨t1, d1⟩ := stop_take (p := opChar) (r := '=' :: (v ++ (spaces m ++ q :: x))) hw ⟨'=', _, rfl, by decide⟩
  obtain ⟨t2, d2⟩ := stop_take (p := endChar) (r := spaces m ++ q :: x) hv (by
    cases m with
    | zero => exact ⟨q, x, rfl, by rcases hq with rfl | rfl <;> decide⟩
    | succ m => exact ⟨' ', spaces m ++ q :: x, rfl, by decide⟩)
  obtain ⟨t3, d3⟩ := stop_take (p := spaceChar) (r := q :: x) (spaces_all m) ⟨q, x, rfl, hqs⟩
  have hd : ("BBLAYERS".toList ++ (spaces n ++ (w ++ '=' :: (v ++ (spaces m ++ q :: x))))).drop 8 =
      spaces n ++ (w ++ '=' :: (v ++ (spaces m ++ q :: x))) := rfl
  unfold matchVar
  rw [if_pos (startsWith_iff.2 ⟨_, rfl⟩), hd, t0, d0]
  unfold matchOp
  rw [t1, d1]
  show (match ((v ++ (spaces m ++ q :: x)).dropWhile endChar).dropWhile spaceChar with
    | q' :: r5 =>
      if q' = '"' ∨ q' = '\'' then
        some ("BBLAYERS".toList ++ spaces n ++ w ++ '=' :: ((v ++ (spaces m ++ q :: x)).takeWhile endChar ++
          ((v ++ (spaces m ++ q :: x)).dropWhile endChar).takeWhile spaceChar), q', r5)
      else none
    | [] => none) = _
  rw [t2, d2, t3, d3]
  show (if q = '"' ∨ q = '\'' then _ else _) = _
  rw [if_pos hq]
  simp only [List.append_assoc, List.cons_append]

example : matchVar "BBLAYERS .= \" /a\"".toList = some ("BBLAYERS .= ".toList, '"', " /a\"".toList) :=
  every_operator (o := ".=".toList) (by decide) 1 1 (.inl rfl) _

theorem no_match {s : Str} (h : ∀ t, s ≠ "BBLAYERS".toList ++ t) : matchVar s = none := by
  unfold matchVar
  rw [if_neg]
  intro hs
  obtain ⟨t, ht⟩ := startsWith_iff.1 hs
  exact h t ht

theorem ends_last (a : Str) (c d : Char) : endsWith (a ++ [c]) [d] = decide (c = d) := by
  by_cases h : c = d
  · subst h
    rw [decide_eq_true rfl]
    exact endsWith_iff.2 ⟨a, rfl⟩
  · rw [decide_eq_false h, Bool.eq_false_iff]
    intro he
    obtain ⟨t, ht⟩ := endsWith_iff.1 he
    obtain ⟨-, e⟩ := List.append_inj' ht rfl
    cases e; exact h rfl

theorem clear_end {p : Str} (h : Clear p) {q : Char} (hq : q = '"' ∨ q = '\'' ∨ q = '\\') : endsWith p [q] = false := by
  rw [Bool.eq_false_iff]
  intro he
  obtain ⟨t, rfl⟩ := endsWith_iff.1 he
  have := h q (List.mem_append_right _ List.mem_cons_self)
  rcases hq with rfl | rfl | rfl
  · exact this.1 rfl
  · exact this.2.1 rfl
  · exact this.2.2.1 rfl

variable {σ : Type} {cb : σ → Str → Str → σ × Res}

theorem finish_var (s : St σ) (v v' : InVar) : finish cb { s with var := some v' } v = finish cb { s with var := none } v := by
  unfold finish
  rfl

theorem step_more {q : Char} (hq : q = '"' ∨ q = '\'') : ∀ {ps : List Str} {s : St σ} {v : InVar}, ps ≠ [] → (∀ p ∈ ps, Clear p) →
    s.var = some v → v.quote = q → (written q ps).foldl (step cb) s =
      finish cb { s with var := none } { v with full := v.full ++ ps.flatten, lines := v.lines ++ written q ps }
  | [], _, _, h, _, _, _ => absurd rfl h
  | [p], s, v, _, hp, hs, hv => by
    show step cb s (p ++ [q, '\n']) = _
    unfold step
    rw [hs]
    dsimp only
    unfold stepIn
    rw [rstrip_end (not_blank hq), hv, if_pos (by rw [ends_last]; exact decide_eq_true rfl), List.dropLast_concat]
    have : s = { s with var := some v } := by cases s; cases hs; rfl
    rw [this, finish_var]
    simp [written]
  | p :: p' :: ps, s, v, _, hp, hs, hv => by
    show (written q (p' :: ps)).foldl (step cb) (step cb s (p ++ ['\\', '\n'])) = _
    have e : step cb s (p ++ ['\\', '\n']) =
        { s with var := some { v with full := v.full ++ p, lines := v.lines ++ [p ++ ['\\', '\n']] } } := by
      unfold step
      rw [hs]
      dsimp only
      unfold stepIn
      rw [rstrip_end (by decide), hv, if_neg, List.dropLast_concat]
      rw [ends_last]
      intro h
      have := of_decide_eq_true h
      subst this
      rcases hq with h | h <;> exact absurd h (by decide)
    rw [e, step_more hq (v := { v with full := v.full ++ p, lines := v.lines ++ [p ++ ['\\', '\n']] })
      (List.cons_ne_nil _ _) (fun x hx => hp x (List.mem_cons_of_mem _ hx)) rfl hv]
    simp [written, List.append_assoc]

/-- A setting is read as a whole. -/
theorem step_block {b : Block} (hb : b.Ok) {s : St σ} (hs : s.var = none) :
    b.lines.foldl (step cb) s =
      finish cb s { start := b.start, quote := b.quote, full := b.first ++ b.more.flatten, lines := b.lines } := by
  have hsn : { s with var := none } = s := by cases s; cases hs; rfl
  have hf := hb.2.1 b.first List.mem_cons_self
  have hq3 : b.quote = '"' ∨ b.quote = '\'' ∨ b.quote = '\\' := hb.1.elim .inl fun h => .inr (.inl h)
  have hstart := rstrip_spaces b.m (start_ends b)
  unfold Block.lines
  cases hm : b.more with
  | nil =>
    show step cb s (b.start ++ spaces b.m ++ b.quote :: b.first ++ [b.quote, '\n']) = _
    have e : b.start ++ spaces b.m ++ b.quote :: b.first ++ [b.quote, '\n'] =
      b.start ++ spaces b.m ++ b.quote :: (b.first ++ [b.quote, '\n']) := by simp
    have hm := matchVar_block hb (b.first ++ [b.quote, '\n'])
    rw [e]
    unfold step
    rw [hs, hm]
    dsimp only
    unfold stepVar
    have hnc : noCont (rstrip (b.first ++ [b.quote, '\n'])) = b.first ++ [b.quote] := by
      rw [rstrip_end (not_blank hb.1)]
      unfold noCont
      rw [if_neg]
      rw [ends_last]
      intro h
      rcases hb.1 with h' | h' <;> rw [h'] at h <;> exact absurd h (by decide)
    rw [hnc, if_pos (by rw [ends_last]; exact decide_eq_true rfl), hstart, List.dropLast_concat, ← e]
    simp [written]
  | cons p ps =>
    show (written b.quote (p :: ps)).foldl (step cb) (step cb s (b.start ++ spaces b.m ++ b.quote :: b.first ++ ['\\', '\n'])) = _
    have e : b.start ++ spaces b.m ++ b.quote :: b.first ++ ['\\', '\n'] =
      b.start ++ spaces b.m ++ b.quote :: (b.first ++ ['\\', '\n']) := by simp
    have hmv := matchVar_block hb (b.first ++ ['\\', '\n'])
    have e1 : step cb s (b.start ++ spaces b.m ++ b.quote :: b.first ++ ['\\', '\n']) =
        { s with var := some { start := b.start, quote := b.quote, full := b.first,
                               lines := [b.start ++ spaces b.m ++ b.quote :: b.first ++ ['\\', '\n']] } } := by
      rw [e]
      unfold step
      rw [hs, hmv]
      dsimp only
      unfold stepVar
      have hnc : noCont (rstrip (b.first ++ ['\\', '\n'])) = b.first := by
        rw [rstrip_end (by decide)]
        unfold noCont
        rw [if_pos (by rw [ends_last]; decide), List.dropLast_concat]
      rw [hnc, if_neg (by rw [clear_end hf hq3]; exact Bool.false_ne_true), hstart]
    rw [e1, step_more hb.1 (List.cons_ne_nil _ _)
      (fun x hx => hb.2.1 x (List.mem_cons_of_mem _ (hm ▸ hx))) rfl rfl]
    dsimp only
    rw [hsn]
    simp [written]

theorem op_read (b : Block) : strip (b.start.drop 8) = b.op.text := by
  have e : b.start.drop 8 = spaces b.n ++ b.op.text := by
    unfold Block.start
    rw [List.append_assoc]; rfl
  have hne : ∃ c t, b.op.text = c :: t ∧ isWs c = false := by
    cases b.op
    · exact ⟨'=', [], rfl, by decide⟩
    · exact ⟨':', ['='], rfl, by decide⟩
    · exact ⟨'?', ['='], rfl, by decide⟩
    · exact ⟨'+', ['='], rfl, by decide⟩
  rw [e]
  unfold strip lstrip
  rw [(stop_take (p := isWs) (a := spaces b.n) (fun x hx => by rw [List.eq_of_mem_replicate hx]; decide) hne).2]
  cases b.op <;> decide

theorem text_inj {a b : Op} (h : a.text = b.text) : a = b := by
  cases a <;> cases b <;> first | rfl | exact absurd h (by decide)

/-! ## Writing -/

/-- A setting as it is written anew. -/
def Block.anew (b : Block) (l : List Str) : Block :=
  if l = [] then { b with m := 1, quote := '"', first := [], more := [] }
  else { b with m := 1, quote := '"', first := " ".toList, more := (l.map fun i => "  ".toList ++ i ++ " ".toList) ++ ["  ".toList] }

theorem anew_op (b : Block) (l : List Str) : (b.anew l).op = b.op := by
  unfold Block.anew
  split <;> rfl

theorem written_snoc (q : Char) : ∀ (ps : List Str) (p : Str), written q (ps ++ [p]) = (ps.map (· ++ ['\\', '\n'])) ++ [p ++ [q, '\n']]
  | [], _ => rfl
  | [_], _ => rfl
  | x :: y :: ps, p => by
    show (x ++ ['\\', '\n']) :: written q (y :: ps ++ [p]) = _
    rw [written_snoc q (y :: ps) p]
    rfl

theorem block_anew (b : Block) (l : List Str) : block b.start l = (b.anew l).lines := by
  unfold block Block.anew
  by_cases h : l = []
  · rw [if_pos h, if_pos h]
    show [b.start ++ " \"\"\n".toList] = [b.start ++ spaces 1 ++ ['"'] ++ ['"', '\n']]
    rw [List.append_assoc, List.append_assoc]; rfl
  · rw [if_neg h, if_neg h]
    show _ = written '"' ((b.start ++ spaces 1 ++ '"' :: " ".toList) :: (l.map fun i => "  ".toList ++ i ++ " ".toList) ++ ["  ".toList])
    rw [written_snoc, List.map_cons, List.map_map]
    congr 1
    congr 1
    · show _ = b.start ++ spaces 1 ++ '"' :: " ".toList ++ ['\\', '\n']
      rw [List.append_assoc, List.append_assoc]; rfl
    · refine List.map_congr_left fun i _ => ?_
      show _ = "  ".toList ++ i ++ " ".toList ++ ['\\', '\n']
      rw [List.append_assoc, List.append_assoc, List.append_assoc]; rfl

theorem words_app_sp (a b : Str) : words (a ++ ' ' :: b) = words a ++ words b := words_append_ws a b ' ' (by decide)

theorem words_sp (b : Str) : words (' ' :: b) = words b := words_cons_ws b ' ' (by decide)

theorem anew_layers (b : Block) {l : List Str} (h : ∀ w ∈ l, IsWord w) : (b.anew l).layers = l := by
  unfold Block.layers Block.anew
  by_cases he : l = []
  · rw [if_pos he, he]; rfl
  · rw [if_neg he]
    show words (" ".toList ++ ((l.map fun i => "  ".toList ++ i ++ " ".toList) ++ ["  ".toList]).flatten) = l
    rw [show (" ".toList ++ ((l.map fun i => "  ".toList ++ i ++ " ".toList) ++ ["  ".toList]).flatten) =
      ' ' :: ((l.map fun i => "  ".toList ++ i ++ " ".toList) ++ ["  ".toList]).flatten from rfl, words_sp]
    clear he
    induction l with
    | nil => decide
    | cons w l ih =>
      have e : (((w :: l).map fun i => "  ".toList ++ i ++ " ".toList) ++ ["  ".toList]).flatten =
          ' ' :: ' ' :: (w ++ ' ' :: ((l.map fun i => "  ".toList ++ i ++ " ".toList) ++ ["  ".toList]).flatten) := by
        rw [List.map_cons, List.cons_append, List.flatten_cons, List.append_assoc, List.append_assoc]; rfl
      rw [e, words_sp, words_sp, words_app_sp, words_word (h w List.mem_cons_self),
        ih fun x hx => h x (List.mem_cons_of_mem _ hx)]
      rfl

theorem anew_ok {b : Block} {l : List Str} (hw : ∀ w ∈ l, IsWord w) (hl : ∀ w ∈ l, Layer w) : (b.anew l).Ok := by
  refine ⟨?_, ?_, ?_⟩
  · unfold Block.anew; split <;> exact .inl rfl
  · unfold Block.anew
    split
    · intro p hp
      rw [List.mem_singleton.1 hp]
      intro c hc; cases hc
    · intro p hp
      have hsp : ∀ n, Clear (spaces n) := fun n c hc => by rw [List.eq_of_mem_replicate hc]; decide
      rcases List.mem_cons.1 hp with rfl | hp
      · exact hsp 1
      · rcases List.mem_append.1 hp with hp | hp
        · obtain ⟨w, hw, rfl⟩ := List.mem_map.1 hp
          intro c hc
          rcases List.mem_append.1 hc with hc | hc
          · rcases List.mem_append.1 hc with hc | hc
            · exact hsp 2 c hc
            · exact (hl w hw).1 c hc
          · exact hsp 1 c hc
        · rw [List.mem_singleton.1 hp]
          exact hsp 2
  · rw [anew_layers b hw]; exact hl

/-! ## The paths -/

theorem Layer.noSep {x : Str} (h : Layer x) : noSep x = x := by
  unfold Layers.noSep
  rw [if_neg]
  intro he
  obtain ⟨t, ht⟩ := endsWith_iff.1 he
  exact h.2.2 t ht

theorem Layer.canon {x : Str} (h : Layer x) (ex : Option (Str → Str)) : canon ex x = x := by
  unfold Layers.canon
  cases ex with
  | none => exact h.noSep
  | some f =>
    dsimp only
    rw [h.noSep, if_neg]
    intro hc
    exact h.2.1 (List.contains_iff_mem.1 hc)

theorem map_id_of {f : Str → Str} {l : List Str} (h : ∀ x ∈ l, f x = x) : l.map f = l := by
  induction l with
  | nil => rfl
  | cons x l ih => rw [List.map_cons, h x List.mem_cons_self, ih fun y hy => h y (List.mem_cons_of_mem _ hy)]

theorem Block.Ok.noSep {b : Block} (h : b.Ok) : b.layers.map noSep = b.layers := map_id_of fun x hx => (h.2.2 x hx).noSep

theorem Block.Ok.canon {b : Block} (h : b.Ok) (ex : Option (Str → Str)) : b.layers.map (canon ex) = b.layers :=
  map_id_of fun x hx => (h.2.2 x hx).canon ex

theorem layers_word {b : Block} {x : Str} (h : x ∈ b.layers) : IsWord x := words_isWord h

/-! ## The first pass -/

theorem first_pass (ex : Option (Str → Str)) : ∀ {l : List Item} {s : St (List Str × List Str)}, (∀ i ∈ l, i.Ok) →
    s.var = none → s.check = false →
    ∃ orig, (file l).foldl (step (first ex)) s =
      { s with cb := (s.cb.1 ++ (blocks l).map (fun b : Block => b.op.text), orig), new := s.new ++ file l } ∧
      ((∀ b ∈ blocks l, b.op = .add) → orig = s.cb.2 ++ ((blocks l).map Block.layers).flatten)
  | [], s, _, _, _ => ⟨s.cb.2, by simp [file, blocks], fun _ => by simp [blocks]⟩
  | .line x :: l, s, hok, hs, hc => by
    have hx := hok _ List.mem_cons_self
    have e : step (first ex) s x = { s with new := s.new ++ [x] } := by
      unfold step
      rw [hs, no_match hx.1]
      dsimp only
      unfold stepLine
      rw [if_neg (by rw [hc]; exact fun h => nomatch h.1)]
      cases s; cases hc; cases hs; rfl
    obtain ⟨orig, h1, h2⟩ := first_pass ex (s := { s with new := s.new ++ [x] }) (fun i hi => hok i (List.mem_cons_of_mem _ hi)) hs hc
    refine ⟨orig, ?_, h2⟩
    show (file l).foldl (step (first ex)) (step (first ex) s x) = _
    rw [e, h1]
    show _ = { s with cb := (s.cb.1 ++ (blocks l).map (fun b : Block => b.op.text), orig), new := s.new ++ ([x] ++ file l) }
    simp only [List.append_assoc]
  | .layers b :: l, s, hok, hs, hc => by
    have hb : b.Ok := hok _ List.mem_cons_self
    have e : b.lines.foldl (step (first ex)) s = { s with
        cb := (s.cb.1 ++ [b.op.text], (if b.op.text = "=".toList then [] else s.cb.2) ++ b.layers), new := s.new ++ b.lines } := by
      rw [step_block hb hs]
      unfold finish first
      dsimp only
      rw [op_read]
      have : (words (b.first ++ b.more.flatten)).map (canon ex) = b.layers := hb.canon ex
      rw [this]
      cases s; cases hs; rfl
    obtain ⟨orig, h1, h2⟩ := first_pass ex (s := { s with
        cb := (s.cb.1 ++ [b.op.text], (if b.op.text = "=".toList then [] else s.cb.2) ++ b.layers), new := s.new ++ b.lines })
      (fun i hi => hok i (List.mem_cons_of_mem _ hi)) hs hc
    refine ⟨orig, ?_, fun ha => ?_⟩
    · have ef : file (.layers b :: l) = b.lines ++ file l := rfl
      rw [ef, List.foldl_append, e, h1]
      show ({ s with cb := (s.cb.1 ++ [b.op.text] ++ (blocks l).map (fun b : Block => b.op.text), orig), new := s.new ++ b.lines ++ file l } : St _) =
        { s with cb := (s.cb.1 ++ (b.op.text :: (blocks l).map (fun b : Block => b.op.text)), orig), new := s.new ++ (b.lines ++ file l) }
      simp only [List.append_assoc, List.singleton_append]
    · rw [h2 fun x hx => ha x (List.mem_cons_of_mem _ hx)]
      have hbo : b.op = .add := ha b List.mem_cons_self
      show (if b.op.text = "=".toList then [] else s.cb.2) ++ b.layers ++ _ = s.cb.2 ++ (b.layers ++ _)
      rw [hbo, if_neg (by decide), List.append_assoc]

/-- All layers, whatever their settings do. -/
def allLayers (l : List Item) : List Str := ((blocks l).map Block.layers).flatten

theorem evalFrom_add : ∀ {bs : List Block} (v : List Str), (∀ b ∈ bs, b.op = .add) →
    evalFrom (some v) bs = some (v ++ (bs.map Block.layers).flatten)
  | [], v, _ => by simp [evalFrom]
  | b :: bs, v, h => by
    show (match b.op with
      | .set => evalFrom (some b.layers) bs
      | .now => evalFrom (some b.layers) bs
      | .weak => evalFrom (some v) bs
      | .add => evalFrom (some (v ++ b.layers)) bs) = _
    rw [h b List.mem_cons_self]
    dsimp only
    rw [evalFrom_add _ fun x hx => h x (List.mem_cons_of_mem _ hx), List.map_cons, List.flatten_cons, List.append_assoc]

theorem value_all {l : List Item} (h : ∀ b ∈ (blocks l).tail, b.op = .add) : value l = allLayers l := by
  unfold value allLayers
  cases hb : blocks l with
  | nil => rfl
  | cons b bs =>
    rw [hb] at h
    have h : ∀ x ∈ bs, x.op = .add := h
    have e : evalFrom none (b :: bs) = evalFrom (some b.layers) bs := by
      show (match b.op with
        | .set => evalFrom (some b.layers) bs
        | .now => evalFrom (some b.layers) bs
        | .weak => evalFrom (some b.layers) bs
        | .add => evalFrom (some ([] ++ b.layers)) bs) = _
      cases b.op <;> rfl
    rw [e, evalFrom_add _ h]
    rfl

theorem blocks_append (a b : List Item) : blocks (a ++ b) = blocks a ++ blocks b := by
  induction a with
  | nil => rfl
  | cons i a ih => cases i with
    | line s => exact ih
    | layers x => show x :: blocks (a ++ b) = _; rw [ih]; rfl

theorem others_append (a b : List Item) : others (a ++ b) = others a ++ others b := by
  induction a with
  | nil => rfl
  | cons i a ih => cases i with
    | line s => show s :: others (a ++ b) = _; rw [ih]; rfl
    | layers x => exact ih

theorem file_append (a b : List Item) : file (a ++ b) = file a ++ file b := by
  unfold file; rw [List.map_append, List.flatten_append]

/-- The first setting, and what is before and after it. -/
theorem split_first {l : List Item} (h : blocks l ≠ []) : ∃ pre b post, l = pre ++ .layers b :: post ∧ blocks pre = [] := by
  induction l with
  | nil => exact absurd rfl h
  | cons i l ih => cases i with
    | line s =>
      obtain ⟨pre, b, post, e, hp⟩ := ih h
      exact ⟨.line s :: pre, b, post, by rw [e]; rfl, hp⟩
    | layers b => exact ⟨[], b, l, rfl, rfl⟩

theorem first_simple {l : List Item} (hok : ∀ i ∈ l, i.Ok) (hs : Simple l) (ex : Option (Str → Str)) :
    edit (first ex) ([], []) (file l) =
      { cb := ((blocks l).map (fun b : Block => b.op.text), value l), new := file l, var := none, check := false, upd := false } := by
  obtain ⟨pre, b, post, e, hp⟩ := split_first hs.1
  have hbl : blocks l = b :: blocks post := by rw [e, blocks_append, hp]; rfl
  have hadd : ∀ x ∈ blocks post, x.op = .add := fun x hx => hs.2 x (by rw [hbl]; exact hx)
  have hb : b.Ok := hok (.layers b) (e ▸ List.mem_append_right _ List.mem_cons_self)
  obtain ⟨o1, h1, h1o⟩ := first_pass ex (l := pre) (s := { cb := ([], []), new := [], var := none, check := false, upd := false })
    (fun i hi => hok i (e ▸ List.mem_append_left _ hi)) rfl rfl
  have ho1 : o1 = [] := by
    rw [h1o (fun x hx => by rw [hp] at hx; cases hx), hp]; rfl
  subst ho1
  unfold edit
  have ef : file l = file pre ++ (b.lines ++ file post) := by rw [e, file_append]; rfl
  rw [ef, List.foldl_append, h1, List.foldl_append, step_block hb rfl]
  unfold finish first
  dsimp only
  rw [op_read]
  have hc : (words (b.first ++ b.more.flatten)).map (canon ex) = b.layers := hb.canon ex
  rw [hc]
  obtain ⟨o2, h2, h2o⟩ := first_pass ex (l := post) (s := {
      cb := ([] ++ (blocks pre).map (fun b : Block => b.op.text) ++ [b.op.text], (if b.op.text = "=".toList then [] else []) ++ b.layers),
      new := [] ++ file pre ++ b.lines, var := none, check := false, upd := false })
    (fun i hi => hok i (e ▸ List.mem_append_right _ (List.mem_cons_of_mem _ hi))) rfl rfl
  have ho2 := h2o hadd
  unfold first at h2
  rw [h2, ho2, value_all hs.2]
  unfold allLayers
  rw [hbl, hp]
  simp only [List.map_nil, List.nil_append, List.append_assoc, List.map_cons, List.flatten_cons, List.singleton_append,
    ite_self]

/-! ## The second pass -/

theorem second_rest {ex : Option (Str → Str)} {R : List Str} {plus : Bool} {c : List Str × List Str} {value op : Str}
    (h : plus = true ∨ c.2 = []) : second ex R plus c value op =
      ((c.1 ++ (removeAll ex R ((words value).map noSep)).2, c.2),
        result ((removeAll ex R ((words value).map noSep)).2 ≠ []) op (removeAll ex R ((words value).map noSep)).1) := by
  unfold second
  dsimp only
  cases plus with
  | true => rfl
  | false =>
    have hc : c.2 = [] := h.resolve_left (fun h => nomatch h)
    rw [if_neg Bool.false_ne_true, hc]
    have e : ∀ l, addAll [] l = l := fun _ => rfl
    rw [e]
    congr 2
    simp

theorem removeOne_sub {ex : Option (Str → Str)} {l : List Str} {r x : Str} (h : x ∈ (removeOne ex l r).1) : x ∈ l := by
  unfold removeOne at h
  split at h
  · exact List.mem_of_mem_erase h
  · exact h

theorem removeAll_sub {ex : Option (Str → Str)} : ∀ {R l : List Str} {x : Str}, x ∈ (removeAll ex R l).1 → x ∈ l
  | [], _, _, h => h
  | _ :: _, _, _, h => removeOne_sub (removeAll_sub h)

theorem removeOne_none {ex : Option (Str → Str)} {l : List Str} {r : Str} (h : (removeOne ex l r).2 = false) :
    (removeOne ex l r).1 = l := by
  unfold removeOne at h ⊢
  split
  · rename_i x hx
    rw [hx] at h; cases h
  · rfl

theorem removeAll_none {ex : Option (Str → Str)} : ∀ {R l : List Str}, (removeAll ex R l).2 = [] → (removeAll ex R l).1 = l
  | [], _, _ => rfl
  | r :: rs, l, h => by
    have h' : (if (removeOne ex l r).2 then [r] else []) ++ (removeAll ex rs (removeOne ex l r).1).2 = [] := h
    obtain ⟨h1, h2⟩ := List.append_eq_nil_iff.1 h'
    have hb : (removeOne ex l r).2 = false := by
      rw [Bool.eq_false_iff]; intro e; rw [e] at h1; cases h1
    show (removeAll ex rs (removeOne ex l r).1).1 = l
    rw [removeAll_none h2, removeOne_none hb]

/-- What becomes of a setting. -/
def rmBlock (ex : Option (Str → Str)) (R : List Str) (b : Block) : List Block :=
  if (removeAll ex R b.layers).2 = [] then [b]
  else if b.op = .add ∧ (removeAll ex R b.layers).1 = [] then []
  else [b.anew (removeAll ex R b.layers).1]

theorem rmBlock_layers {ex : Option (Str → Str)} {R : List Str} {b : Block} :
    ((rmBlock ex R b).map Block.layers).flatten = (removeAll ex R b.layers).1 := by
  unfold rmBlock
  split
  · rename_i h
    rw [removeAll_none h]; simp
  · split
    · rename_i h; rw [h.2]; rfl
    · rw [List.map_cons, List.map_nil, List.flatten_cons, List.flatten_nil, List.append_nil,
        anew_layers b fun w hw => layers_word (removeAll_sub hw)]

theorem rmBlock_op {ex : Option (Str → Str)} {R : List Str} {b x : Block} (h : x ∈ rmBlock ex R b) : x.op = b.op := by
  unfold rmBlock at h
  split at h
  · rw [List.mem_singleton.1 h]
  · split at h
    · cases h
    · rw [List.mem_singleton.1 h, anew_op]

theorem written_last {q : Char} (hq : q = '"' ∨ q = '\'') : ∀ {ps : List Str}, ps ≠ [] →
    ∃ a, (written q ps).getLast? = some (a ++ [q, '\n'])
  | [], h => absurd rfl h
  | [p], _ => ⟨p, rfl⟩
  | p :: p' :: ps, _ => by
    obtain ⟨a, ha⟩ := written_last hq (ps := p' :: ps) (List.cons_ne_nil _ _)
    refine ⟨a, ?_⟩
    show ((p ++ ['\\', '\n']) :: written q (p' :: ps)).getLast? = _
    rw [List.getLast?_cons, ha]; rfl

theorem lines_last {b : Block} (hb : b.Ok) (l : List Str) : (l ++ b.lines).getLast? ≠ some ['\n'] := by
  obtain ⟨a, ha⟩ := written_last hb.1 (ps := (b.start ++ spaces b.m ++ b.quote :: b.first) :: b.more) (List.cons_ne_nil _ _)
  rw [List.getLast?_append]
  unfold Block.lines
  rw [ha]
  intro h
  have h : a ++ [b.quote, '\n'] = ['\n'] := Option.some.inj h
  have := congrArg List.length h
  rw [List.length_append] at this
  simp at this

/-- Nothing but blank lines. -/
def NonBlank (l : List Str) : List Str := l.filter fun x => decide (x ≠ ['\n'])

/-- The second pass where no layer is to be added (any more). -/
theorem second_pass (ex : Option (Str → Str)) (R : List Str) (plus : Bool) :
    ∀ {l : List Item} {s : St (List Str × List Str)}, (∀ i ∈ l, i.Ok) → s.var = none → (plus = true ∨ s.cb.2 = []) →
    ∃ l' ck, (file l).foldl (step (second ex R plus)) s =
        { cb := (s.cb.1 ++ ((blocks l).map fun b => (removeAll ex R b.layers).2).flatten, s.cb.2), new := s.new ++ file l',
          var := none, check := ck,
          upd := s.upd || decide (((blocks l).map fun b => (removeAll ex R b.layers).2).flatten ≠ []) } ∧
      (∀ i ∈ l', i.Ok) ∧ blocks l' = ((blocks l).map (rmBlock ex R)).flatten ∧ NonBlank (others l') = NonBlank (others l) ∧
      (((blocks l).map fun b => (removeAll ex R b.layers).2).flatten = [] →
        (s.check = false ∨ s.new.getLast? ≠ some ['\n']) → l' = l)
  | [], s, _, hs, _ => by
    refine ⟨[], s.check, ?_, (fun _ h => nomatch h), rfl, rfl, fun _ _ => rfl⟩
    cases s; cases hs
    simp [file, blocks]
  | .line x :: l, s, hok, hs, hp => by
    have hx := hok _ List.mem_cons_self
    have hok' : ∀ i ∈ l, i.Ok := fun i hi => hok i (List.mem_cons_of_mem _ hi)
    by_cases hq : s.check = true ∧ s.new.getLast? = some ['\n'] ∧ x = ['\n']
    · have e : step (second ex R plus) s x = { s with check := false } := by
        unfold step
        rw [no_match hx.1]
        cases s; cases hs
        dsimp only
        unfold stepLine
        rw [if_pos hq]
      obtain ⟨l', ck, h1, h2, h3, h4, -⟩ := second_pass ex R plus (s := { s with check := false }) hok' hs hp
      refine ⟨l', ck, ?_, h2, h3, ?_, fun _ hc => ?_⟩
      · show (file l).foldl (step (second ex R plus)) (step (second ex R plus) s x) = _
        rw [e, h1]; rfl
      · rw [h4]
        unfold NonBlank
        show _ = List.filter _ (x :: others l)
        rw [List.filter_cons, hq.2.2]
        rfl
      · rcases hc with hc | hc
        · rw [hq.1] at hc; cases hc
        · exact absurd hq.2.1 hc
    · have e : step (second ex R plus) s x = { s with check := false, new := s.new ++ [x] } := by
        unfold step
        rw [no_match hx.1]
        cases s; cases hs
        dsimp only
        unfold stepLine
        rw [if_neg hq]
      obtain ⟨l', ck, h1, h2, h3, h4, h5⟩ := second_pass ex R plus (s := { s with check := false, new := s.new ++ [x] }) hok' hs hp
      refine ⟨.line x :: l', ck, ?_, ?_, h3, ?_, fun hn _ => ?_⟩
      · show (file l).foldl (step (second ex R plus)) (step (second ex R plus) s x) = _
        rw [e, h1]
        show _ = ({ cb := (s.cb.1 ++ ((blocks l).map fun b => (removeAll ex R b.layers).2).flatten, s.cb.2),
                    new := s.new ++ ([x] ++ file l'), var := none, check := ck, upd := _ } : St _)
        rw [← List.append_assoc]; rfl
      · intro i hi
        rcases List.mem_cons.1 hi with rfl | hi
        · exact hx
        · exact h2 i hi
      · unfold NonBlank at h4 ⊢
        show List.filter _ (x :: others l') = List.filter _ (x :: others l)
        rw [List.filter_cons, List.filter_cons, h4]
      · rw [h5 hn (.inl rfl)]
  | .layers b :: l, s, hok, hs, hp => by
    have hb : b.Ok := hok _ List.mem_cons_self
    have hok' : ∀ i ∈ l, i.Ok := fun i hi => hok i (List.mem_cons_of_mem _ hi)
    have ef : file (.layers b :: l) = b.lines ++ file l := rfl
    have hcb : second ex R plus s.cb (b.first ++ b.more.flatten) b.op.text =
        ((s.cb.1 ++ (removeAll ex R b.layers).2, s.cb.2),
          result ((removeAll ex R b.layers).2 ≠ []) b.op.text (removeAll ex R b.layers).1) := by
      rw [second_rest hp]
      have : (words (b.first ++ b.more.flatten)).map noSep = b.layers := hb.noSep
      rw [this]
    have hopt : b.op.text = "+=".toList ↔ b.op = .add := Iff.intro (fun h => text_inj h) (fun h => by rw [h]; rfl)
    have hupd : ∀ (x y z : List Str), decide (y ++ z ≠ []) = (decide (y ≠ []) || decide (z ≠ [])) := by
      intro x y z
      cases y <;> simp
    have hfin : b.lines.foldl (step (second ex R plus)) s = _ := step_block (cb := second ex R plus) hb hs
    by_cases hr : (removeAll ex R b.layers).2 = []
    · have hres : result (decide ((removeAll ex R b.layers).2 ≠ [])) b.op.text (removeAll ex R b.layers).1 = .keep := by
        unfold result
        rw [hr]; rfl
      rw [hres] at hcb
      have e : b.lines.foldl (step (second ex R plus)) s =
          { s with cb := (s.cb.1 ++ (removeAll ex R b.layers).2, s.cb.2), new := s.new ++ b.lines, var := none } := by
        rw [hfin]
        unfold finish
        dsimp only
        rw [op_read, hcb]
      obtain ⟨l', ck, h1, h2, h3, h4, h5⟩ := second_pass ex R plus
        (s := { s with cb := (s.cb.1 ++ (removeAll ex R b.layers).2, s.cb.2), new := s.new ++ b.lines, var := none }) hok' rfl hp
      refine ⟨.layers b :: l', ck, ?_, ?_, ?_, h4, fun hn _ => ?_⟩
      · rw [ef, List.foldl_append, e, h1]
        show _ = ({ cb := (s.cb.1 ++ ((removeAll ex R b.layers).2 ++ _), s.cb.2), new := s.new ++ (b.lines ++ file l'),
                    var := none, check := ck,
                    upd := s.upd || decide ((removeAll ex R b.layers).2 ++ ((blocks l).map fun b => (removeAll ex R b.layers).2).flatten ≠ []) } : St _)
        rw [hupd [], hr]
        simp only [List.append_assoc, List.append_nil, List.nil_append]
        rfl
      · intro i hi
        rcases List.mem_cons.1 hi with rfl | hi
        · exact hb
        · exact h2 i hi
      · show b :: blocks l' = rmBlock ex R b ++ ((blocks l).map (rmBlock ex R)).flatten
        unfold rmBlock
        rw [if_pos hr, h3]
        rfl
      · have hn' : (removeAll ex R b.layers).2 ++ ((blocks l).map fun b => (removeAll ex R b.layers).2).flatten = [] := hn
        rw [h5 (List.append_eq_nil_iff.1 hn').2 (.inr (lines_last hb _))]
    · by_cases hd : b.op = .add ∧ (removeAll ex R b.layers).1 = []
      · have hres : result (decide ((removeAll ex R b.layers).2 ≠ [])) b.op.text (removeAll ex R b.layers).1 = .drop := by
          unfold result
          rw [if_pos (decide_eq_true hr), if_pos ⟨hopt.2 hd.1, hd.2⟩]
        rw [hres] at hcb
        have e : b.lines.foldl (step (second ex R plus)) s =
            { cb := (s.cb.1 ++ (removeAll ex R b.layers).2, s.cb.2), new := s.new, var := none, check := true, upd := true } := by
          rw [hfin]
          unfold finish
          dsimp only
          rw [op_read, hcb]
        obtain ⟨l', ck, h1, h2, h3, h4, h5⟩ := second_pass ex R plus
          (s := { cb := (s.cb.1 ++ (removeAll ex R b.layers).2, s.cb.2), new := s.new, var := none, check := true, upd := true })
          hok' rfl hp
        refine ⟨l', ck, ?_, h2, ?_, h4, fun hn _ => ?_⟩
        · rw [ef, List.foldl_append, e, h1]
          show _ = ({ cb := (s.cb.1 ++ ((removeAll ex R b.layers).2 ++ _), s.cb.2), new := s.new ++ file l',
                      var := none, check := ck,
                      upd := s.upd || decide ((removeAll ex R b.layers).2 ++ ((blocks l).map fun b => (removeAll ex R b.layers).2).flatten ≠ []) } : St _)
          rw [hupd [], decide_eq_true hr]
          simp only [List.append_assoc, Bool.true_or, Bool.or_true]
        · show blocks l' = rmBlock ex R b ++ ((blocks l).map (rmBlock ex R)).flatten
          unfold rmBlock
          rw [if_neg hr, if_pos hd, h3]
          rfl
        · exact absurd (List.append_eq_nil_iff.1 (show (removeAll ex R b.layers).2 ++ _ = [] from hn)).1 hr
      · have hres : result (decide ((removeAll ex R b.layers).2 ≠ [])) b.op.text (removeAll ex R b.layers).1 =
            .items (removeAll ex R b.layers).1 := by
          unfold result
          rw [if_pos (decide_eq_true hr), if_neg fun h => hd ⟨hopt.1 h.1, h.2⟩]
        rw [hres] at hcb
        have e : b.lines.foldl (step (second ex R plus)) s =
            { cb := (s.cb.1 ++ (removeAll ex R b.layers).2, s.cb.2),
              new := s.new ++ (b.anew (removeAll ex R b.layers).1).lines, var := none, check := true, upd := true } := by
          rw [hfin]
          unfold finish
          dsimp only
          rw [op_read, hcb, ← block_anew]
        obtain ⟨l', ck, h1, h2, h3, h4, h5⟩ := second_pass ex R plus
          (s := { cb := (s.cb.1 ++ (removeAll ex R b.layers).2, s.cb.2),
                  new := s.new ++ (b.anew (removeAll ex R b.layers).1).lines, var := none, check := true, upd := true })
          hok' rfl hp
        refine ⟨.layers (b.anew (removeAll ex R b.layers).1) :: l', ck, ?_, ?_, ?_, h4, fun hn _ => ?_⟩
        · rw [ef, List.foldl_append, e, h1]
          show _ = ({ cb := (s.cb.1 ++ ((removeAll ex R b.layers).2 ++ _), s.cb.2),
                      new := s.new ++ ((b.anew (removeAll ex R b.layers).1).lines ++ file l'),
                      var := none, check := ck,
                      upd := s.upd || decide ((removeAll ex R b.layers).2 ++ ((blocks l).map fun b => (removeAll ex R b.layers).2).flatten ≠ []) } : St _)
          rw [hupd [], decide_eq_true hr]
          simp only [List.append_assoc, Bool.true_or, Bool.or_true]
        · intro i hi
          rcases List.mem_cons.1 hi with rfl | hi
          · exact anew_ok (fun w hw => layers_word (removeAll_sub hw)) fun w hw => hb.2.2 w (removeAll_sub hw)
          · exact h2 i hi
        · show _ :: blocks l' = rmBlock ex R b ++ ((blocks l).map (rmBlock ex R)).flatten
          unfold rmBlock
          rw [if_neg hr, if_neg hd, h3]
          rfl
        · exact absurd (List.append_eq_nil_iff.1 (show (removeAll ex R b.layers).2 ++ _ = [] from hn)).1 hr

theorem plain_pass {σ : Type} {cb : σ → Str → Str → σ × Res} : ∀ {l : List Item} {s : St σ}, (∀ i ∈ l, i.Ok) →
    s.var = none → s.check = false → blocks l = [] → (file l).foldl (step cb) s = { s with new := s.new ++ file l }
  | [], s, _, _, _, _ => by simp [file]
  | .line x :: l, s, hok, hs, hc, hb => by
    have hx := hok _ List.mem_cons_self
    have e : step cb s x = { s with new := s.new ++ [x] } := by
      unfold step
      rw [no_match hx.1]
      cases s; cases hs; cases hc
      dsimp only
      unfold stepLine
      rw [if_neg fun h => nomatch h.1]
    show (file l).foldl (step cb) (step cb s x) = _
    rw [e, plain_pass (s := { s with new := s.new ++ [x] }) (fun i hi => hok i (List.mem_cons_of_mem _ hi)) hs hc hb]
    show _ = { s with new := s.new ++ ([x] ++ file l) }
    rw [← List.append_assoc]
  | .layers _ :: _, _, _, _, _, hb => nomatch hb

theorem flatten_nil {α β : Type} (f : α → List β) : ∀ {l : List α}, (∀ x ∈ l, f x = []) → (l.map f).flatten = []
  | [], _ => rfl
  | x :: l, h => by
    rw [List.map_cons, List.flatten_cons, h x List.mem_cons_self, flatten_nil f fun y hy => h y (List.mem_cons_of_mem _ hy)]
    rfl

theorem nothing_removed (ex : Option (Str → Str)) (l : List Item) :
    ((blocks l).map fun b => (removeAll ex [] b.layers).2).flatten = [] := flatten_nil _ fun _ _ => rfl

theorem ops_ne {l : List Item} (hs : Simple l) : ((blocks l).map fun b : Block => b.op.text) ≠ [] := fun h =>
  hs.1 (List.map_eq_nil_iff.1 h)

/-! ## C202: adding a layer -/

/-- C202: a layer that is there already is told, and the file is not written. -/
theorem add_again {l : List Item} (hok : ∀ i ∈ l, i.Ok) (hs : Simple l) {L : Str} (hL : Layer L) (hin : L ∈ value l)
    (ex : Option (Str → Str)) : editLayers ex [L] [] (file l) = some (none, [L], []) := by
  unfold editLayers
  dsimp only
  rw [first_simple hok hs ex, if_neg (ops_ne hs)]
  dsimp only
  have hna : notAdded ex (value l) ([L].map noSep) (([] : List Str).map noSep) = [L] := by
    unfold notAdded
    rw [List.map_singleton, hL.noSep, List.filter_cons, hL.canon ex, List.contains_iff_mem.2 hin]
    rfl
  have hadd : ([L].map noSep).filter (fun a => !([L].map (canon ex)).contains (canon ex a)) = [] := by
    rw [List.map_singleton, List.map_singleton, hL.noSep, List.filter_cons, hL.canon ex]
    have : ([L].contains L) = true := List.contains_iff_mem.2 List.mem_cons_self
    rw [this]; rfl
  rw [hna, hadd]
  obtain ⟨l', ck, h1, -, -, -, -⟩ := second_pass ex ([].map noSep) (decide (((blocks l).map fun b : Block => b.op.text).count "+=".toList > 1))
    (s := { cb := ([], []), new := [], var := none, check := false, upd := false }) hok rfl (.inr rfl)
  have hn : ((blocks l).map fun b => (removeAll ex ([].map noSep) b.layers).2).flatten = [] := nothing_removed ex l
  unfold edit
  rw [h1, hn]
  rfl

/-- C202: a layer that is added is one of the layers, the others and their order stay, and so does the rest of the file.
The file is again one of this form. -/
theorem add_partial {l : List Item} (hok : ∀ i ∈ l, i.Ok) (hs : Simple l) {L : Str} (hL : Layer L) (hw : IsWord L)
    (hin : L ∉ value l) (ex : Option (Str → Str)) :
    ∃ l', editLayers ex [L] [] (file l) = some (some (file l'), [], []) ∧
      (∃ a c, value l = a ++ c ∧ value l' = a ++ L :: c) ∧ others l' = others l ∧ (∀ i ∈ l', i.Ok) ∧ Simple l' := by
  unfold editLayers
  dsimp only
  rw [first_simple hok hs ex, if_neg (ops_ne hs)]
  dsimp only
  have hna : notAdded ex (value l) ([L].map noSep) (([] : List Str).map noSep) = [] := by
    unfold notAdded
    rw [List.map_singleton, hL.noSep, List.filter_cons, hL.canon ex]
    have : (value l).contains L = false := by
      rw [Bool.eq_false_iff]; exact fun h => hin (List.contains_iff_mem.1 h)
    rw [this]; rfl
  have hadd : ([L].map noSep).filter (fun a => !(([] : List Str).map (canon ex)).contains (canon ex a)) = [L] := by
    rw [List.map_singleton, hL.noSep]; rfl
  rw [hna, hadd]
  by_cases hplus : ((blocks l).map fun b : Block => b.op.text).count "+=".toList > 1
  · rw [decide_eq_true hplus]
    obtain ⟨l', ck, h1, -, -, -, h5⟩ := second_pass ex ([].map noSep) true
      (s := { cb := ([], [L]), new := [], var := none, check := false, upd := false }) hok rfl (.inl rfl)
    have hn : ((blocks l).map fun b => (removeAll ex ([].map noSep) b.layers).2).flatten = [] := nothing_removed ex l
    have hl := h5 hn (.inl rfl)
    subst hl
    unfold edit
    rw [h1, hn]
    have hnb : (Block.mk .add 1 1 '"' L []).layers = [L] := by
      show words (L ++ []) = [L]
      rw [List.append_nil]; exact words_word hw
    have hbl : blocks (l' ++ [.layers ⟨.add, 1, 1, '"', L, []⟩]) = blocks l' ++ [⟨.add, 1, 1, '"', L, []⟩] := by
      rw [blocks_append]; rfl
    have htail : ∀ b ∈ (blocks (l' ++ [.layers ⟨.add, 1, 1, '"', L, []⟩])).tail, b.op = .add := by
      rw [hbl, List.tail_append_of_ne_nil hs.1]
      intro b hb
      rcases List.mem_append.1 hb with hb | hb
      · exact hs.2 b hb
      · rw [List.mem_singleton.1 hb]
    refine ⟨l' ++ [.layers ⟨.add, 1, 1, '"', L, []⟩], ?_, ⟨value l', [], (List.append_nil _).symm, ?_⟩, ?_, ?_, ?_, htail⟩
    · rw [file_append]
      show some (if _ then some (_ ++ ["BBLAYERS += \"".toList ++ L ++ "\"\n".toList]) else none, [], []) = _
      rw [if_pos (.inr (List.cons_ne_nil _ _))]
      show some (some (file l' ++ ["BBLAYERS += \"".toList ++ L ++ "\"\n".toList]), [], []) =
        some (some (file l' ++ [("BBLAYERS".toList ++ [' '] ++ "+=".toList ++ [' '] ++ '"' :: L) ++ ['"', '\n']]), [], [])
      have e : "BBLAYERS".toList ++ [' '] ++ "+=".toList ++ [' '] ++ '"' :: L = "BBLAYERS += \"".toList ++ L := rfl
      rw [e]
      rfl
    · rw [value_all htail, value_all hs.2]
      unfold allLayers
      rw [hbl, List.map_append, List.flatten_append, List.map_singleton, hnb]
      rfl
    · rw [others_append]
      show others l' ++ [] = _
      rw [List.append_nil]
    · intro i hi
      rcases List.mem_append.1 hi with hi | hi
      · exact hok i hi
      · rw [List.mem_singleton.1 hi]
        refine ⟨.inl rfl, fun p hp => ?_, fun x hx => ?_⟩
        · rw [List.mem_singleton.1 hp]; exact hL.1
        · rw [hnb] at hx
          rw [List.mem_singleton.1 hx]; exact hL
    · rw [hbl]; exact fun h => nomatch (List.append_eq_nil_iff.1 h).2
  · rw [decide_eq_false hplus]
    obtain ⟨pre, b, post, e, hp⟩ := split_first hs.1
    have hbl : blocks l = b :: blocks post := by rw [e, blocks_append, hp]; rfl
    have hpadd : ∀ x ∈ blocks post, x.op = .add := fun x hx => hs.2 x (by rw [hbl]; exact hx)
    have hb : b.Ok := hok (.layers b) (e ▸ List.mem_append_right _ List.mem_cons_self)
    have hv : value l = b.layers ++ allLayers post := by
      rw [value_all hs.2]; unfold allLayers; rw [hbl]; rfl
    have hLb : L ∉ b.layers := fun h => hin (by rw [hv]; exact List.mem_append_left _ h)
    have hsec : second ex ([].map noSep) false ([], [L]) (b.first ++ b.more.flatten) b.op.text =
        (([], []), .items (b.layers ++ [L])) := by
      unfold second
      have : (words (b.first ++ b.more.flatten)).map noSep = b.layers := hb.noSep
      rw [this]
      show (([], []), result (decide (([] : List Str) ≠ [] ∨ (if L ∈ b.layers then b.layers else b.layers ++ [L]) ≠ b.layers))
        b.op.text (if L ∈ b.layers then b.layers else b.layers ++ [L])) = _
      rw [if_neg hLb]
      unfold result
      have hne : b.layers ++ [L] ≠ b.layers := fun h => by
        have := congrArg List.length h
        simp at this
      rw [if_pos (decide_eq_true (.inr hne)), if_neg fun h => List.cons_ne_nil _ _ (List.append_eq_nil_iff.1 h.2).2]
    have hnok : (b.anew (b.layers ++ [L])).Ok := anew_ok
      (fun w hw' => (List.mem_append.1 hw').elim layers_word fun h => by rw [List.mem_singleton.1 h]; exact hw)
      (fun w hw' => (List.mem_append.1 hw').elim (hb.2.2 w) fun h => by rw [List.mem_singleton.1 h]; exact hL)
    have hnl : (b.anew (b.layers ++ [L])).layers = b.layers ++ [L] := anew_layers b
      (fun w hw' => (List.mem_append.1 hw').elim layers_word fun h => by rw [List.mem_singleton.1 h]; exact hw)
    have hedit : edit (second ex ([].map noSep) false) ([], [L]) (file l) =
        (file post).foldl (step (second ex ([].map noSep) false))
          { cb := ([], []), new := file pre ++ (b.anew (b.layers ++ [L])).lines, var := none, check := true, upd := true } := by
      unfold edit
      have ef : file l = file pre ++ (b.lines ++ file post) := by rw [e, file_append]; rfl
      rw [ef, List.foldl_append, plain_pass (fun i hi => hok i (e ▸ List.mem_append_left _ hi)) rfl rfl hp, List.foldl_append,
        step_block hb rfl]
      congr 1
      unfold finish
      dsimp only
      rw [op_read, hsec]
      dsimp only
      rw [block_anew]
      rfl
    obtain ⟨l', ck, h1, -, -, -, h5⟩ := second_pass ex ([].map noSep) false (l := post)
      (s := { cb := ([], []), new := file pre ++ (b.anew (b.layers ++ [L])).lines, var := none, check := true, upd := true })
      (fun i hi => hok i (e ▸ List.mem_append_right _ (List.mem_cons_of_mem _ hi))) rfl (.inr rfl)
    have hn : ((blocks post).map fun b => (removeAll ex ([].map noSep) b.layers).2).flatten = [] := nothing_removed ex post
    have hl := h5 hn (.inr (lines_last hnok _))
    subst hl
    have hbl' : blocks (pre ++ .layers (b.anew (b.layers ++ [L])) :: l') = b.anew (b.layers ++ [L]) :: blocks l' := by
      rw [blocks_append, hp]; rfl
    refine ⟨pre ++ .layers (b.anew (b.layers ++ [L])) :: l', ?_, ⟨b.layers, allLayers l', hv, ?_⟩, ?_, ?_, ?_, ?_⟩
    · rw [hedit, h1, hn]
      dsimp only
      rw [if_pos (.inl rfl), file_append]
      show some (some (file pre ++ _ ++ file l' ++ []), [], []) =
        some (some (file pre ++ ((b.anew (b.layers ++ [L])).lines ++ file l')), [], [])
      rw [List.append_nil, List.append_assoc]
    · rw [value_all (by rw [hbl']; exact hpadd)]
      unfold allLayers
      rw [hbl', List.map_cons, List.flatten_cons, hnl, List.append_assoc]
      rfl
    · rw [e, others_append, others_append]; rfl
    · intro i hi
      rcases List.mem_append.1 hi with hi | hi
      · exact hok i (e ▸ List.mem_append_left _ hi)
      · rcases List.mem_cons.1 hi with rfl | hi
        · exact hnok
        · exact hok i (e ▸ List.mem_append_right _ (List.mem_cons_of_mem _ hi))
    · rw [hbl']; exact List.cons_ne_nil _ _
    · rw [hbl']; exact hpadd

/-- C202: the command: a new layer is in the file if the configuration can be parsed then or if it need not be; else the
file is as before and the command fails. -/
theorem add_command_partial {l : List Item} (hok : ∀ i ∈ l, i.Ok) (hs : Simple l) {L : Str} (hL : Layer L) (hw : IsWord L)
    (hin : L ∉ value l) (ex : Option (Str → Str)) (abspath : Str → Str) (habs : abspath L = L) (parse : List Str → Bool) (force : Bool) :
    ∃ l', (∃ a c, value l = a ++ c ∧ value l' = a ++ L :: c) ∧ others l' = others l ∧
      (force = true ∨ parse (file l') = true → addLayers ex abspath parse force [L] (file l) = some (file l', false, [])) ∧
      (force = false → parse (file l') = false → addLayers ex abspath parse force [L] (file l) = some (file l, true, [])) := by
  obtain ⟨l', e, h1, h2, -, -⟩ := add_partial hok hs hL hw hin ex
  refine ⟨l', h1, h2, fun h => ?_, fun hf hp => ?_⟩
  · unfold addLayers
    rw [List.map_singleton, habs, e]
    show some (if _ then (if parse (file l') = true then (file l', false, []) else (file l, true, [])) else (file l', false, [])) = _
    split
    · next hc =>
      rw [if_pos (h.resolve_left fun hf => hc (.inl hf))]
    · rfl
  · unfold addLayers
    rw [List.map_singleton, habs, e]
    show some (if ¬ (force = true ∨ ([] : List Str) ≠ []) then (if parse (file l') = true then (file l', false, []) else (file l, true, [])) else _) = _
    rw [if_pos, if_neg (by rw [hp]; exact Bool.false_ne_true)]
    rintro (h | h)
    · rw [hf] at h; cases h
    · exact h rfl

/-- C202: no layer is ever said to be there already. -/
theorem never_told {ex : Option (Str → Str)} {abspath : Str → Str} {parse : List Str → Bool} {force : Bool} {dirs lines : List Str}
    {r : List Str × Bool × List Str} (h : addLayers ex abspath parse force dirs lines = some r) : r.2.2 = [] := by
  unfold addLayers at h
  obtain ⟨x, -, e⟩ := Option.map_eq_some_iff.1 h
  rw [← e]
  split
  · next hc =>
    split
    · exact Classical.byContradiction fun hn => hc (.inr hn)
    · rfl
  · rfl

/-- C202: if one of two layers is there already the other one is added also if the configuration cannot be parsed then. -/
theorem not_parsed :
    addLayers none (fun p => p) (fun _ => false) false ["/a".toList, "/broken".toList] ["BBLAYERS = \"/a\"\n".toList] =
      some (["BBLAYERS = \" \\\n".toList, "  /a \\\n".toList, "  /broken \\\n".toList, "  \"\n".toList], false, []) := by
  decide +kernel

/-! ## C203: removing a layer -/

/-- No character of a pattern. -/
def Literal (p : Str) : Prop := ∀ c ∈ p, c ≠ '*' ∧ c ≠ '?' ∧ c ≠ '['

theorem toks_literal : ∀ {p : Str} {k : Nat}, p.length ≤ k → Literal p → toks k p = p.map Tok.lit
  | [], 0, _, _ => rfl
  | [], _ + 1, _, _ => rfl
  | c :: p, 0, h, _ => nomatch h
  | c :: p, k + 1, h, hp => by
    obtain ⟨h1, h2, h3⟩ := hp c List.mem_cons_self
    unfold toks
    rw [if_neg h1, if_neg h2, if_neg h3, toks_literal (Nat.le_of_succ_le_succ h) fun x hx => hp x (List.mem_cons_of_mem _ hx)]
    rfl

theorem match_literal : ∀ {p s : Str}, matchToks (p.map Tok.lit) s = true ↔ s = p
  | [], [] => Iff.intro (fun _ => rfl) (fun _ => rfl)
  | [], _ :: _ => Iff.intro (fun h => nomatch h) (fun h => nomatch h)
  | _ :: _, [] => Iff.intro (fun h => nomatch h) (fun h => nomatch h)
  | c :: p, d :: s => by
    show (d == c && matchToks (p.map Tok.lit) s) = true ↔ _
    rw [Bool.and_eq_true, match_literal, beq_iff_eq, List.cons.injEq]

theorem someRest_iff {f : Str → Bool} : ∀ {s : Str}, someRest f s = true ↔ ∃ a b, s = a ++ b ∧ f b = true
  | [] => by
    show f [] = true ↔ _
    constructor
    · intro h; exact ⟨[], [], rfl, h⟩
    · rintro ⟨a, b, e, h⟩
      rw [(List.append_eq_nil_iff.1 e.symm).2] at h; exact h
  | c :: s => by
    show (f (c :: s) || someRest f s) = true ↔ _
    rw [Bool.or_eq_true, someRest_iff]
    constructor
    · rintro (h | ⟨a, b, e, h⟩)
      · exact ⟨[], c :: s, rfl, h⟩
      · exact ⟨c :: a, b, by rw [e]; rfl, h⟩
    · rintro ⟨a, b, e, h⟩
      cases a with
      | nil => exact .inl (by rw [show c :: s = b from e]; exact h)
      | cons x a => exact .inr ⟨a, b, (List.cons.inj e).2, h⟩

/-- A path matches itself only. -/
theorem fnm_path {x P : Str} (h : Literal P) : fnm x P = true ↔ x = P := by
  unfold fnm
  rw [toks_literal (Nat.le_refl _) h, match_literal]

/-- A name matches the paths that end with it. -/
theorem fnm_name {x name : Str} (h : Literal name) : fnm x ("*/".toList ++ name) = true ↔ ∃ d, x = d ++ '/' :: name := by
  have hl : Literal ('/' :: name) := fun c hc => by
    rcases List.mem_cons.1 hc with rfl | hc
    · decide
    · exact h c hc
  have e : toks ("*/".toList ++ name).length ("*/".toList ++ name) = .any :: ('/' :: name).map Tok.lit := by
    show (if '*' = '*' then Tok.any :: toks ('/' :: name).length ('/' :: name) else _) = _
    rw [if_pos rfl, toks_literal (Nat.le_refl _) hl]
  unfold fnm
  rw [e]
  show someRest (matchToks (('/' :: name).map Tok.lit)) x = true ↔ _
  rw [someRest_iff]
  constructor
  · rintro ⟨a, b, e, h⟩; exact ⟨a, by rw [e, match_literal.1 h]⟩
  · rintro ⟨d, e⟩; exact ⟨d, _, e, match_literal.2 rfl⟩

theorem removeOne_spec {ex : Option (Str → Str)} {l : List Str} {P : Str} {M : Str → Prop} (hl : ∀ x ∈ l, Layer x)
    (hM : ∀ x, fnm x (canon ex P) = true ↔ M x) (hone : l.Pairwise fun x y => ¬ (M x ∧ M y)) :
    ((removeOne ex l P).2 = true ↔ ∃ x ∈ l, M x) ∧ (removeOne ex l P).1.Sublist l ∧
    ∀ x, x ∈ (removeOne ex l P).1 ↔ x ∈ l ∧ ¬ M x := by
  unfold removeOne
  cases hf : l.find? fun x => fnm (canon ex x) (canon ex P) with
  | none =>
    dsimp only
    have hno : ∀ x ∈ l, ¬ M x := fun x hx hm => by
      have := List.find?_eq_none.1 hf x hx
      rw [(hl x hx).canon ex] at this
      exact this ((hM x).2 hm)
    exact ⟨Iff.intro (fun h => nomatch h) (fun ⟨x, hx, hm⟩ => absurd hm (hno x hx)), List.Sublist.refl _,
      fun x => Iff.intro (fun hx => ⟨hx, hno x hx⟩) (fun h => h.1)⟩
  | some y =>
    dsimp only
    obtain ⟨hy, as, bs, e, has⟩ := List.find?_eq_some_iff_append.1 hf
    have hyl : y ∈ l := e ▸ List.mem_append_right _ List.mem_cons_self
    rw [(hl y hyl).canon ex] at hy
    have hMy := (hM y).1 hy
    have hasM : ∀ x ∈ as, ¬ M x := fun x hx hm => by
      have hxl : x ∈ l := e ▸ List.mem_append_left _ hx
      have := has x hx
      rw [(hl x hxl).canon ex, (hM x).2 hm] at this
      cases this
    have hbsM : ∀ x ∈ bs, ¬ M x := fun x hx hm => by
      rw [e] at hone
      exact (List.pairwise_cons.1 (List.pairwise_append.1 hone).2.1).1 x hx ⟨hMy, hm⟩
    have hyas : y ∉ as := fun h => hasM y h hMy
    have er : l.erase y = as ++ bs := by
      rw [e, List.erase_append_right _ hyas, List.erase_cons_head]
    rw [er]
    refine ⟨Iff.intro (fun _ => ⟨y, hyl, hMy⟩) (fun _ => rfl), ?_, fun x => ?_⟩
    · rw [e]; exact List.Sublist.append (List.Sublist.refl _) (List.sublist_cons_self _ _)
    · rw [e, List.mem_append, List.mem_append, List.mem_cons]
      constructor
      · rintro (h | h)
        · exact ⟨.inl h, hasM x h⟩
        · exact ⟨.inr (.inr h), hbsM x h⟩
      · rintro ⟨h | rfl | h, hm⟩
        · exact .inl h
        · exact absurd hMy hm
        · exact .inr h

theorem removeAll_one {ex : Option (Str → Str)} {l : List Str} {P : Str} :
    removeAll ex [P] l = ((removeOne ex l P).1, if (removeOne ex l P).2 then [P] else []) := by
  show ((removeOne ex l P).1, (if (removeOne ex l P).2 then [P] else []) ++ []) = _
  rw [List.append_nil]

theorem flatten_sub {α : Type} {f g : α → List Str} : ∀ {l : List α}, (∀ x ∈ l, (f x).Sublist (g x)) →
    ((l.map f).flatten).Sublist (l.map g).flatten
  | [], _ => List.Sublist.refl _
  | x :: l, h => by
    rw [List.map_cons, List.map_cons, List.flatten_cons, List.flatten_cons]
    exact List.Sublist.append (h x List.mem_cons_self) (flatten_sub fun y hy => h y (List.mem_cons_of_mem _ hy))

theorem map_flatten {ex : Option (Str → Str)} {R : List Str} : ∀ {bs : List Block},
    (((bs.map (rmBlock ex R)).flatten).map Block.layers).flatten = (bs.map fun b => (removeAll ex R b.layers).1).flatten
  | [] => rfl
  | b :: bs => by
    rw [List.map_cons, List.flatten_cons, List.map_append, List.flatten_append, rmBlock_layers, map_flatten]
    rfl

/-- What removing does, for what a pattern matches. -/
theorem remove_matching {l : List Item} (hok : ∀ i ∈ l, i.Ok) (hs : Simple l) {P : Str} {M : Str → Prop} (hP : noSep P = P)
    (ex : Option (Str → Str)) (hM : ∀ x, fnm x (canon ex P) = true ↔ M x)
    (hone : ∀ b ∈ blocks l, b.layers.Pairwise fun x y => ¬ (M x ∧ M y)) :
    ((∀ x ∈ value l, ¬ M x) → editLayers ex [] [P] (file l) = some (none, [], [P])) ∧
    ((∃ x ∈ value l, M x) → ∃ l', editLayers ex [] [P] (file l) = some (some (file l'), [], []) ∧
      (value l').Sublist (value l) ∧ (∀ x, x ∈ value l' ↔ x ∈ value l ∧ ¬ M x) ∧
      NonBlank (others l') = NonBlank (others l) ∧ (∀ i ∈ l', i.Ok) ∧ ∀ b ∈ (blocks l').tail, b.op = .add) := by
  have hbok : ∀ b ∈ blocks l, b.Ok := by
    have : ∀ (l : List Item), (∀ i ∈ l, i.Ok) → ∀ b ∈ blocks l, b.Ok := by
      intro l
      induction l with
      | nil => intro _ b hb; cases hb
      | cons i l ih =>
        intro h b hb
        cases i with
        | line s => exact ih (fun i hi => h i (List.mem_cons_of_mem _ hi)) b hb
        | layers x =>
          rcases List.mem_cons.1 hb with rfl | hb
          · exact h _ List.mem_cons_self
          · exact ih (fun i hi => h i (List.mem_cons_of_mem _ hi)) b hb
    exact this l hok
  have hspec := fun b (hb : b ∈ blocks l) => removeOne_spec (ex := ex) (P := P) (hbok b hb).2.2 hM (hone b hb)
  obtain ⟨l', ck, h1, h2, h3, h4, -⟩ := second_pass ex [P] (decide (((blocks l).map fun b : Block => b.op.text).count "+=".toList > 1))
    (s := { cb := ([], []), new := [], var := none, check := false, upd := false }) hok rfl (.inr rfl)
  have hfile : editLayers ex [] [P] (file l) =
      some (if ((blocks l).map fun b => (removeAll ex [P] b.layers).2).flatten ≠ [] then some (file l') else none, [],
        [P].filter fun r => !(((blocks l).map fun b => (removeAll ex [P] b.layers).2).flatten).contains r) := by
    unfold editLayers
    dsimp only
    rw [first_simple hok hs ex, if_neg (ops_ne hs)]
    dsimp only
    have hna : notAdded ex (value l) (([] : List Str).map noSep) ([P].map noSep) = [] := rfl
    rw [hna]
    have hRn : [P].map noSep = [P] := by rw [List.map_singleton, hP]
    rw [hRn]
    unfold edit
    have hadd : (([] : List Str).map noSep).filter (fun a => !(([] : List Str).map (canon ex)).contains (canon ex a)) = [] := rfl
    rw [hadd, h1]
    dsimp only
    by_cases he : ((blocks l).map fun b => (removeAll ex [P] b.layers).2).flatten = []
    · rw [he]; rfl
    · rw [if_pos he, decide_eq_true he, if_pos (.inl rfl)]
      simp only [List.nil_append, List.map_nil, List.append_nil]
  have hrem : ∀ b ∈ blocks l, (removeAll ex [P] b.layers).2 = (if (removeOne ex b.layers P).2 then [P] else []) :=
    fun b _ => by rw [removeAll_one]
  constructor
  · intro hno
    have he : ((blocks l).map fun b => (removeAll ex [P] b.layers).2).flatten = [] := by
      refine flatten_nil _ fun b hb => ?_
      rw [hrem b hb, if_neg]
      intro hm
      obtain ⟨x, hx, hMx⟩ := (hspec b hb).1.1 hm
      refine hno x ?_ hMx
      rw [value_all hs.2]
      exact List.mem_flatten.2 ⟨_, List.mem_map.2 ⟨b, hb, rfl⟩, hx⟩
    rw [hfile, he]
    rfl
  · rintro ⟨x, hx, hMx⟩
    rw [value_all hs.2] at hx
    obtain ⟨_, hy, hx⟩ := List.mem_flatten.1 hx
    obtain ⟨b, hb, rfl⟩ := List.mem_map.1 hy
    have hPin : P ∈ ((blocks l).map fun b => (removeAll ex [P] b.layers).2).flatten := by
      refine List.mem_flatten.2 ⟨_, List.mem_map.2 ⟨b, hb, rfl⟩, ?_⟩
      rw [hrem b hb, if_pos ((hspec b hb).1.2 ⟨x, hx, hMx⟩)]
      exact List.mem_cons_self
    have htail : ∀ b ∈ (blocks l').tail, b.op = .add := by
      rw [h3]
      obtain ⟨b0, rest, hbl⟩ := List.exists_cons_of_ne_nil hs.1
      have hrest : ∀ x ∈ (rest.map (rmBlock ex [P])).flatten, x.op = .add := by
        intro x hx
        obtain ⟨_, hy, hx⟩ := List.mem_flatten.1 hx
        obtain ⟨b', hb', rfl⟩ := List.mem_map.1 hy
        rw [rmBlock_op hx]
        exact hs.2 b' (by rw [hbl]; exact hb')
      rw [hbl, List.map_cons, List.flatten_cons]
      have : (rmBlock ex [P] b0).length ≤ 1 := by
        unfold rmBlock
        split
        · exact Nat.le_refl _
        · split
          · exact Nat.zero_le _
          · exact Nat.le_refl _
      intro x hx
      cases hr : rmBlock ex [P] b0 with
      | nil => rw [hr] at hx; exact hrest x (List.mem_of_mem_tail hx)
      | cons y ys =>
        rw [hr] at hx this
        cases ys with
        | nil => exact hrest x hx
        | cons _ _ => simp at this
    have hval' : value l' = ((blocks l).map fun b => (removeAll ex [P] b.layers).1).flatten := by
      rw [value_all htail]
      unfold allLayers
      rw [h3, map_flatten]
    have hval : value l = ((blocks l).map Block.layers).flatten := value_all hs.2
    refine ⟨l', ?_, ?_, fun x => ?_, h4, h2, htail⟩
    · rw [hfile, if_pos (List.ne_nil_of_mem hPin), List.filter_cons, List.contains_iff_mem.2 hPin]
      rfl
    · rw [hval', hval]
      refine flatten_sub fun b hb => ?_
      rw [removeAll_one]
      exact (hspec b hb).2.1
    · rw [hval', hval]
      constructor
      · intro hx
        obtain ⟨_, hy, hx⟩ := List.mem_flatten.1 hx
        obtain ⟨b', hb', rfl⟩ := List.mem_map.1 hy
        rw [removeAll_one] at hx
        obtain ⟨h1, h2⟩ := ((hspec b' hb').2.2 x).1 hx
        exact ⟨List.mem_flatten.2 ⟨_, List.mem_map.2 ⟨b', hb', rfl⟩, h1⟩, h2⟩
      · rintro ⟨hx, hm⟩
        obtain ⟨_, hy, hx⟩ := List.mem_flatten.1 hx
        obtain ⟨b', hb', rfl⟩ := List.mem_map.1 hy
        refine List.mem_flatten.2 ⟨_, List.mem_map.2 ⟨b', hb', rfl⟩, ?_⟩
        rw [removeAll_one]
        exact ((hspec b' hb').2.2 x).2 ⟨hx, hm⟩

/-- C203: a layer that is removed by its path is none of the layers any more, the others and their order stay, and so does
the rest of the file but for blank lines.  One that is not there is told. -/
theorem remove_path_partial {l : List Item} (hok : ∀ i ∈ l, i.Ok) (hs : Simple l) {P : Str} (hP : Layer P) (hlit : Literal P)
    (hone : ∀ b ∈ blocks l, b.layers.Nodup) (abspath : Str → Str) (habs : abspath P = P) (hslash : '/' ∈ P) (ex : Option (Str → Str)) :
    (P ∉ value l → removeLayers ex abspath [P] (file l) = some (none, [P])) ∧
    (P ∈ value l → ∃ l', removeLayers ex abspath [P] (file l) = some (some (file l'), []) ∧
      (value l').Sublist (value l) ∧ (∀ x, x ∈ value l' ↔ x ∈ value l ∧ x ≠ P) ∧
      NonBlank (others l') = NonBlank (others l) ∧ (∀ i ∈ l', i.Ok)) := by
  have harg : removeArg abspath P = P := by
    unfold removeArg
    rw [if_neg, if_neg (fun h => h hslash), habs]
    intro h
    obtain ⟨t, rfl⟩ := startsWith_iff.1 h
    exact (hlit '*' List.mem_cons_self).1 rfl
  obtain ⟨h1, h2⟩ := remove_matching hok hs (M := fun x => x = P) hP.noSep ex
    (fun x => by rw [hP.canon ex]; exact fnm_path hlit)
    (fun b hb => (hone b hb).imp fun hne h => hne (h.1.trans h.2.symm))
  have hr : removeLayers ex abspath [P] (file l) = (editLayers ex [] [P] (file l)).map fun r => (r.1, r.2.2) := by
    unfold removeLayers
    rw [List.map_singleton, harg]
  constructor
  · intro hn
    rw [hr, h1 fun x hx e => hn (e ▸ hx)]; rfl
  · intro hi
    obtain ⟨l', e, h3, h4, h5, h6, -⟩ := h2 ⟨P, hi, rfl⟩
    exact ⟨l', by rw [hr, e]; rfl, h3, h4, h5, h6⟩

/-- C203: the same for a layer that is removed by its name. -/
theorem remove_name_partial {l : List Item} (hok : ∀ i ∈ l, i.Ok) (hs : Simple l) {name : Str} (hP : Layer name) (hne : name ≠ [])
    (hlit : Literal name) (hslash : '/' ∉ name)
    (hone : ∀ b ∈ blocks l, b.layers.Pairwise fun x y => ¬ ((∃ d, x = d ++ '/' :: name) ∧ ∃ d, y = d ++ '/' :: name))
    (abspath : Str → Str) (ex : Option (Str → Str)) :
    ((∀ d, d ++ '/' :: name ∉ value l) → removeLayers ex abspath [name] (file l) = some (none, ["*/".toList ++ name])) ∧
    ((∃ d, d ++ '/' :: name ∈ value l) → ∃ l', removeLayers ex abspath [name] (file l) = some (some (file l'), []) ∧
      (value l').Sublist (value l) ∧ (∀ x, x ∈ value l' ↔ x ∈ value l ∧ ∀ d, x ≠ d ++ '/' :: name) ∧
      NonBlank (others l') = NonBlank (others l) ∧ (∀ i ∈ l', i.Ok)) := by
  have harg : removeArg abspath name = "*/".toList ++ name := by
    unfold removeArg
    rw [if_neg, if_pos hslash]
    intro h
    obtain ⟨t, rfl⟩ := startsWith_iff.1 h
    exact (hlit '*' List.mem_cons_self).1 rfl
  have hL : Layer ("*/".toList ++ name) := by
    refine ⟨fun c hc => ?_, fun h => ?_, fun t e => ?_⟩
    · rcases List.mem_append.1 hc with hc | hc
      · have : c = '*' ∨ c = '/' := by simpa using hc
        rcases this with rfl | rfl <;> decide
      · exact hP.1 c hc
    · rcases List.mem_append.1 h with h | h
      · exact absurd h (by decide)
      · exact hP.2.1 h
    · have hg := congrArg List.getLast? e
      rw [List.getLast?_append, List.getLast?_concat] at hg
      cases hx : name.getLast? with
      | none => exact hne (List.getLast?_eq_none_iff.1 hx)
      | some x =>
        rw [hx] at hg
        have : x = '/' := by simpa using hg
        exact hslash (this ▸ List.mem_of_getLast? hx)
  obtain ⟨h1, h2⟩ := remove_matching hok hs (M := fun x => ∃ d, x = d ++ '/' :: name) hL.noSep ex
    (fun x => by rw [hL.canon ex]; exact fnm_name hlit) hone
  have hr : removeLayers ex abspath [name] (file l) = (editLayers ex [] ["*/".toList ++ name] (file l)).map fun r => (r.1, r.2.2) := by
    unfold removeLayers
    rw [List.map_singleton, harg]
  constructor
  · intro hn
    rw [hr, h1 fun x hx ⟨d, e⟩ => hn d (e ▸ hx)]; rfl
  · rintro ⟨d, hi⟩
    obtain ⟨l', e, h3, h4, h5, h6, -⟩ := h2 ⟨_, hi, d, rfl⟩
    refine ⟨l', by rw [hr, e]; rfl, h3, fun x => ?_, h5, h6⟩
    rw [h4]
    exact Iff.intro (fun h => ⟨h.1, fun d e => h.2 ⟨d, e⟩⟩) (fun h => ⟨h.1, fun ⟨d, e⟩ => h.2 d e⟩)

/-- The file of a new build directory. -/
def exampleFile : List Item :=
  [.line "# layers\n".toList,
   .layers ⟨.weak, 1, 1, '"', " ".toList, ["  /w/meta ".toList, "  /w/meta-isar ".toList, "  ".toList]⟩,
   .line "\n".toList]

/-- The hypotheses are met. -/
example : (∀ i ∈ exampleFile, i.Ok) ∧ Simple exampleFile ∧ Layer "/w/meta-x".toList ∧ Literal "/w/meta".toList ∧
    file exampleFile = ["# layers\n".toList, "BBLAYERS ?= \" \\\n".toList, "  /w/meta \\\n".toList, "  /w/meta-isar \\\n".toList,
      "  \"\n".toList, "\n".toList] ∧
    value exampleFile = ["/w/meta".toList, "/w/meta-isar".toList] := by
  have hcl : ∀ {p : Str}, (p.all fun c => c ≠ '"' && c ≠ '\'' && c ≠ '\\' && c ≠ '\n') = true → Clear p := by
    intro p h c hc
    have := List.all_eq_true.1 h c hc
    simpa [and_assoc] using this
  have hlay : ∀ {p : Str}, (p.all fun c => c ≠ '"' && c ≠ '\'' && c ≠ '\\' && c ≠ '\n') = true → '~' ∉ p →
      p.getLast? ≠ some '/' → Layer p := fun h1 h2 h3 => ⟨hcl h1, h2, fun t e => h3 (by rw [e, List.getLast?_concat])⟩
  refine ⟨?_, ⟨(fun h => nomatch h), (fun _ h => nomatch h)⟩, hlay (by decide) (by decide) (by decide), (by unfold Literal; decide), by decide +kernel,
    by decide +kernel⟩
  intro i hi
  rcases List.mem_cons.1 hi with rfl | hi
  · exact ⟨fun t h => absurd (congrArg List.head? h) (by
      show ¬ _ = ("BBLAYERS".toList ++ t).head?
      exact fun h => absurd (show some '#' = some 'B' from h) (by decide)), "# layers".toList, by decide⟩
  · rcases List.mem_cons.1 hi with rfl | hi
    · refine ⟨.inl rfl, ?_, ?_⟩
      · intro p hp
        refine hcl ?_
        revert p
        decide
      · have e : Block.layers ⟨.weak, 1, 1, '"', " ".toList, ["  /w/meta ".toList, "  /w/meta-isar ".toList, "  ".toList]⟩ =
          ["/w/meta".toList, "/w/meta-isar".toList] := by decide +kernel
        rw [e]
        intro x hx
        rcases List.mem_cons.1 hx with rfl | hx
        · exact hlay (by decide) (by decide) (by decide)
        · rw [List.mem_singleton.1 hx]
          exact hlay (by decide) (by decide) (by decide)
    · rw [List.mem_singleton.1 hi]
      exact ⟨fun t h => absurd (congrArg List.head? h) (fun h => absurd (show some '\n' = some 'B' from h) (by decide)), [], rfl⟩

/-! ## Where this does not hold -/

/-- C202: a layer is added to the first setting, also if a later one sets all anew: it is none of the layers. -/
theorem added_in_vain :
    editLayers none ["/x".toList] [] ["BBLAYERS ?= \"/a\"\n".toList, "BBLAYERS = \"/b\"\n".toList] =
      some (some ["BBLAYERS ?= \" \\\n".toList, "  /a \\\n".toList, "  /x \\\n".toList, "  \"\n".toList,
        "BBLAYERS = \"/b\"\n".toList], [], []) := by decide +kernel

/-- C202: if the last line has no newline the new setting becomes a part of it. -/
theorem no_newline :
    editLayers none ["/x".toList] [] ["BBLAYERS += \"/a\"\n".toList, "BBLAYERS += \"/b\"\n".toList, "A = \"1\"".toList] =
      some (some ["BBLAYERS += \"/a\"\n".toList, "BBLAYERS += \"/b\"\n".toList, "A = \"1\"".toList,
        "BBLAYERS += \"/x\"\n".toList], [], []) := by decide +kernel

/-- C202: with a tab before the operator the setting is not found. -/
theorem tab_not_found : editLayers none ["/x".toList] [] ["BBLAYERS\t= \"/a\"\n".toList] = none := by decide +kernel

/-- C202: a setting of another variable is taken for one of BBLAYERS. -/
theorem other_variable :
    editLayers none ["/x".toList] [] ["BBLAYERSt = \"1\"\n".toList, "BBLAYERS = \"/a\"\n".toList] =
      some (some ["BBLAYERSt = \" \\\n".toList, "  1 \\\n".toList, "  /x \\\n".toList, "  \"\n".toList,
        "BBLAYERS = \"/a\"\n".toList], [], []) := by decide +kernel

/-- C203: a layer that is listed twice is removed once, and told to be removed. -/
theorem listed_twice :
    removeLayers none (fun p => p) ["/a".toList] ["BBLAYERS = \"/a /b /a\"\n".toList] =
      some (some ["BBLAYERS = \" \\\n".toList, "  /b \\\n".toList, "  /a \\\n".toList, "  \"\n".toList], []) := by decide +kernel

/-- C203: a layer with brackets in its path cannot be removed by it. -/
theorem brackets :
    removeLayers none (fun p => p) ["/w[1]/a".toList] ["BBLAYERS = \"/w[1]/a\"\n".toList] = some (none, ["/w[1]/a".toList]) := by
  decide +kernel

/-- C203: but another one may be. -/
theorem brackets_other :
    removeLayers none (fun p => p) ["/w[1]/a".toList] ["BBLAYERS = \"/w[1]/a /w1/a\"\n".toList] =
      some (some ["BBLAYERS = \" \\\n".toList, "  /w[1]/a \\\n".toList, "  \"\n".toList], []) := by decide +kernel

end Bb.Layers
