import Verif.Bb.DataLemmas2
/-!
# Lemmas about the operators of one variable
-/

namespace Bb.Data
open Py Spec

/-! ### Names with keywords -/

/-- No keyword is in the name. -/
def NoKw (var : Str) : Prop := ∀ k : Kw, isSub k.text var = false

instance (var : Str) : Decidable (NoKw var) :=
  decidable_of_iff (isSub Kw.app.text var = false ∧ isSub Kw.pre.text var = false ∧
    isSub Kw.rem.text var = false)
    ⟨fun h k => (match k with | .app => h.1 | .pre => h.2.1 | .rem => h.2.2), fun h => ⟨h .app, h .pre, h .rem⟩⟩

theorem kwAt_none {s : Str} {k : Kw} (h : startsWith s k.text = false) : kwAt s k = none := by
  unfold kwAt
  rw [h]
  rfl

theorem noKw_tail {c : Char} {s : Str} (h : NoKw (c :: s)) : NoKw s := by
  intro k
  have := h k
  unfold isSub at this
  exact (Bool.or_eq_false_iff.1 this).2

theorem noKw_head {c : Char} {s : Str} (h : NoKw (c :: s)) (k : Kw) :
    startsWith (c :: s) k.text = false := by
  have := h k
  unfold isSub at this
  exact (Bool.or_eq_false_iff.1 this).1

theorem parseKey_none {var : Str} (h : NoKw var) : parseKey var = none := by
  induction var with
  | nil => rfl
  | cons c s ih =>
    unfold parseKey
    rw [kwAt_none (noKw_head h .app), kwAt_none (noKw_head h .pre), kwAt_none (noKw_head h .rem)]
    show (parseKey s).map _ = none
    rw [ih (noKw_tail h)]
    rfl

theorem kw_text (k : Kw) : ∃ t, k.text = ':' :: t ∧ ':' ∉ t := by
  cases k
  · exact ⟨"append".toList, rfl, by decide⟩
  · exact ⟨"prepend".toList, rfl, by decide⟩
  · exact ⟨"remove".toList, rfl, by decide⟩

/-- A keyword does not begin in the name and end in the keyword that follows. -/
theorem no_straddle {c : Char} {s r : Str} (h : NoKw (c :: s)) (k : Kw) (hr : ∃ t, r = ':' :: t) :
    startsWith (c :: s ++ r) k.text = false := by
  cases e : startsWith (c :: s ++ r) k.text with
  | false => rfl
  | true =>
    exfalso
    obtain ⟨t, ht⟩ := startsWith_iff.1 e
    obtain ⟨kt, hk, hkc⟩ := kw_text k
    obtain ⟨rt, hrt⟩ := hr
    rcases List.append_eq_append_iff.1 ht with ⟨u, h1, h2⟩ | ⟨u, h1, h2⟩
    · -- the keyword is longer than the name
      cases u with
      | nil =>
        have : startsWith (c :: s) k.text = true :=
          startsWith_iff.2 ⟨[], by rw [h1]; simp⟩
        rw [noKw_head h k] at this
        cases this
      | cons x u =>
        rw [hrt] at h2
        have hx : x = ':' := (List.cons.inj h2).1.symm
        rw [hk] at h1
        have h3 := (List.cons.inj h1).2
        exact hkc (h3 ▸ hx ▸ by simp)
    · have : startsWith (c :: s) k.text = true := startsWith_iff.2 ⟨u, h1⟩
      rw [noKw_head h k] at this
      cases this

theorem parseKey_kw (k : Kw) (o : Option Str)
    (ho : ∀ x, o = some x → ∀ c ∈ x, c.isUpper = false) :
    parseKey (opName [] k o) = some ([], k, o) := by
  cases o with
  | none => cases k <;> rfl
  | some x =>
    have hx : (x.all fun c => !c.isUpper) = true := by
      rw [List.all_eq_true]
      intro c hc
      rw [ho x rfl c hc]
      rfl
    cases k <;>
    · unfold opName parseKey kwAt
      simp [Kw.text, startsWith, List.isPrefixOf, hx]

theorem parseKey_opName {var : Str} (h : NoKw var) (k : Kw) (o : Option Str)
    (ho : ∀ x, o = some x → ∀ c ∈ x, c.isUpper = false) :
    parseKey (opName var k o) = some (var, k, o) := by
  have e : ∀ v, opName v k o = v ++ opName [] k o := by
    intro v
    cases o with
    | none => rfl
    | some x => unfold opName; simp
  have hr : ∃ t, opName [] k o = ':' :: t := by
    cases o <;> cases k <;> exact ⟨_, rfl⟩
  induction var with
  | nil => exact parseKey_kw k o ho
  | cons c s ih =>
    rw [e (c :: s)]
    have : parseKey (c :: s ++ opName [] k o) =
        (parseKey (s ++ opName [] k o)).map fun r => (c :: r.1, r.2) := by
      show parseKey (c :: (s ++ opName [] k o)) = _
      have n := fun k' => kwAt_none (no_straddle h k' hr)
      simp only [List.cons_append] at n
      conv => lhs; unfold parseKey
      rw [n .app, n .pre, n .rem]
    rw [this, ← e s, ih (noKw_tail h)]
    rfl

/-! ### The state of one variable -/

/-- What the datastore has for one variable without overrides. -/
structure Holds (w : World) (i : Nat) (var : Str) (c d : Option Str)
    (f : Kw → List (Str × Option Str)) : Prop where
  wf : WF w
  hi : i < w.stores.length
  od : (w.od i).lookup var = none
  content : ((w.findVar i var).getD {}).content = c
  default : ((w.findVar i var).getD {}).default = d
  kw : ∀ k, ((((w.findVar i var).getD {}).kw k).map w.ops).getD [] = f k

theorem keeps_kw {w w' : World} (h : Keeps false w w') {i : Nat} {var : Str} (hw : WF w) (k : Kw) :
    (((w.findVar i var).getD {}).kw k).map w'.ops = (((w.findVar i var).getD {}).kw k).map w.ops := by
  have ok := ok_findVar hw i var
  cases e : ((w.findVar i var).getD {}).kw k with
  | none => rfl
  | some l =>
    show some _ = some _
    rw [ops_keeps h (ok.1 k l e)]

theorem Holds.updateOverrides {w : World} {i : Nat} {var : Str} {c d : Option Str}
    {f : Kw → List (Str × Option Str)} (h : Holds w i var c d f) :
    Holds (updateOverrides w i var) i var c d f := by
  have fr := frame_updateOverrides w i var
  refine ⟨wf_updateOverrides h.wf i var, by rw [fr.len]; exact h.hi, ?_, ?_, ?_, fun k => ?_⟩
  · rw [lookup_od_updateOverrides _ _ _ _ (candidates_ne var)]; exact h.od
  · rw [(sd_updateOverrides w i var).findVar]; exact h.content
  · rw [(sd_updateOverrides w i var).findVar]; exact h.default
  · rw [(sd_updateOverrides w i var).findVar, keeps_kw fr.objs h.wf]; exact h.kw k

theorem Holds.shadow {w : World} {i : Nat} {var : Str} {c d : Option Str}
    {f : Kw → List (Str × Option Str)} (h : Holds w i var c d f) :
    Holds (w.shadow i var) i var c d f := by
  have e : ((w.shadow i var).findVar i var).getD {} = (w.findVar i var).getD {} := by
    rw [findVar_shadow h.wf h.hi, if_pos rfl]; rfl
  have fr := frame_shadow w i var
  refine ⟨wf_shadow h.wf i var, by rw [fr.len]; exact h.hi, ?_, ?_, ?_, fun k => ?_⟩
  · rw [od_shadow]; exact h.od
  · rw [e]; exact h.content
  · rw [e]; exact h.default
  · rw [e, keeps_kw fr.objs h.wf]; exact h.kw k

theorem Holds.modVar {w : World} {i : Nat} {var : Str} {c d : Option Str}
    {f : Kw → List (Str × Option Str)} (h : Holds w i var c d f) (g : VarD → VarD)
    (hk : ∀ v k, (g v).kw k = v.kw k) (he : ∀ v, (g v).exports = v.exports) :
    Holds (w.modVar i var g) i var (g ((w.findVar i var).getD {})).content
      (g ((w.findVar i var).getD {})).default f := by
  have e : ((w.modVar i var g).findVar i var).getD {} = g ((w.findVar i var).getD {}) := by
    rw [findVar_modVar h.wf h.hi, if_pos rfl]; rfl
  have fr := frame_modVar w i var g
  refine ⟨wf_modVar h.wf i var g fun v hv => ok_sub hv (fun k => .inr (hk v k)) (he v), by
    rw [fr.len]; exact h.hi, ?_, ?_, ?_, fun k => ?_⟩
  · rw [od_modVar]; exact h.od
  · rw [e]
  · rw [e]
  · rw [e, hk, keeps_kw fr.objs h.wf]; exact h.kw k

theorem Holds.assign {w w' : World} {i : Nat} {var : Str} {c d : Option Str}
    {f : Kw → List (Str × Option Str)} (h : Holds w i var c d f) (hv : NoKw var) (x : Str)
    (e : setVar w [] i var x true = some w') : Holds w' i var (some x) d f := by
  unfold setVar at e
  by_cases h1 : oldSyntax var
  · rw [if_pos h1] at e; cases e
  · rw [if_neg h1, parseKey_none hv] at e
    dsimp only at e
    have h2 : Holds (if ':' ∈ var then Data.updateOverrides (w.shadow i var) i var
        else w.shadow i var) i var c d f := by
      by_cases hc : ':' ∈ var
      · rw [if_pos hc]; exact h.shadow.updateOverrides
      · rw [if_neg hc]; exact h.shadow
    rw [if_pos rfl] at e
    revert e h2
    generalize (if ':' ∈ var then Data.updateOverrides (w.shadow i var) i var
        else w.shadow i var) = w2
    intro e h2
    have h3 := h2.modVar (fun v => { v with content := some x }) (fun v k => by cases k <;> rfl)
      (fun _ => rfl)
    rw [← Option.some.inj e]
    have hd : ((w2.findVar i var).getD {}).default = d := h2.default
    dsimp only at h3
    rw [hd] at h3
    exact h3

theorem Holds.weakest {w : World} {i : Nat} {var : Str} {c d : Option Str}
    {f : Kw → List (Str × Option Str)} (h : Holds w i var c d f) (x : Str) :
    Holds (setDefault w i var x) i var c (some x) f := by
  unfold setDefault
  have h3 := h.modVar (fun v => { v with default := some x }) (fun v k => by cases k <;> rfl)
      (fun _ => rfl)
  have hd : ((w.findVar i var).getD {}).content = c := h.content
  dsimp only at h3
  rw [hd] at h3
  dsimp only
  by_cases hc : ':' ∈ var
  · rw [if_pos hc]; exact h3.updateOverrides
  · rw [if_neg hc]; exact h3

theorem ops_write (w : World) (l : Nat) (x : List (Str × Option Str)) (hl : l < w.objs.length) :
    (w.write l (.ops x)).ops l = x := by
  unfold World.write World.ops
  rw [List.getElem?_set_self hl]

theorem kw_setKw (v : VarD) (l : Nat) (k k' : Kw) :
    (v.setKw l k).kw k' = if k' = k then some l else v.kw k' := by
  cases k <;> cases k' <;> rfl

theorem Holds.op {w w' : World} {i : Nat} {var : Str} {c d : Option Str}
    {f : Kw → List (Str × Option Str)} (h : Holds w i var c d f) (hv : NoKw var) (k : Kw)
    (o : Option Str) (ho : ∀ x, o = some x → ∀ c ∈ x, c.isUpper = false) (x : Str)
    (e : setVar w [] i (opName var k o) x true = some w') :
    Holds w' i var c d (fun k' => if k' = k then f k ++ [(x, o)] else f k') := by
  unfold setVar at e
  by_cases h1 : oldSyntax (opName var k o)
  · rw [if_pos h1] at e; cases e
  · rw [if_neg h1, parseKey_opName hv k o ho] at e
    dsimp only at e
    rw [← Option.some.inj e]
    unfold setOp
    dsimp only
    refine Holds.updateOverrides ?_
    have hold : (((w.findVar i var).bind (·.kw k)).map w.ops).getD [] = f k := by
      rw [← h.kw k]
      cases w.findVar i var with
      | none => cases k <;> rfl
      | some v => rfl
    rw [hold]
    -- the objects
    have fr : Frame false i w ((w.new (.ops (f k))).write w.objs.length (.ops (f k ++ [(x, o)]))) :=
      frame_write (frame_new w i _) _ _ (Nat.le_refl _)
    have hw2 : WF ((w.new (.ops (f k))).write w.objs.length (.ops (f k ++ [(x, o)]))) :=
      wf_write (wf_new h.wf _) _ _ (.inl fun ns hn => by rw [get_new_last] at hn; cases hn)
    have hops : ((w.new (.ops (f k))).write w.objs.length (.ops (f k ++ [(x, o)]))).ops
        w.objs.length = f k ++ [(x, o)] := ops_write _ _ _ (by rw [len_new]; omega)
    have hfind : ∀ y, ((w.new (.ops (f k))).write w.objs.length
        (.ops (f k ++ [(x, o)]))).findVar i y = w.findVar i y :=
      fun y => ((sd_new w _).trans (sd_write _ _ _)).findVar i y
    have hod : ((w.new (.ops (f k))).write w.objs.length (.ops (f k ++ [(x, o)]))).od i = w.od i :=
      rfl
    have hlen : w.objs.length < ((w.new (.ops (f k))).write w.objs.length
        (.ops (f k ++ [(x, o)]))).objs.length := by
      unfold World.write
      rw [List.length_set, len_new]
      omega
    revert fr hw2 hops hfind hod hlen
    generalize ((w.new (.ops (f k))).write w.objs.length (.ops (f k ++ [(x, o)]))) = w2
    intro fr hw2 hops hfind hod hlen
    have hi2 : i < w2.stores.length := by rw [fr.len]; exact h.hi
    have ef : ((w2.modVar i var fun v => v.setKw w.objs.length k).findVar i var).getD {} =
        ((w.findVar i var).getD {}).setKw w.objs.length k := by
      rw [findVar_modVar hw2 hi2, if_pos rfl, hfind]; rfl
    have eobj : ∀ l, (w2.modVar i var fun v => v.setKw w.objs.length k).ops l = w2.ops l := by
      intro l
      unfold World.ops
      rw [objs_modVar]
    refine ⟨wf_modVar hw2 i var _ fun v hv => ok_setKw hv _ hlen k, by
      rw [(frame_modVar w2 i var _).len]; exact hi2, ?_, ?_, ?_, fun k' => ?_⟩
    · rw [od_modVar, hod]; exact h.od
    · rw [ef, ← h.content]; cases k <;> rfl
    · rw [ef, ← h.default]; cases k <;> rfl
    · rw [ef, kw_setKw]
      by_cases hk : k' = k
      · rw [if_pos hk, if_pos hk]
        show (w2.modVar i var fun v => v.setKw w.objs.length k).ops w.objs.length = _
        rw [eobj, hops]
      · rw [if_neg hk, if_neg hk, ← h.kw k']
        have : (w2.modVar i var fun v => v.setKw w.objs.length k).ops = w2.ops := funext eobj
        rw [this, keeps_kw fr.objs h.wf]

/-! ### Lines -/

/-- Operators with their overrides. -/
def _root_.Bb.Data.Line.opAll (k : Kw) : Line → Option (Str × Option Str)
  | .op k' o x => if k' = k then some (x, o) else none
  | _ => none

/-- The override of a line has no capital letters. -/
def _root_.Bb.Data.Line.Lower : Line → Prop
  | .op _ (some o) _ => ∀ c ∈ o, c.isUpper = false
  | _ => True

instance : DecidablePred Line.Lower := fun l => by
  unfold Line.Lower
  split <;> infer_instance

theorem Holds.line {w w' : World} {i : Nat} {var : Str} {c d : Option Str}
    {f : Kw → List (Str × Option Str)} (h : Holds w i var c d f) (hv : NoKw var) (l : Line)
    (hl : l.Lower) (e : evalLine w i var l = some w') :
    Holds w' i var (if l.isAssign then assignTo c l else c) (l.weakest?.or d)
      (fun k => f k ++ (l.opAll k).toList) := by
  have hg : getParsing w i var = c := by
    rw [← h.content]
    unfold getParsing
    cases w.findVar i var <;> rfl
  have hf : f = fun k => f k ++ [] := by funext k; rw [List.append_nil]
  cases l with
  | weakest x =>
    have e' : setDefault w i var x = w' := Option.some.inj e
    rw [← e']
    have := h.weakest x
    rw [hf] at this
    exact this
  | op k o x =>
    have := h.op hv k o (fun y hy => by subst hy; exact hl) x e
    have e2 : (fun k' => if k' = k then f k ++ [(x, o)] else f k') =
        fun k' => f k' ++ (Line.opAll k' (.op k o x)).toList := by
      funext k'
      by_cases hk : k' = k
      · subst hk; rw [if_pos rfl]
        simp [Line.opAll]
      · have hk' : ¬ k = k' := fun x => hk x.symm
        rw [if_neg hk]
        simp [Line.opAll, hk']
    rw [e2] at this
    exact this
  | _ =>
    unfold evalLine at e
    try rw [hg] at e
    have := h.assign hv _ e
    rw [hf] at this
    exact this

theorem Holds.lines {w w' : World} {i : Nat} {var : Str} {c d : Option Str}
    {f : Kw → List (Str × Option Str)} (h : Holds w i var c d f) (hv : NoKw var) (ls : List Line)
    (hl : ∀ l ∈ ls, l.Lower) (e : evalLines w i var ls = some w') :
    Holds w' i var ((ls.filter Line.isAssign).foldl assignTo c)
      ((ls.filterMap Line.weakest?).getLast?.or d) (fun k => f k ++ ls.filterMap (Line.opAll k)) := by
  induction ls generalizing w c d f with
  | nil =>
    rw [← Option.some.inj e]
    have hf : f = fun k => f k ++ [] := by funext k; rw [List.append_nil]
    rw [hf] at h
    exact h
  | cons l ls ih =>
    unfold evalLines at e
    cases e1 : evalLine w i var l with
    | none => rw [e1] at e; cases e
    | some w1 =>
      rw [e1] at e
      have h1 := h.line hv l (hl l List.mem_cons_self) e1
      have h2 := ih h1 (fun l hl' => hl l (List.mem_cons_of_mem _ hl')) e
      have c1 : (ls.filter Line.isAssign).foldl assignTo (if l.isAssign then assignTo c l else c) =
          ((l :: ls).filter Line.isAssign).foldl assignTo c := by
        cases hA : l.isAssign with
        | true => rw [List.filter_cons_of_pos hA]; rfl
        | false => rw [List.filter_cons_of_neg (by rw [hA]; exact Bool.false_ne_true)]; rfl
      have c2 : (ls.filterMap Line.weakest?).getLast?.or (l.weakest?.or d) =
          ((l :: ls).filterMap Line.weakest?).getLast?.or d := by
        rw [List.filterMap_cons]
        cases l.weakest? with
        | none => rfl
        | some x =>
          rw [List.getLast?_cons]
          cases (ls.filterMap Line.weakest?).getLast? <;> rfl
      have c3 : (fun k => (f k ++ (l.opAll k).toList) ++ ls.filterMap (Line.opAll k)) =
          fun k => f k ++ (l :: ls).filterMap (Line.opAll k) := by
        funext k
        rw [List.filterMap_cons, List.append_assoc]
        cases l.opAll k <;> rfl
      rw [c1, c2, c3] at h2
      exact h2

theorem opActive_iff (ov : List Str) (o : Option Str) : opActive ov o = true ↔ Active ov o := by
  unfold opActive Active
  cases o with
  | none => exact ⟨fun _ => .inl rfl, fun _ => rfl⟩
  | some x => simp

theorem operators_eq (ov : List Str) (k : Kw) (ls : List Line) :
    ((ls.filterMap (Line.opAll k)).filter fun x => opActive ov x.2).map (·.1) =
      operators ov k ls := by
  unfold operators
  induction ls with
  | nil => rfl
  | cons l ls ih =>
    rw [List.filterMap_cons, List.filterMap_cons]
    cases l with
    | op k' o x =>
      have ea : Line.opAll k (.op k' o x) = if k' = k then some (x, o) else none := rfl
      have eb : Line.op? ov k (.op k' o x) =
        if k' = k ∧ opActive ov o = true then some x else none := by
        show (if k' = k ∧ Active ov o then some x else none) = _
        by_cases hc : k' = k ∧ opActive ov o = true
        · rw [if_pos hc, if_pos ⟨hc.1, (opActive_iff ov o).1 hc.2⟩]
        · rw [if_neg hc, if_neg fun x => hc ⟨x.1, (opActive_iff ov o).2 x.2⟩]
      rw [ea, eb]
      by_cases hk : k' = k
      · rw [if_pos hk]
        by_cases ho : opActive ov o = true
        · rw [if_pos ⟨hk, ho⟩]
          show (((x, o) :: _ : List _).filter fun x => opActive ov x.2).map (·.1) = _
          rw [List.filter_cons_of_pos (p := fun x : Str × Option Str => opActive ov x.2) ho]
          show _ :: _ = _ :: _
          rw [← ih]
        · rw [if_neg fun c => ho c.2]
          show (((x, o) :: _ : List _).filter fun x => opActive ov x.2).map (·.1) = _
          rw [List.filter_cons_of_neg (p := fun x : Str × Option Str => opActive ov x.2) ho]
          exact ih
      · rw [if_neg hk, if_neg fun c => hk c.1]
        exact ih
    | _ => exact ih

theorem addOps_eq (b : Option Str) (apps pres : List Str) :
    addOps b apps pres = if b = none ∧ apps = [] ∧ pres = [] then none
      else some (pres.reverse.flatten ++ b.getD [] ++ apps.flatten) := by
  have h1 : ∀ (apps : List Str) (b : Option Str),
      apps.foldl (fun v r => some (v.getD [] ++ r)) b =
        if apps = [] then b else some (b.getD [] ++ apps.flatten) := by
    intro apps
    induction apps with
    | nil => intro b; rfl
    | cons a apps ih =>
      intro b
      rw [List.foldl_cons, ih, if_neg (List.cons_ne_nil a apps)]
      by_cases h : apps = []
      · rw [if_pos h, h]; simp
      · rw [if_neg h]; simp
  have h2 : ∀ (pres : List Str) (b : Option Str),
      pres.foldl (fun v r => some (r ++ v.getD [])) b =
        if pres = [] then b else some (pres.reverse.flatten ++ b.getD []) := by
    intro pres
    induction pres with
    | nil => intro b; rfl
    | cons a pres ih =>
      intro b
      rw [List.foldl_cons, ih, if_neg (List.cons_ne_nil a pres)]
      by_cases h : pres = []
      · rw [if_pos h, h]; simp
      · rw [if_neg h]; simp
  unfold addOps
  dsimp only
  rw [h1, h2]
  by_cases ha : apps = []
  · by_cases hp : pres = []
    · cases b <;> simp [ha, hp]
    · simp [ha, hp]
  · by_cases hp : pres = []
    · simp [ha, hp]
    · simp [ha, hp]

/-! ### Words -/

theorem words_removeGo (gone : List Str) (hg : ∀ g ∈ gone, IsWord g) (s : Str) : ∀ cur,
    (∀ c ∈ cur, isWs c = false) →
    words ((wsSplit cur s).filter fun v => decide (v ∉ gone)).flatten =
      (wordsGo s cur).filter fun v => decide (v ∉ gone) := by
  have hcur : ∀ cur : Str, (∀ c ∈ cur, isWs c = false) →
      words ([cur].filter fun v => decide (v ∉ gone)).flatten =
        (if cur = [] then [] else [cur]).filter fun v => decide (v ∉ gone) := by
    intro cur h
    by_cases he : cur = []
    · subst he
      rw [if_pos rfl]
      by_cases hm : ([] : Str) ∈ gone
      · exact absurd rfl (hg [] hm).1
      · rw [List.filter_cons_of_pos (by simpa using hm)]; rfl
    · rw [if_neg he]
      by_cases hm : cur ∈ gone
      · rw [List.filter_cons_of_neg (by simpa using hm)]; rfl
      · rw [List.filter_cons_of_pos (by simpa using hm)]
        show words (cur ++ []) = [cur]
        rw [List.append_nil]
        exact words_word ⟨he, h⟩
  induction s with
  | nil => intro cur h; exact hcur cur h
  | cons c s ih =>
    intro cur h
    unfold wsSplit wordsGo
    by_cases hc : isWs c = true
    · rw [if_pos hc, if_pos hc]
      have hsep : decide ([c] ∉ gone) = true := by
        rw [decide_eq_true_iff]
        intro hm
        have := (hg _ hm).2 c List.mem_cons_self
        rw [hc] at this
        cases this
      have e1 : ((cur :: [c] :: wsSplit [] s).filter fun v => decide (v ∉ gone)).flatten =
          ([cur].filter fun v => decide (v ∉ gone)).flatten ++ c ::
            ((wsSplit [] s).filter fun v => decide (v ∉ gone)).flatten := by
        rw [show cur :: [c] :: wsSplit [] s = [cur] ++ [c] :: wsSplit [] s from rfl,
          List.filter_append, List.flatten_append, List.filter_cons_of_pos (p := fun v =>
            decide (v ∉ gone)) hsep]
        rfl
      rw [e1, words_append_ws _ _ _ hc, ih [] (fun _ h => by cases h), hcur cur h]
      by_cases he : cur = []
      · rw [if_pos he, if_pos he]; rfl
      · rw [if_neg he, if_neg he, ← List.filter_append]; rfl
    · rw [if_neg hc, if_neg hc]
      refine ih _ fun x hx => ?_
      rcases List.mem_append.1 hx with hx | hx
      · exact h x hx
      · rw [List.mem_singleton.1 hx]; simpa using hc

theorem words_removeWords (gone : List Str) (hg : ∀ g ∈ gone, IsWord g) (s : Str) :
    words (removeWords gone s) = (words s).filter fun v => decide (v ∉ gone) :=
  words_removeGo gone hg s [] fun _ h => by cases h

end Bb.Data
