import Verif.Bb.DataLemmas5
/-!
# Properties of the datastore

`E` is the expansion of texts: any function.  `ov` is the list of active overrides: any list.
-/

namespace Bb.Data
open Py Spec

/-! ### Copies -/

theorem runAll_same (w : World) (h : WF w) (ops : List Op) (p : Nat) (hp : p < w.stores.length)
    (hc : ∀ op ∈ ops, ∀ c, op.target = some c → c ∉ w.line p) :
    Same true p w (runAll w ops) ∧ ((∀ op ∈ ops, ¬ op.exports) → Same false p w (runAll w ops)) := by
  induction ops generalizing w with
  | nil =>
    exact ⟨⟨rfl, fun _ _ => rfl, rfl, Keeps.refl _ _⟩, fun _ =>
      ⟨rfl, fun _ _ => rfl, rfl, Keeps.refl _ _⟩⟩
  | cons op ops ih =>
    obtain ⟨s1, s2, hp'⟩ := run_same h op p hp (hc op List.mem_cons_self)
    have hl : (op.run w).line p = w.line p := s1.line
    obtain ⟨t1, t2⟩ := ih (op.run w) (wf_run h op) hp' fun op' hop' c e => by
      rw [hl]; exact hc op' (List.mem_cons_of_mem _ hop') c e
    have tr : ∀ b, Same b p w (op.run w) → Same b p (op.run w) (runAll (op.run w) ops) →
        Same b p w (runAll w (op :: ops)) := by
      intro b a c
      refine ⟨c.line.trans a.line, fun j hj => ?_, c.od.trans a.od, a.objs.trans c.objs⟩
      exact (c.dict j (a.line.symm ▸ hj)).trans (a.dict j hj)
    exact ⟨tr true s1 t1, fun hx => tr false (s2 (hx op List.mem_cons_self))
      (t2 fun op' h' => hx op' (List.mem_cons_of_mem _ h'))⟩

/-- Whatever is done to other datastores than this one and those it was copied from, all values and
flags of this one stay the same.  In particular a copy may be changed in any way. -/
theorem original_unchanged_partial (before ops : List Op) (p : Nat)
    (hp : p < (runAll init before).stores.length)
    (hc : ∀ op ∈ ops, ∀ c, op.target = some c → c ∉ (runAll init before).line p)
    (ov : List Str) (E : Expand) (var : Str) :
    getVar (runAll (runAll init before) ops) ov E p var = getVar (runAll init before) ov E p var ∧
    getRaw (runAll (runAll init before) ops) ov E p var = getRaw (runAll init before) ov E p var ∧
    ∀ flag, getVarFlag (runAll (runAll init before) ops) p var flag =
      getVarFlag (runAll init before) p var flag := by
  have hw := wf_runAll wf_init before
  have s := (runAll_same _ hw ops p hp hc).1
  exact ⟨s.getVar hw ov E var, s.getRaw hw ov E var, s.getVarFlag var⟩

/-- The list of exported variables stays the same too if no flag `export` or `unexport` is set. -/
theorem exports_unchanged_partial (before ops : List Op) (p : Nat)
    (hp : p < (runAll init before).stores.length)
    (hc : ∀ op ∈ ops, ∀ c, op.target = some c → c ∉ (runAll init before).line p)
    (hx : ∀ op ∈ ops, ¬ op.exports) :
    exportList (runAll (runAll init before) ops) p = exportList (runAll init before) p :=
  ((runAll_same _ (wf_runAll wf_init before) ops p hp hc).2 hx).exportList (wf_runAll wf_init before)

/-- Some operations before the copy. -/
def exBefore : List Op :=
  [.set [] 0 "A".toList "a".toList true, .set [] 0 "A:append".toList " b".toList true,
   .set [] 0 "A:x".toList "ax".toList true, .setFlag 0 "A".toList "doc".toList "text".toList,
   .setFlag 0 "P".toList "export".toList "1".toList, .copy 0]

/-- Operations on the copy. -/
def exCopy : List Op :=
  [.set [] 1 "A:append".toList " c".toList true, .set ["x".toList] 1 "A".toList "new".toList false,
   .delFlags 1 "A".toList, .copy 1, .set [] 2 "A:y".toList "2".toList true, .del 1 "A:x".toList]

example : 0 < (runAll init exBefore).stores.length ∧
    (∀ op ∈ exCopy, ∀ c, op.target = some c → c ∉ (runAll init exBefore).line 0) ∧
    getVar (runAll (runAll init exBefore) exCopy) [] id 0 "A".toList = some "a b".toList ∧
    getVar (runAll (runAll init exBefore) exCopy) [] id 1 "A".toList = some "new".toList ∧
    getVar (runAll (runAll init exBefore) exCopy) ["y".toList] id 2 "A".toList =
      some "2".toList := by
  refine ⟨by decide +kernel, ?_, by decide +kernel, by decide +kernel, by decide +kernel⟩
  intro op hop c hc
  have hl : (runAll init exBefore).line 0 = [0] := by decide +kernel
  rw [hl]
  revert c
  revert op
  decide +kernel

/-- Exporting a variable in a copy changes the list of exported variables of the original: the set
is shared, and changed in place. -/
theorem export_leaks : ∃ before ops : List Op, ∃ p : Nat,
    p < (runAll init before).stores.length ∧
    (∀ op ∈ ops, ∀ c, op.target = some c → c ∉ (runAll init before).line p) ∧
    exportList (runAll (runAll init before) ops) p ≠ exportList (runAll init before) p := by
  refine ⟨exBefore, [.setFlag 1 "Q".toList "export".toList "1".toList], 0, by decide +kernel, ?_, by
    decide +kernel⟩
  have hl : (runAll init exBefore).line 0 = [0] := by decide +kernel
  rw [hl]
  intro op hop c hc
  rw [List.mem_singleton.1 hop] at hc
  have : c = 1 := (Option.some.inj hc).symm
  subst this
  decide

/-- A copy shows what the original shows. -/
theorem copy_shows_original (before : List Op) (i : Nat) (ov : List Str) (E : Expand) (var : Str) :
    getVar (createCopy (runAll init before) i) ov E (runAll init before).stores.length var =
      getVar (runAll init before) ov E i var ∧
    (∀ flag, getVarFlag (createCopy (runAll init before) i) (runAll init before).stores.length var
      flag = getVarFlag (runAll init before) i var flag) := by
  have hw := wf_runAll wf_init before
  revert hw
  generalize runAll init before = w
  intro hw
  have hnew : (createCopy w i).stores[w.stores.length]? =
      some { dict := [], line := w.stores.length :: w.line i, overridedata := w.od i } := by
    show (w.stores ++ [_])[w.stores.length]? = _
    rw [List.getElem?_append_right (Nat.le_refl _), Nat.sub_self]
    rfl
  have hold : ∀ j, j < w.stores.length → (createCopy w i).dict j = w.dict j := by
    intro j hj
    unfold World.dict
    rw [show (createCopy w i).stores[j]? = w.stores[j]? from List.getElem?_append_left hj]
  have hf : ∀ y, (createCopy w i).findVar w.stores.length y = w.findVar i y := by
    intro y
    have hl : (createCopy w i).line w.stores.length = w.stores.length :: w.line i := by
      unfold World.line
      rw [hnew]
      rfl
    have hd : (createCopy w i).dict w.stores.length = [] := by
      unfold World.dict
      rw [hnew]
      rfl
    unfold World.findVar
    rw [hl, List.findSome?_cons, hd]
    exact findSome_congr fun j hj => by rw [hold j (hw.below i j hj)]
  have ho : (createCopy w i).od w.stores.length = w.od i := by
    unfold World.od
    rw [hnew]
    rfl
  have hr : ∀ n y, rawVar (createCopy w i) ov E w.stores.length n y = rawVar w ov E i n y := by
    intro n
    induction n with
    | zero => intro y; rfl
    | succ n ih =>
      intro y
      unfold rawVar
      rw [hf, ho]
      simp only [ih]
      rfl
  refine ⟨?_, fun flag => ?_⟩
  · unfold getVar rawFuel
    rw [ho, hr]
  · unfold getVarFlag
    rw [hf]

example : 0 < (runAll init exBefore).stores.length ∧
    getVar (createCopy (runAll init exBefore) 0) ["x".toList] id 2 "A".toList =
      some "ax b".toList := by decide +kernel

/-! ### The bounds in the model -/

/-- More depth than the model allows would not change a value. -/
theorem depth_enough (before : List Op) (ov : List Str) (E : Expand) (i : Nat) (var : Str) (n : Nat)
    (hn : rawFuel (runAll init before) i ≤ n) :
    rawVar (runAll init before) ov E i n var =
      rawVar (runAll init before) ov E i (rawFuel (runAll init before) i) var :=
  rawVar_enough (ordered_runAll before init wf_init ordered_init) ov E i _ var
    (room_le _ _ _) n _ hn (Nat.le_refl _)

/-- More rounds than the model allows would not change which override is selected. -/
theorem rounds_enough (ov : List Str) (ps : List (Str × Str)) (n : Nat)
    (hn : selFuel (activeDict ov ps) ≤ n) :
    (selGo ov n { act := activeDict ov ps, hit := none, mod := true }).hit =
      selectOverride ov ps := by
  unfold selectOverride
  rw [selGo_enough ov (keyLen (activeDict ov ps)) _ (Nat.le_refl _) n _ hn (Nat.le_refl _)]
  rfl

example : rawFuel (runAll init [.set [] 0 "V:a:b".toList "1".toList true]) 0 = 3 ∧
    getRaw (runAll init [.set [] 0 "V:a:b".toList "1".toList true]) ["a".toList, "b".toList] id 0
      "V".toList = some "1".toList ∧
    selFuel (activeDict ["a".toList, "b".toList] [("V:a:b".toList, "a:b".toList)]) = 4 := by
  decide +kernel

/-! ### Reading back -/

/-- After a variable is set outside of parsing its value is the new one, whatever operators and
overrides there were, and whatever overrides are active then. -/
theorem set_get (before : List Op) (i : Nat) (hi : i < (runAll init before).stores.length)
    (ov : List Str) (var value : Str) (hk : parseKey var = none) (w' : World)
    (e : setVar (runAll init before) ov i var value false = some w') (ov' : List Str) (E : Expand) :
    getRaw w' ov' E i var = some value ∧ getVar w' ov' E i var = some (E value) := by
  have hw := wf_runAll wf_init before
  revert hi hw e
  generalize runAll init before = w
  intro hi e hw
  have hw' : WF w' := wf_setVar hw _ _ _ _ _ e
  unfold setVar at e
  by_cases h1 : oldSyntax var
  · rw [if_pos h1] at e; cases e
  · rw [if_neg h1, hk] at e
    dsimp only at e
    rw [if_neg Bool.false_ne_true] at e
    have em := Option.some.inj e
    have hwS := wf_shadow hw i var
    have hiS : i < (w.shadow i var).stores.length := by rw [(frame_shadow w i var).len]; exact hi
    obtain ⟨c1, c2⟩ := clearVar_own hwS hiS ov var
    have hwC := wf_clearVar hwS ov i var
    have hiC : i < (clearVar (w.shadow i var) ov i var).stores.length := by
      rw [(frame_clearVar _ ov i var).len]; exact hiS
    revert c1 c2 hwC hiC em
    generalize clearVar (w.shadow i var) ov i var = w2
    intro em c1 c2 hwC hiC
    have hu : ∃ w3, (if ':' ∈ var then updateOverrides w2 i var else w2) = w3 ∧ WF w3 ∧
        i < w3.stores.length ∧ NoOps ((w3.findVar i var).getD {}) ∧ (w3.od i).lookup var = none := by
      refine ⟨_, rfl, ?_⟩
      by_cases hc : ':' ∈ var
      · rw [if_pos hc]
        refine ⟨wf_updateOverrides hwC i var, by rw [(frame_updateOverrides w2 i var).len]; exact hiC,
          ?_, ?_⟩
        · rw [(sd_updateOverrides w2 i var).findVar]; exact c1
        · rw [lookup_od_updateOverrides _ _ _ _ (candidates_ne var)]; exact c2
      · rw [if_neg hc]; exact ⟨hwC, hiC, c1, c2⟩
    obtain ⟨w3, e3, hw3, hi3, n3, o3⟩ := hu
    rw [e3] at em
    have hf : w'.findVar i var = some { (w3.findVar i var).getD {} with content := some value } := by
      rw [← em, findVar_modVar hw3 hi3, if_pos rfl]
    have ho : (w'.od i).lookup var = none := by rw [← em, od_modVar]; exact o3
    have hn : NoOps { (w3.findVar i var).getD {} with content := some value } :=
      fun k => by have := n3 k; cases k <;> exact this
    have hr : rawVar w' ov' E i (rawFuel w' i) var = (some value, []) := by
      unfold rawFuel
      rw [raw_plain ho, hf, activeOps_none hn, activeOps_none hn, activeOps_none hn]
      rfl
    unfold getRaw getVar
    rw [hr]
    refine ⟨rfl, ?_⟩
    show some (removeWords [] (E value)) = _
    rw [removeWords_nil]

/-- A history with operators, overrides and a default for the variable. -/
def exSet : List Op :=
  [.set [] 0 "A".toList "a".toList true, .set [] 0 "A:append".toList " b".toList true,
   .set [] 0 "A:x".toList "ax".toList true, .set [] 0 "A:remove:x".toList "q".toList true,
   .copy 0]

example : 1 < (runAll init exSet).stores.length ∧ parseKey "A".toList = none ∧
    ((setVar (runAll init exSet) ["x".toList] 1 "A".toList "q".toList false).map fun w =>
      (getVar w ["x".toList] id 1 "A".toList, getVar w ["x".toList] id 0 "A".toList)) =
      some (some "q".toList, some "ax b".toList) := by decide +kernel

/-- After a variable is deleted it has no value, whatever overrides are active then. -/
theorem del_get (before : List Op) (i : Nat) (hi : i < (runAll init before).stores.length)
    (var : Str) (ov : List Str) (E : Expand) :
    getRaw (delVar (runAll init before) i var) ov E i var = none ∧
    getVar (delVar (runAll init before) i var) ov E i var = none ∧
    ∀ flag, getVarFlag (delVar (runAll init before) i var) i var flag = none := by
  obtain ⟨h1, h2⟩ := delVar_own (wf_runAll wf_init before) hi var
  have hf := h1 var
  rw [if_pos rfl] at hf
  have hr : rawVar (delVar (runAll init before) i var) ov E i
      (rawFuel (delVar (runAll init before) i var) i) var = (none, []) := by
    unfold rawFuel
    rw [raw_plain h2, hf, activeOps_none noOps_empty, activeOps_none noOps_empty,
      activeOps_none noOps_empty]
    rfl
  unfold getRaw getVar
  rw [hr]
  refine ⟨rfl, rfl, fun flag => ?_⟩
  unfold getVarFlag
  rw [hf]
  rfl

example : getVar (runAll init exSet) ["x".toList] id 1 "A".toList = some "ax b".toList ∧
    getVar (delVar (runAll init exSet) 1 "A".toList) ["x".toList] id 1 "A".toList = none := by
  decide +kernel

/-- A change of one variable does not change the flags of another one. -/
theorem del_other_flag (before : List Op) (i : Nat)
    (hi : i < (runAll init before).stores.length) (var var' flag : Str) (h : var' ≠ var) :
    getVarFlag (delVar (runAll init before) i var) i var' flag =
      getVarFlag (runAll init before) i var' flag := by
  unfold getVarFlag
  rw [(delVar_own (wf_runAll wf_init before) hi var).1, if_neg h]

example : getVarFlag (delVar (runAll init exBefore) 0 "P".toList) 0 "A".toList "doc".toList =
    some "text".toList := by decide +kernel

/-! ### Operators -/

/-- For each history of lines about one variable that is new: the value before expansion is the base
value with the active appends behind it and the active prepends in front of it; the expanded value
is that without the words of the active removes.  The lines may be in any order. -/
theorem operators_compose_partial (before : List Op) (i : Nat)
    (hi : i < (runAll init before).stores.length) (var : Str) (hv : NoKw var)
    (hnew : (runAll init before).findVar i var = none)
    (hod : ((runAll init before).od i).lookup var = none)
    (ls : List Line) (hl : ∀ l ∈ ls, l.Lower) (w' : World)
    (e : evalLines (runAll init before) i var ls = some w') (ov : List Str) (E : Expand) :
    getRaw w' ov E i var = finalValue ov ls ∧
    (getVar w' ov E i var).map words = (finalValue ov ls).map fun s =>
      (words (E s)).filter fun x => decide (∀ r ∈ operators ov .rem ls, x ∉ words (E r)) := by
  have h0 : Holds (runAll init before) i var none none (fun _ => []) := by
    refine ⟨wf_runAll wf_init before, hi, hod, ?_, ?_, fun k => ?_⟩ <;> rw [hnew]
    · rfl
    · rfl
    · cases k <;> rfl
  have h := h0.lines hv ls hl e
  have ha : ∀ k, activeOps w' ov (w'.findVar i var) k = operators ov k ls := by
    intro k
    rw [← operators_eq]
    have hk := h.kw k
    rw [List.nil_append] at hk
    rw [← hk]
    unfold activeOps
    cases w'.findVar i var with
    | none => cases k <;> rfl
    | some v => rfl
  have hb : ((w'.findVar i var).bind fun v => v.content.or v.default) =
      (baseValue ls).or (defaultValue ls) := by
    unfold baseValue defaultValue
    have hd := h.default
    rw [Option.or_none] at hd
    rw [← h.content, ← hd]
    cases w'.findVar i var <;> rfl
  have hr : rawVar w' ov E i (rawFuel w' i) var = (finalValue ov ls, operators ov .rem ls) := by
    unfold rawFuel
    rw [raw_plain h.od, ha, ha, ha, hb, addOps_eq]
    rfl
  unfold getRaw getVar
  rw [hr]
  refine ⟨rfl, ?_⟩
  dsimp only
  rw [Option.map_map]
  congr 1
  funext s
  show words (removeWords _ (E s)) = _
  rw [words_removeWords _ fun g hg => by
    obtain ⟨r, _, hr⟩ := List.mem_flatMap.1 hg
    exact words_isWord hr]
  refine List.filter_congr fun x _ => ?_
  have : x ∉ (operators ov .rem ls).flatMap (fun r => words (E r)) ↔
      ∀ r ∈ operators ov .rem ls, x ∉ words (E r) := by
    rw [List.mem_flatMap]
    exact ⟨fun h r hr hx => h ⟨r, hr, hx⟩, fun h ⟨r, hr, hx⟩ => h r hr hx⟩
  exact decide_eq_decide.2 this

/-- Lines of all kinds. -/
def exLines : List Line :=
  [.op .app none " d e".toList, .weakest "z".toList, .assign "b c".toList,
   .op .rem (some "x:y".toList) "c e".toList, .op .pre (some "x".toList) "a ".toList,
   .plusAfter "c2".toList, .op .app (some "n".toList) " no".toList]

example : NoKw "A".toList ∧ (∀ l ∈ exLines, l.Lower) ∧
    finalValue ["x".toList, "y".toList] exLines = some "a b c c2 d e".toList ∧
    ((evalLines (runAll init []) 0 "A".toList exLines).map fun w =>
      getVar w ["x".toList, "y".toList] id 0 "A".toList) = some (some "a b  c2 d ".toList) := by
  decide +kernel

/-- So the order between lines of different kinds does not matter. -/
theorem operators_order_partial (before : List Op) (i : Nat)
    (hi : i < (runAll init before).stores.length) (var : Str) (hv : NoKw var)
    (hnew : (runAll init before).findVar i var = none)
    (hod : ((runAll init before).od i).lookup var = none)
    (ls ls' : List Line) (hl : ∀ l ∈ ls, l.Lower) (hl' : ∀ l ∈ ls', l.Lower) (w1 w2 : World)
    (e1 : evalLines (runAll init before) i var ls = some w1)
    (e2 : evalLines (runAll init before) i var ls' = some w2)
    (h1 : ls.filter Line.isAssign = ls'.filter Line.isAssign)
    (h2 : ls.filterMap Line.weakest? = ls'.filterMap Line.weakest?)
    (h3 : ∀ k, ls.filterMap (Line.opAll k) = ls'.filterMap (Line.opAll k))
    (ov : List Str) (E : Expand) :
    getRaw w1 ov E i var = getRaw w2 ov E i var ∧
    (getVar w1 ov E i var).map words = (getVar w2 ov E i var).map words := by
  obtain ⟨a1, b1⟩ := operators_compose_partial before i hi var hv hnew hod ls hl w1 e1 ov E
  obtain ⟨a2, b2⟩ := operators_compose_partial before i hi var hv hnew hod ls' hl' w2 e2 ov E
  have hop : ∀ k, operators ov k ls = operators ov k ls' := fun k => by
    rw [← operators_eq, ← operators_eq, h3]
  have hfin : finalValue ov ls = finalValue ov ls' := by
    unfold finalValue baseValue defaultValue
    rw [h1, h2, hop, hop]
  rw [a1, a2, b1, b2, hfin, hop]
  exact ⟨rfl, rfl⟩

/-- The same lines in another order. -/
def exLines' : List Line :=
  [.weakest "z".toList, .op .pre (some "x".toList) "a ".toList, .assign "b c".toList,
   .plusAfter "c2".toList, .op .rem (some "x:y".toList) "c e".toList, .op .app none " d e".toList,
   .op .app (some "n".toList) " no".toList]

example : exLines ≠ exLines' ∧ (∀ l ∈ exLines', l.Lower) ∧
    exLines.filter Line.isAssign = exLines'.filter Line.isAssign ∧
    exLines.filterMap Line.weakest? = exLines'.filterMap Line.weakest? ∧
    exLines.filterMap (Line.opAll .app) = exLines'.filterMap (Line.opAll .app) ∧
    exLines.filterMap (Line.opAll .pre) = exLines'.filterMap (Line.opAll .pre) ∧
    exLines.filterMap (Line.opAll .rem) = exLines'.filterMap (Line.opAll .rem) ∧
    (evalLines (runAll init []) 0 "A".toList exLines').isSome := by decide +kernel

/-- An operator with an override with a capital letter is not an operator: `A:append:X` sets a
variable of that name, and the value of `A` does not change. -/
theorem capital_override_no_operator : ∃ (ls : List Line) (w : World),
    evalLines init 0 "A".toList ls = some w ∧
    getRaw w ["X".toList] id 0 "A".toList ≠ finalValue ["X".toList] ls := by
  have h : (evalLines init 0 "A".toList [.assign "a".toList,
      .op .app (some "X".toList) "b".toList]).map (fun w =>
        decide (getRaw w ["X".toList] id 0 "A".toList ≠ finalValue ["X".toList]
          [.assign "a".toList, .op .app (some "X".toList) "b".toList])) = some true := by
    decide +kernel
  cases e : evalLines init 0 "A".toList [.assign "a".toList,
      .op .app (some "X".toList) "b".toList] with
  | none => rw [e] at h; cases h
  | some w =>
    rw [e] at h
    exact ⟨_, w, e, of_decide_eq_true (Option.some.inj h)⟩

/-! ### Overrides -/

/-- For each history of assignments to a variable and its overrides: the value is that of the last
active override for which there is one, and without such an override the plain value. -/
theorem last_override_wins_partial (before : List Op) (i : Nat)
    (hi : i < (runAll init before).stores.length) (var : Str) (hv : ':' ∉ var)
    (hnew : Fresh (runAll init before) i var) (as : List (Option Str × Str))
    (ha : ∀ a ∈ as, ∀ x, a.1 = some x → Simple x) (w' : World)
    (e : assignAll (runAll init before) i var as = some w') (ov : List Str) (E : Expand) :
    getRaw w' ov E i var = overrideValue ov as := by
  have h := (Hist.start (wf_runAll wf_init before) hi hnew).run hv as ha e
  rw [List.nil_append] at h
  obtain ⟨os, h1, h2, h3⟩ := h.ovs
  have hsel : (((w'.od i).lookup var).bind fun l => selectOverride ov (w'.pairs l)) =
      (winner ov as).map fun o => ovName var (some o) := by
    have e1 : (((w'.od i).lookup var).bind fun l => selectOverride ov (w'.pairs l)) =
        selectOverride ov (w'.overrides i var) := by
      unfold World.overrides
      cases (w'.od i).lookup var with
      | some l => rfl
      | none =>
        have := select_flat ov (fun o => o) [] (fun o h => by cases h)
        have hn : (ov.eraseDups.reverse.find? fun o => decide (o ∈ ([] : List Str))) = none := by
          rw [List.find?_eq_none]
          intro x _
          simp
        rw [hn] at this
        exact this.symm
    rw [e1, h1, select_flat ov _ os fun o ho => (h2 o ho).1]
    unfold winner
    congr 1
    refine find_congr fun o _ => ?_
    rw [Bool.eq_iff_iff, decide_eq_true_iff]
    exact h3 o
  obtain ⟨v1, v2, _⟩ := h.value none fun x e => by cases e
  have v1' : ((w'.findVar i var).bind fun v => v.content.or v.default) = lastOf none as := v1
  have v2' : NoOps ((w'.findVar i var).getD {}) := v2
  have hops : ∀ y k, NoOps ((w'.findVar i y).getD {}) → activeOps w' ov (w'.findVar i y) k = [] := by
    intro y k hn
    cases e2 : w'.findVar i y with
    | none => rfl
    | some v => rw [e2] at hn; exact activeOps_none hn k
  unfold getRaw rawFuel rawVar
  dsimp only
  rw [hsel, hops _ _ v2', hops _ _ v2', v1']
  unfold overrideValue
  cases hw : winner ov as with
  | none => rfl
  | some o =>
    have hs : (lastOf (some o) as).isSome = true := by
      unfold winner at hw
      exact List.find?_some (p := fun o => (lastOf (some o) as).isSome) hw
    have ho : Simple o := h2 o ((h3 o).2 hs)
    obtain ⟨u1, u2, _⟩ := h.value (some o) fun x e => by cases e; exact ho
    have hlen : ∃ n, (w'.od i).length = n + 1 := by
      cases hd : w'.od i with
      | nil =>
        rw [hd] at hsel
        rw [hw] at hsel
        cases hsel
      | cons x d => exact ⟨d.length, rfl⟩
    obtain ⟨n, hn⟩ := hlen
    have hr : rawVar w' ov E i ((w'.od i).length) (ovName var (some o)) =
        (lastOf (some o) as, []) := by
      rw [hn, raw_plain (h.sub o ho), u1, hops _ _ u2, hops _ _ u2, hops _ _ u2]
      rfl
    show addOps ((rawVar w' ov E i ((w'.od i).length) (ovName var (some o))).1.or _) [] [] = _
    rw [hr]
    cases hl : lastOf (some o) as with
    | none => rw [hl] at hs; cases hs
    | some x => rfl

/-- The variable that overrides this one. -/
def overriding (w : World) (ov : List Str) (i : Nat) (var : Str) : Option Str :=
  ((w.od i).lookup var).bind fun l => selectOverride ov (w.pairs l)

/-- The words that are removed from the overriding variable are removed from the variable, and those
that are removed from the variable itself too. -/
theorem removes_carried (before : List Op) (ov : List Str) (E : Expand) (i : Nat) (var m s : Str)
    (hm : overriding (runAll init before) ov i var = some m)
    (hs : getRaw (runAll init before) ov E i m = some s) (hne : s ≠ [])
    (ha : activeOps (runAll init before) ov ((runAll init before).findVar i var) .app = [])
    (hp : activeOps (runAll init before) ov ((runAll init before).findVar i var) .pre = []) :
    (getVar (runAll init before) ov E i var).map words =
      (getVar (runAll init before) ov E i m).map fun t => (words t).filter fun x =>
        decide (∀ r ∈ activeOps (runAll init before) ov ((runAll init before).findVar i var) .rem,
          x ∉ words (E r)) := by
  have hd := depth_enough before ov E i
  revert hd hm hs ha hp
  generalize runAll init before = w
  intro hm hs ha hp hd
  have hfu : ∃ k, rawFuel w i = k + 1 := ⟨_, rfl⟩
  obtain ⟨k, hk⟩ := hfu
  have hr : rawVar w ov E i (rawFuel w i) var = rawVar w ov E i (rawFuel w i + 1) var :=
    (hd var _ (by omega)).symm
  have hrm : rawVar w ov E i (rawFuel w i) m = (some s, (rawVar w ov E i (rawFuel w i) m).2) := by
    have : (rawVar w ov E i (rawFuel w i) m).1 = some s := hs
    rw [← this]
  generalize (rawVar w ov E i (rawFuel w i) m).2 = rs at hrm
  have hv : rawVar w ov E i (rawFuel w i + 1) var = (some s, removesUsed E rs (E s) ++
      activeOps w ov (w.findVar i var) .rem) := by
    unfold overriding at hm
    conv => lhs; unfold rawVar
    dsimp only
    rw [hm]
    dsimp only
    rw [hrm, ha, hp]
    show (some s, (if s = [] then [] else removesUsed E rs (E s)) ++ _) = _
    rw [if_neg hne]
  unfold getVar
  rw [hr, hv, hrm]
  show some (words (removeWords _ (E s))) = some (List.filter _ (words (removeWords _ (E s))))
  have hw : ∀ l : List Str, ∀ g ∈ l.flatMap fun x => words (E x), IsWord g := by
    intro l g hg
    obtain ⟨r, _, hr⟩ := List.mem_flatMap.1 hg
    exact words_isWord hr
  rw [words_removeWords _ (hw _), words_removeWords _ (hw _), List.filter_filter]
  congr 1
  refine List.filter_congr fun x hx => ?_
  rw [Bool.eq_iff_iff, Bool.and_eq_true, decide_eq_true_iff, decide_eq_true_iff, decide_eq_true_iff,
    List.mem_flatMap, List.mem_flatMap]
  constructor
  · intro h
    refine ⟨fun r hr hx' => h ⟨r, List.mem_append.2 (.inr hr), hx'⟩, ?_⟩
    rintro ⟨r, hr, hx'⟩
    refine h ⟨r, List.mem_append.2 (.inl (List.mem_filter.2 ⟨hr, ?_⟩)), hx'⟩
    rw [List.any_eq_true]
    exact ⟨x, words_pieces hx, decide_eq_true hx'⟩
  · rintro ⟨h1, h2⟩ ⟨r, hr, hx'⟩
    rcases List.mem_append.1 hr with hr | hr
    · exact h2 ⟨r, (List.mem_filter.1 hr).1, hx'⟩
    · exact h1 r hr hx'

/-- Removes of a variable and of the one that overrides it. -/
def exRemoves : List Op :=
  [.set [] 0 "V".toList "0".toList true, .set [] 0 "V:a".toList "1 2 3 4".toList true,
   .set [] 0 "V:a:remove".toList "3 9".toList true, .set [] 0 "V:remove".toList "1".toList true]

example : overriding (runAll init exRemoves) ["a".toList] 0 "V".toList = some "V:a".toList ∧
    getRaw (runAll init exRemoves) ["a".toList] id 0 "V:a".toList = some "1 2 3 4".toList ∧
    activeOps (runAll init exRemoves) ["a".toList] ((runAll init exRemoves).findVar 0 "V".toList)
      .app = [] ∧
    activeOps (runAll init exRemoves) ["a".toList] ((runAll init exRemoves).findVar 0 "V".toList)
      .pre = [] ∧
    getVar (runAll init exRemoves) ["a".toList] id 0 "V".toList = some " 2  4".toList := by
  decide +kernel

/-- Assignments with overrides. -/
def exAssign : List (Option Str × Str) :=
  [(some "b".toList, "1".toList), (none, "2".toList), (some "a".toList, "3".toList),
   (some "b".toList, "4".toList), (some "c".toList, "5".toList)]

example : (∀ a ∈ exAssign, ∀ x ∈ a.1, Simple x) ∧ ':' ∉ "V".toList ∧
    winner ["a".toList, "b".toList, "q".toList] exAssign = some "b".toList ∧
    overrideValue ["a".toList, "b".toList, "q".toList] exAssign = some "4".toList ∧
    overrideValue ["b".toList, "a".toList] exAssign = some "3".toList ∧
    overrideValue ["q".toList] exAssign = some "2".toList ∧
    (assignAll init 0 "V".toList exAssign).isSome := by decide +kernel

/-- All is new in a new datastore. -/
theorem fresh_init (var : Str) : Fresh init 0 var := fun _ _ => ⟨rfl, rfl⟩

/-- The value of `A` after some assignments in a new datastore. -/
def valueAfter (names : List (Str × Str)) (ov : List Str) (var : Str) : Option Str :=
  getVar (runAll init (names.map fun n => .set [] 0 n.1 n.2 true)) ov id 0 var

/-- An override that is repeated in the list counts at its first place: here the last active
override is `a`, and the value is that of `b`. -/
theorem repeated_override : valueAfter [("V:a".toList, "1".toList), ("V:b".toList, "2".toList)]
    ["a".toList, "b".toList, "a".toList] "V".toList = some "2".toList := by decide +kernel

/-- An override of several parts that repeats a text is lost, although all of its parts are
active: `a.replace(":b", "")` takes out both places, and `ac` is not an override. -/
theorem compound_override_lost : valueAfter [("V".toList, "1".toList), ("V:a:bc:b".toList,
    "2".toList)] ["a".toList, "b".toList, "bc".toList] "V".toList = some "1".toList := by
  decide +kernel

/-- An append to a variable in small letters without a colon makes it an override of a shorter
variable: `foo:append` changes the value of `fo` if `foo` is an active override. -/
theorem append_makes_override : valueAfter [("fo".toList, "1".toList), ("foo".toList, "2".toList),
      ("foo:append".toList, "3".toList)] ["foo".toList] "fo".toList = some "23".toList ∧
    valueAfter [("fo".toList, "1".toList), ("foo".toList, "2".toList)] ["foo".toList]
      "fo".toList = some "1".toList := by
  constructor <;> decide +kernel

/-- Setting a variable outside of parsing forgets that there are overrides that are not active at
that time: they have no effect if they become active later, although their value is still there. -/
theorem set_forgets_overrides :
    getVar (runAll init [.set [] 0 "V:a".toList "1".toList true,
      .set [] 0 "V".toList "2".toList false]) ["a".toList] id 0 "V".toList = some "2".toList ∧
    getVar (runAll init [.set [] 0 "V:a".toList "1".toList true,
      .set [] 0 "V".toList "2".toList false]) ["a".toList] id 0 "V:a".toList = some "1".toList := by
  constructor <;> decide +kernel

/-- Deleting all flags in a copy does not delete them if the variable has no value: those of the
original show again. -/
theorem del_flags_in_copy :
    getVarFlag (runAll init [.setFlag 0 "V".toList "doc".toList "x".toList, .copy 0,
      .delFlags 1 "V".toList]) 1 "V".toList "doc".toList = some "x".toList := by decide +kernel

end Bb.Data
