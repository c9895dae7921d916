import Verif.Py.Dict
/-!
# Model of the datastore of bitbake: `bitbake/lib/bb/data_smart.py`

There may be several datastores, one a copy of the other.  What several of them can refer to (the
lists of operators of a variable, the lists of overrides, the set of exported variables) is an
object in a list of objects, so that a change in place is seen by all that refer to it.

Not modelled in this module: the history of the variables (`varhistory`), renamed variables
(`_var_renames`), and where the list of active overrides comes from: `self.overrides` is an argument
`ov` of all functions that use it.  Expansion is a parameter.
-/

namespace Bb.Data
open Py

/-- An object that may be shared. -/
inductive Obj where
  /-- The list of `:append`, `:prepend` or `:remove`: values with their overrides. -/
  | ops (l : List (Str × Option Str))
  /-- A list in `overridedata`: variables with the override. -/
  | pairs (l : List (Str × Str))
  /-- A set of names. -/
  | names (l : List Str)
deriving DecidableEq, Repr

/-- `":append"`, `":prepend"`, `":remove"`: `__setvar_keyword__`, data_smart.py:32. -/
inductive Kw where
  | app | pre | rem
deriving DecidableEq, Repr

/-- The text of a keyword. -/
def Kw.text : Kw → Str
  | .app => [':', 'a', 'p', 'p', 'e', 'n', 'd']
  | .pre => [':', 'p', 'r', 'e', 'p', 'e', 'n', 'd']
  | .rem => [':', 'r', 'e', 'm', 'o', 'v', 'e']

/-- The dictionary of a variable, `self.dict[var]`: its flags. -/
structure VarD where
  /-- `_content`. -/
  content : Option Str := none
  /-- `_defaultval`. -/
  default : Option Str := none
  /-- The lists of operators, as places of objects. -/
  app : Option Nat := none
  pre : Option Nat := none
  rem : Option Nat := none
  /-- `_content` of the variable `__exportlist`, which is a set. -/
  exports : Option Nat := none
  /-- All other flags. -/
  flags : Dict Str := []
deriving DecidableEq, Repr

/-- The list of a keyword. -/
def VarD.kw (v : VarD) : Kw → Option Nat
  | .app => v.app
  | .pre => v.pre
  | .rem => v.rem

/-- Sets the list of a keyword. -/
def VarD.setKw (v : VarD) (l : Nat) : Kw → VarD
  | .app => { v with app := some l }
  | .pre => { v with pre := some l }
  | .rem => { v with rem := some l }

/-- A datastore. -/
structure Store where
  /-- `self.dict` without `_data`. -/
  dict : Dict VarD
  /-- The datastore itself, and those reached by `_data`. -/
  line : List Nat
  /-- `self.overridedata`. -/
  overridedata : Dict Nat
deriving DecidableEq, Repr

/-- All datastores and objects. -/
structure World where
  stores : List Store
  objs : List Obj
deriving DecidableEq, Repr

/-- `self.dict`. -/
def World.dict (w : World) (i : Nat) : Dict VarD := ((w.stores[i]?).map (·.dict)).getD []

/-- The datastore and those it was copied from. -/
def World.line (w : World) (i : Nat) : List Nat := ((w.stores[i]?).map (·.line)).getD []

/-- `self.overridedata`. -/
def World.od (w : World) (i : Nat) : Dict Nat := ((w.stores[i]?).map (·.overridedata)).getD []

/-- `self.dict[var] = x`. -/
def World.setDict (w : World) (i : Nat) (var : Str) (x : VarD) : World :=
  { w with stores := w.stores.modify i fun s => { s with dict := Dict.set s.dict var x } }

/-- `del self.dict[var]`. -/
def World.delDict (w : World) (i : Nat) (var : Str) : World :=
  { w with stores := w.stores.modify i fun s => { s with dict := Dict.del s.dict var } }

/-- `self.overridedata[var] = x`. -/
def World.setOd (w : World) (i : Nat) (var : Str) (x : Nat) : World :=
  { w with stores := w.stores.modify i fun s =>
      { s with overridedata := Dict.set s.overridedata var x } }

/-- `del self.overridedata[var]`. -/
def World.delOd (w : World) (i : Nat) (var : Str) : World :=
  { w with stores := w.stores.modify i fun s =>
      { s with overridedata := Dict.del s.overridedata var } }

/-- A new object. -/
def World.new (w : World) (o : Obj) : World := { w with objs := w.objs ++ [o] }

/-- A change of an object in place. -/
def World.write (w : World) (l : Nat) (o : Obj) : World :=
  { w with objs := w.objs.set l o }

/-- The list of operators at a place. -/
def World.ops (w : World) (l : Nat) : List (Str × Option Str) :=
  match w.objs[l]? with
  | some (.ops l) => l
  | _ => []

/-- The list of overrides at a place. -/
def World.pairs (w : World) (l : Nat) : List (Str × Str) :=
  match w.objs[l]? with
  | some (.pairs l) => l
  | _ => []

/-- The set of names at a place. -/
def World.names (w : World) (l : Nat) : List Str :=
  match w.objs[l]? with
  | some (.names l) => l
  | _ => []

/-- `_findVar`, data_smart.py:519-528.  `_data` is not the name of a variable. -/
def World.findVar (w : World) (i : Nat) (var : Str) : Option VarD :=
  (w.line i).findSome? fun j => (w.dict j).lookup var

/-- `_makeShadowCopy`, data_smart.py:530-539, 514-517, and `initVar`: the copy is shallow. -/
def World.shadow (w : World) (i : Nat) (var : Str) : World :=
  if ((w.dict i).lookup var).isSome then w else w.setDict i var ((w.findVar i var).getD {})

/-- A change of the dictionary of a variable after `_makeShadowCopy`. -/
def World.modVar (w : World) (i : Nat) (var : Str) (f : VarD → VarD) : World :=
  let w := w.shadow i var
  w.setDict i var (f (((w.dict i).lookup var).getD {}))

/-! ### Names of variables -/

/-- The keyword and what follows it at the beginning of the text, by the second part of
`__setvar_regexp__`, data_smart.py:33. -/
def kwAt (s : Str) (k : Kw) : Option (Option Str) :=
  if startsWith s k.text then
    match s.drop k.text.length with
    | [] => some none
    | ':' :: add => if add.all (fun c => !c.isUpper) then some (some add) else none
    | _ => none
  else none

/-- `__setvar_regexp__.match(var)`, data_smart.py:33 and 569: the shortest base for which the rest
is a keyword and perhaps an override.  For names without line breaks. -/
def parseKey : Str → Option (Str × Kw × Option Str)
  | [] => none
  | c :: s =>
    match kwAt (c :: s) .app, kwAt (c :: s) .pre, kwAt (c :: s) .rem with
    | some o, _, _ => some ([], .app, o)
    | none, some o, _ => some ([], .pre, o)
    | none, none, some o => some ([], .rem, o)
    | none, none, none => (parseKey s).map fun r => (c :: r.1, r.2)

/-- The text before the last colon. -/
def beforeColon (s : Str) : Str := ((s.reverse.dropWhile (· ≠ ':')).drop 1).reverse

/-- `__override_regexp__.match(override)`, data_smart.py:37. -/
def isOverride (o : Str) : Bool :=
  match o with
  | [] => false
  | c :: _ => ('a' ≤ c && c ≤ 'z') || ('0' ≤ c && c ≤ '9')

/-- The loops of `_setvar_update_overrides` and `delVar`, data_smart.py:646-660 and 727-742: the
shorter variables with the overrides.  The first number bounds the rounds. -/
def candGo (var : Str) : Nat → Str → Str → List (Str × Str)
  | 0, _, _ => []
  | n + 1, shortvar, override =>
    if isOverride override then
      (shortvar, override) ::
        (if ':' ∈ shortvar then
          let p := beforeColon shortvar
          if p = [] then [] else candGo var n p (var.drop (p.length + 1))
        else [])
    else []

/-- The start of the loops: `var.rfind(':')` is -1 for a name without a colon, and then the override
is the whole name and the shorter variable the name without its last character. -/
def candidates (var : Str) : List (Str × Str) :=
  if ':' ∈ var then
    candGo var var.length (beforeColon var) (var.drop ((beforeColon var).length + 1))
  else candGo var var.length var.dropLast var

/-! ### Writing -/

/-- One round of `_setvar_update_overrides`, data_smart.py:649-654. -/
def addOverride (i : Nat) (var : Str) (w : World) (c : Str × Str) : World :=
  let w := if ((w.od i).lookup c.1).isSome then w else
    (w.new (.pairs [])).setOd i c.1 w.objs.length
  let l := ((w.od i).lookup c.1).getD 0
  if (var, c.2) ∈ w.pairs l then w
  else
    let w' := w.new (.pairs (w.pairs l))
    let w' := w'.setOd i c.1 w.objs.length
    w'.write w.objs.length (.pairs (w.pairs l ++ [(var, c.2)]))

/-- `_setvar_update_overrides`, data_smart.py:644-660. -/
def updateOverrides (w : World) (i : Nat) (var : Str) : World :=
  (candidates var).foldl (addOverride i var) w

/-- One round of the loop of `delVar`, data_smart.py:730-736. -/
def dropOverride (i : Nat) (var : Str) (w : World) (c : Str × Str) : World :=
  match (w.od i).lookup c.1 with
  | none => w
  | some l =>
    let w' := w.new (.pairs (w.pairs l))
    let w' := w'.setOd i c.1 w.objs.length
    w'.write w.objs.length (.pairs ((w.pairs l).erase (var, c.2)))

/-- `delVar`, data_smart.py:717-742. -/
def delVar (w : World) (i : Nat) (var : Str) : World :=
  let w := w.setDict i var {}
  let w := if ((w.od i).lookup var).isSome then w.delOd i var else w
  if ':' ∈ var then (candidates var).foldl (dropOverride i var) w else w

/-- Is an override, or each part of a compound override, active?  data_smart.py:609-614. -/
def active (ov : List Str) (o : Str) : Bool :=
  decide (o ∈ ov) || (decide (':' ∈ o) && (splitOn ':' o).all fun p => decide (p ∈ ov))

/-- The part of `setVar` for the operators, data_smart.py:569-594: the list is copied by
`getVarFlag`, and the copy is changed. -/
def setOp (w : World) (i : Nat) (base : Str) (k : Kw) (override : Option Str) (value : Str) :
    World :=
  let old := ((w.findVar i base).bind (·.kw k)).map w.ops
  let w' := w.new (.ops (old.getD []))
  let w' := w'.write w.objs.length (.ops (old.getD [] ++ [(value, override)]))
  let w' := w'.modVar i base fun v => v.setKw w.objs.length k
  updateOverrides w' i base

/-- The old syntax of operators, data_smart.py:547: the fatal error is `none` in `setVar`. -/
def oldSyntax (var : Str) : Bool :=
  !startsWith var "__anon_".toList &&
    (isSub "_append".toList var || isSub "_prepend".toList var || isSub "_remove".toList var)

/-- data_smart.py:599-617: the operators and the active overrides of a variable go away when it is
set outside of parsing. -/
def clearVar (w : World) (ov : List Str) (i : Nat) (var : Str) : World :=
  let w := w.modVar i var fun v => { v with app := none, pre := none, rem := none }
  match (w.od i).lookup var with
  | none => w
  | some l =>
    let gone := ((w.pairs l).filter fun p => active ov p.2).map (·.1)
    (gone.foldl (fun w a => delVar w i a) w).delOd i var

/-- `setVar`, data_smart.py:544-628. -/
def setVar (w : World) (ov : List Str) (i : Nat) (var value : Str) (parsing : Bool) :
    Option World :=
  if oldSyntax var then none
  else
    match parseKey var with
    | some (base, k, override) => some (setOp w i base k override value)
    | none =>
      let w := w.shadow i var
      let w := if parsing then w else clearVar w ov i var
      let w := if ':' ∈ var then updateOverrides w i var else w
      some (w.modVar i var fun v => { v with content := some value })

/-- `appendVar`, data_smart.py:707-710. -/
def appendVar (w : World) (ov : List Str) (i : Nat) (var value : Str) : Option World :=
  setVar w ov i (var ++ Kw.app.text) value true

/-- `prependVar`, data_smart.py:712-715. -/
def prependVar (w : World) (ov : List Str) (i : Nat) (var value : Str) : Option World :=
  setVar w ov i (var ++ Kw.pre.text) value true

/-- The end of `setVarFlag`, data_smart.py:768-773: the set is changed in place. -/
def addExport (w : World) (i : Nat) (var : Str) : World :=
  let el := "__exportlist".toList
  let w := w.shadow i el
  let w := match (((w.dict i).lookup el).getD {}).exports with
    | some _ => w
    | none => (w.new (.names [])).modVar i el fun v => { v with exports := some w.objs.length }
  let l := ((((w.dict i).lookup el).getD {}).exports).getD 0
  w.write l (.names (w.names l ++ [var]))

/-- `setVarFlag` for the flags of a user, data_smart.py:744-773. -/
def setVarFlag (w : World) (i : Nat) (var flag value : Str) : World :=
  let w := w.modVar i var fun v => { v with flags := Dict.set v.flags flag value }
  if flag = "export".toList ∨ flag = "unexport".toList then addExport w i var else w

/-- `setVarFlag` for `_defaultval`, data_smart.py:761-764. -/
def setDefault (w : World) (i : Nat) (var value : Str) : World :=
  let w := w.modVar i var fun v => { v with default := some value }
  if ':' ∈ var then updateOverrides w i var else w

/-- `delVarFlag` for the flags of a user, data_smart.py:907-922. -/
def delVarFlag (w : World) (i : Nat) (var flag : Str) : World :=
  match w.findVar i var with
  | none => w
  | some v => if v = {} then w
    else w.modVar i var fun v => { v with flags := Dict.del v.flags flag }

/-- `delVarFlags`, data_smart.py:968-985: all flags but the content go away; without a content the
dictionary itself goes away. -/
def delVarFlags (w : World) (i : Nat) (var : Str) : World :=
  let w := w.shadow i var
  let v := ((w.dict i).lookup var).getD {}
  if v.content.isSome ∨ v.exports.isSome then
    w.setDict i var { content := v.content, exports := v.exports }
  else w.delDict i var

/-- `createCopy`, data_smart.py:987-1007: `overridedata` is copied, the lists in it are not. -/
def createCopy (w : World) (i : Nat) : World :=
  { w with stores := w.stores ++
      [{ dict := [], line := w.stores.length :: w.line i, overridedata := w.od i }] }

/-! ### Reading -/

/-- `a.replace(":" + o, "")` where the first argument is `":" + o`; the number is what is left to
skip. -/
def replaceGo (p : Str) : Nat → Str → Str
  | _, [] => []
  | n + 1, _ :: s => replaceGo p n s
  | 0, c :: s => if startsWith (c :: s) p then replaceGo p (p.length - 1) s
    else c :: replaceGo p 0 s

/-- The variables of the loop: `active`, `match`, `mod`. -/
structure Sel where
  act : Dict Str
  hit : Option Str
  mod : Bool
deriving DecidableEq, Repr

/-- The body of the inner loop, data_smart.py:811-819. -/
def selStep (o : Str) (s : Sel) (a : Str) : Sel :=
  match s.act.lookup a with
  | none => s
  | some t =>
    if endsWith a (':' :: o) then
      { s with act := Dict.set (Dict.del s.act a) (replaceGo (':' :: o) 0 a) t, mod := true }
    else if a = o then { s with act := Dict.del s.act a, hit := some t }
    else s

/-- One round of the `while` loop, data_smart.py:808-819. -/
def selRound (ov : List Str) (s : Sel) : Sel :=
  ov.foldl (fun s o => (s.act.map (·.1)).foldl (selStep o) s) { s with mod := false }

/-- The `while` loop; the number bounds the rounds. -/
def selGo (ov : List Str) : Nat → Sel → Sel
  | 0, s => s
  | n + 1, s => if (selRound ov s).mod then selGo ov n (selRound ov s) else selRound ov s

/-- `active`, data_smart.py:799-805. -/
def activeDict (ov : List Str) (ps : List (Str × Str)) : Dict Str :=
  (ps.filter fun p => active ov p.2).foldl (fun d p => Dict.set d p.2 p.1) []

/-- Rounds that are always enough: the length of all keys. -/
def selFuel (d : Dict Str) : Nat := (d.map fun e => e.1.length).sum + 1

/-- The variable that overrides, data_smart.py:793-820. -/
def selectOverride (ov : List Str) (ps : List (Str × Str)) : Option Str :=
  let d := activeDict ov ps
  (selGo ov (selFuel d) { act := d, hit := none, mod := true }).hit

/-- Is an operator with this override active?  data_smart.py:836-841: all parts are. -/
def opActive (ov : List Str) : Option Str → Bool
  | none => true
  | some o => o = [] || (splitOn ':' o).all fun p => decide (p ∈ ov)

/-- The operators of a keyword that are active. -/
def activeOps (w : World) (ov : List Str) (v : Option VarD) (k : Kw) : List Str :=
  ((((v.bind (·.kw k)).map w.ops).getD []).filter fun x => opActive ov x.2).map (·.1)

/-- `re.compile(r'(\s)').split(s)`, data_smart.py:36: the words and the separators, with empty texts
between two separators; the first argument is the word so far. -/
def wsSplit : Str → Str → List Str
  | cur, [] => [cur]
  | cur, c :: s => if isWs c then cur :: [c] :: wsSplit [] s else wsSplit (cur ++ [c]) s

/-- data_smart.py:886-895: the pieces that are not removed. -/
def removeWords (gone : List Str) (s : Str) : Str :=
  ((wsSplit [] s).filter fun v => decide (v ∉ gone)).flatten

/-- The values that `expand` gives for the texts of the operators; `d.expand(s)`. -/
abbrev Expand := Str → Str

/-- data_smart.py:880-895: those removes that take out something of the value. -/
def removesUsed (E : Expand) (rs : List Str) (value : Str) : List Str :=
  rs.filter fun r => (wsSplit [] value).any fun v => decide (v ∈ words (E r))

/-- A value and the removes that apply to it. -/
abbrev Raw := Option Str × List Str

/-- `value + r` and `r + value` with `None` as the empty text, data_smart.py:843-845, 857-859. -/
def addOps (base : Option Str) (apps pres : List Str) : Option Str :=
  let v := apps.foldl (fun v r => some (v.getD [] ++ r)) base
  pres.foldl (fun v r => some (r ++ v.getD [])) v

/-- `getVarFlag(var, "_content", False, retparser=True)` and the part before the expansion of
`getVar`, data_smart.py:775-859: the value before expansion, and the removes (data_smart.py:867-876)
to be applied to it.  The number bounds the depth of overrides of overrides. -/
def rawVar (w : World) (ov : List Str) (E : Expand) (i : Nat) : Nat → Str → Raw
  | 0, _ => (none, [])
  | n + 1, var =>
    let v := w.findVar i var
    let sub : Raw := match ((w.od i).lookup var).bind fun l => selectOverride ov (w.pairs l) with
      | none => (none, [])
      | some m =>
        let r := rawVar w ov E i n m
        (r.1, if (r.1.getD []) = [] then [] else removesUsed E r.2 (E (r.1.getD [])))
    let value := sub.1.or (v.bind fun v => v.content.or v.default)
    let value := addOps value (activeOps w ov v .app) (activeOps w ov v .pre)
    (value, sub.2 ++ activeOps w ov v .rem)

/-- Enough for all names that the program makes: each override is of a longer name. -/
def rawFuel (w : World) (i : Nat) : Nat := (w.od i).length + 1

/-- `getVar(var, False)`. -/
def getRaw (w : World) (ov : List Str) (E : Expand) (i : Nat) (var : Str) : Option Str :=
  (rawVar w ov E i (rawFuel w i) var).1

/-- `getVar(var)`, data_smart.py:861-905.  The cache is not modelled here. -/
def getVar (w : World) (ov : List Str) (E : Expand) (i : Nat) (var : Str) : Option Str :=
  let r := rawVar w ov E i (rawFuel w i) var
  r.1.map fun s => removeWords (r.2.flatMap fun x => words (E x)) (E s)

/-- `getVar(var, False, noweakdefault=True, parsing=True)`. -/
def getParsing (w : World) (i : Nat) (var : Str) : Option Str := (w.findVar i var).bind (·.content)

/-- `getVarFlag(var, flag, False)` for the flags of a user. -/
def getVarFlag (w : World) (i : Nat) (var flag : Str) : Option Str :=
  (w.findVar i var).bind fun v => v.flags.lookup flag

/-- `getVar("__exportlist", False)`. -/
def exportList (w : World) (i : Nat) : Option (List Str) :=
  (w.findVar i "__exportlist".toList).bind fun v => v.exports.map w.names

/-! ### Lines of configuration files -/

/-- A line of a configuration file about one variable, as the parser gives it. -/
inductive Line where
  /-- `V = "x"` -/
  | assign (x : Str)
  /-- `V ?= "x"` -/
  | weak (x : Str)
  /-- `V ??= "x"` -/
  | weakest (x : Str)
  /-- `V += "x"` -/
  | plusAfter (x : Str)
  /-- `V =+ "x"` -/
  | plusBefore (x : Str)
  /-- `V .= "x"` -/
  | dotAfter (x : Str)
  /-- `V =. "x"` -/
  | dotBefore (x : Str)
  /-- `V:append = "x"`, `V:prepend:o = "x"` and so on. -/
  | op (k : Kw) (o : Option Str) (x : Str)
deriving DecidableEq, Repr

/-- The name of the variable in a line with an operator. -/
def opName (var : Str) (k : Kw) : Option Str → Str
  | none => var ++ k.text
  | some o => var ++ k.text ++ ':' :: o

/-- `DataNode.eval`, bitbake/lib/bb/parse/ast.py:98-150, without flags, `export` and `:=`. -/
def evalLine (w : World) (i : Nat) (var : Str) : Line → Option World
  | .assign x => setVar w [] i var x true
  | .weak x => setVar w [] i var ((getParsing w i var).getD x) true
  | .weakest x => some (setDefault w i var x)
  | .plusAfter x => setVar w [] i var ((getParsing w i var).getD [] ++ ' ' :: x) true
  | .plusBefore x => setVar w [] i var (x ++ ' ' :: (getParsing w i var).getD []) true
  | .dotAfter x => setVar w [] i var ((getParsing w i var).getD [] ++ x) true
  | .dotBefore x => setVar w [] i var (x ++ (getParsing w i var).getD []) true
  | .op k o x => setVar w [] i (opName var k o) x true

/-- Several lines; a fatal error ends it. -/
def evalLines (w : World) (i : Nat) (var : Str) : List Line → Option World
  | [] => some w
  | l :: ls => (evalLine w i var l).bind fun w => evalLines w i var ls

end Bb.Data
