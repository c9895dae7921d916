import Verif.Py.Str
import Verif.Py.Dict
/-!
# Variants of recipes

Model of `multi_finalize` and `_create_variants` in `bitbake/lib/bb/parse/ast.py` and of `parseRecipeVariants` in
`bitbake/lib/bb/cookerdata.py`.

The variables of a recipe are of some type `D`.  What `finalize` and inheriting a class do to them are parameters; a recipe
that is skipped is one with the variable `__SKIPPED`.
-/

namespace Bb.Variant
open Py

/-- What is done with the variables of a recipe. -/
structure Ops (D : Type) where
  get : Str → D → Str
  set : Str → Str → D → D
  inherit : Str → D → D
  finalize : Str → D → D

section
variable {D : Type}

/-- ast.py:475-481: the classes and their arguments. -/
def classOf (ext : Str) : Str × Option Str :=
  match splitOn ':' ext with
  | c :: a :: _ => (c, some a)
  | _ => (ext, none)

/-- ast.py:484-490, `extendfunc`. -/
def extend (o : Ops D) (pn : Str) (name : Str) (d : D) : D :=
  let d := if name ≠ (classOf name).1 then
      o.set "BBEXTENDVARIANT".toList ((classOf name).2.getD []) (o.set "BBEXTENDCURR".toList (classOf name).1 d)
    else o.set "PN".toList (pn ++ ['-'] ++ name) d
  o.inherit (classOf name).1 d

/-- Keys of a dictionary: each once. -/
def keys : List Str → List Str
  | [] => []
  | w :: ws => w :: (keys ws).filter (· ≠ w)

/-- ast.py:427-428 and 498: `name in onlyfinalise`, which is a string. -/
def chosen (only : Option Str) (name : Str) : Bool := match only with
  | none => true
  | some s => isSub name s

/-- ast.py:441-504, `multi_finalize`, after files were appended and classes were inherited.  `only` is `__ONLYFINALISE`.
The result has the variables of each variant. -/
def multiFinalize (o : Ops D) (only : Option Str) (d : D) : Dict D :=
  let main := o.finalize [] d
  let extended := o.get "BBCLASSEXTEND".toList main
  let pn := o.get "PN".toList main
  let safe := o.set "BBCLASSEXTEND".toList extended d
  ([], main) :: ((keys (words extended)).filter (chosen only)).map fun name => (name, o.finalize name (extend o pn name safe))

/-- cookerdata.py:515-519: only one variant is needed. -/
def parseOne (o : Ops D) (virtual : Str) (d : D) : Dict D :=
  multiFinalize o (some (if virtual = [] then "default".toList else virtual)) d

end

end Bb.Variant
