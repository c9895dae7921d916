import Verif.Py.Str
/-!
# Names of variants of recipes

Model of `virtualfn2realfn`, `realfn2virtual` and `variant2virtual` in `bitbake/lib/bb/cache.py`.
-/

namespace Bb.Virt
open Py

/-- cache.py:346-347, the test for the configuration.  It is also in line 374. -/
def hasMc (s : Str) : Bool := startsWith s "mc:".toList && decide (2 ≤ s.count ':')

/-- cache.py:349-354. -/
def unvirtual (s : Str) : Str × Str :=
  if startsWith s "virtual:".toList then
    let elems := splitOn ':' s
    (elems.getLastD [], join [':'] (elems.drop 1).dropLast)
  else (s, [])

/-- cache.py:341-356, `virtualfn2realfn`: the file, the class and the configuration.  `split(':', 2)` cuts at the first two
colons. -/
def toReal (s : Str) : Str × Str × Str :=
  if hasMc s then
    let t := s.drop 3
    let (f, c) := unvirtual ((t.dropWhile (· != ':')).drop 1)
    (f, c, t.takeWhile (· != ':'))
  else
    let (f, c) := unvirtual s
    (f, c, [])

/-- cache.py:358-366, `realfn2virtual`. -/
def toVirtual (f c m : Str) : Str :=
  let s := if c = [] then f else "virtual:".toList ++ c ++ [':'] ++ f
  if m = [] then s else "mc:".toList ++ m ++ [':'] ++ s

/-- cache.py:368-379, `variant2virtual`. -/
def ofVariant (f v : Str) : Str :=
  if v = [] then f
  else if hasMc v then
    let elems := splitOn ':' v
    if elems.getD 2 [] ≠ [] then
      "mc:".toList ++ elems.getD 1 [] ++ ":virtual:".toList ++ join [':'] (elems.drop 2) ++ [':'] ++ f
    else "mc:".toList ++ elems.getD 1 [] ++ [':'] ++ f
  else "virtual:".toList ++ v ++ [':'] ++ f

end Bb.Virt
