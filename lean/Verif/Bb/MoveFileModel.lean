import Verif.Py.Str

/-!
# Moving and copying files

Model of bitbake/lib/bb/utils.py:769-940, `movefile` and `copyfile`, as sequences of calls of the system with all states between them, so that a
crash can be at any place.  Simplified: there are regular files, links and directories only (lines 840-845 and 922-927 are left out), the
directory of the destination is there (lines 788 and 880), a file has a content and a time, owner and mode are not modelled, and the source can
be read (lines 905-909).  A link as destination is not followed (line 816 uses `isdir`, which follows links that could not be removed).
-/

namespace Bb.MoveFile

open Py

inductive Node where
  | file (content time : Nat)
  | link (target : Str)
  | dir
deriving DecidableEq

abbrev FS := Str → Option Node

def set (fs : FS) (p : Str) (n : Option Node) : FS := fun q => if q = p then n else fs q

/-- Which calls fail, and what is in a copy when it is interrupted. -/
structure Faults where
  /-- lines 794 and 886 -/
  unlinkLink : Bool
  /-- lines 803 and 895 -/
  unlinkDest : Bool
  /-- lines 804 and 896 -/
  symlink : Bool
  /-- lines 806 and 850 -/
  unlinkSrc : Bool
  /-- line 821: an error other than `EXDEV` -/
  rename : Bool
  /-- line 821: `EXDEV` -/
  exdev : Bool
  /-- lines 834 and 912 -/
  copy : Bool
  /-- lines 835 and 913 -/
  rename2 : Bool
  /-- lines 848-849, 897 and 929-930 -/
  chown : Bool
  /-- what has been written to the copy at some moment, with the time of this -/
  part : Nat
  now : Nat

inductive Ret where
  /-- `None` or `False` -/
  | failed
  /-- the result of `lstat` -/
  | stat
  /-- `newmtime` -/
  | mtime (t : Nat)
  /-- `UnboundLocalError`: line 809 or 900 names `target`, which line 801 or 893 did not set -/
  | unbound
deriving DecidableEq

/-- what a caller takes for a success: `if not bb.utils.movefile(...)`, fetch2/__init__.py:1042 -/
def Ret.truth : Ret → Bool
  | .failed => false
  | .stat => true
  | .mtime t => t != 0
  | .unbound => false

/-- The states between the calls, the last state, and what is returned. -/
structure Run where
  hist : List FS
  last : FS
  ret : Ret

/-- utils.py:784-797 and 876-889: a link in the place of the destination is removed; the second part is `destexists`. -/
def dropLink (f : Faults) (fs : FS) (dest : Str) : FS × Bool :=
  match fs dest with
  | none => (fs, false)
  | some (.link _) => if f.unlinkLink then (fs, true) else (set fs dest none, false)
  | some _ => (fs, true)

/-- `dest + "#new"` -/
def newOf (p : Str) : Str := p ++ "#new".toList

/-- `rename(2)` of a file: it does not replace a directory. -/
def renameTo (fs : FS) (a b : Str) : Option FS :=
  if a = b then some fs
  else if fs b = some .dir then none
  else match fs a with
    | none => none
    | some n => some (set (set fs b (some n)) a none)

/-- utils.py:799-810 (and 891-901 with `move := false`): the source was a link.  `h` are the states so far. -/
def moveLink (f : Faults) (move : Bool) (h : List FS) (fs : FS) (destexists : Bool) (src dest : Str) : Run :=
  match fs src with
  | some (.link t) =>
    if destexists && (fs dest != some .dir) && f.unlinkDest then ⟨h, fs, .failed⟩
    else
      let fs1 := if destexists && (fs dest != some .dir) then set fs dest none else fs
      if f.symlink || (fs1 dest).isSome then ⟨h ++ [fs], fs1, .failed⟩
      else
        let fs2 := set fs1 dest (some (.link t))
        if move then
          if f.unlinkSrc then ⟨h ++ [fs, fs1], fs2, .failed⟩ else ⟨h ++ [fs, fs1, fs2], set fs2 src none, .stat⟩
        else if f.chown then ⟨h ++ [fs, fs1], fs2, .failed⟩ else ⟨h ++ [fs, fs1], fs2, .stat⟩
  | _ => ⟨h, fs, .unbound⟩

/-- the time of a file changed, `os.utime` -/
def utime (fs : FS) (p : Str) (t : Nat) : FS :=
  match fs p with
  | some (.file c _) => set fs p (some (.file c t))
  | _ => fs

/-- utils.py:834-835 and 912-913: a copy under another name that is renamed then; `none` after a failure -/
def copyOver (f : Faults) (h : List FS) (fs : FS) (content : Nat) (dest : Str) : List FS × FS × Bool :=
  let fs1 := set fs (newOf dest) (some (.file f.part f.now))
  if f.copy || fs (newOf dest) = some .dir then (h ++ [fs], if fs (newOf dest) = some .dir then fs else fs1, false)
  else
    let fs2 := set fs (newOf dest) (some (.file content f.now))
    if f.rename2 then (h ++ [fs, fs1], fs2, false)
    else match renameTo fs2 (newOf dest) dest with
      | none => (h ++ [fs, fs1], fs2, false)
      | some fs3 => (h ++ [fs, fs1, fs2], fs3, true)

/-- utils.py:813-817: `base` is the last part of the source. -/
def destPath (fs : FS) (dest base : Str) : Str := if fs dest = some .dir then dest ++ '/' :: base else dest

/-- utils.py:855-860 -/
def finish (h : List FS) (fs : FS) (p : Str) (newmtime : Option Nat) (t : Nat) : Run :=
  match newmtime with
  | some n => if n ≠ 0 then ⟨h ++ [fs], utime fs p n, .mtime n⟩ else ⟨h ++ [fs], utime fs p t, .mtime t⟩
  | none => ⟨h ++ [fs], utime fs p t, .mtime t⟩

/-- utils.py:769-860; `sameDev` is the test of line 819. -/
def movefile (f : Faults) (fs : FS) (sameDev : Bool) (src dest base : Str) (newmtime : Option Nat) : Run :=
  match fs src with
  | none => ⟨[], fs, .failed⟩
  | some (.link _) => moveLink f true [fs] (dropLink f fs dest).1 (dropLink f fs dest).2 src dest
  | some .dir => ⟨[], fs, .failed⟩
  | some (.file c t) =>
    let fs1 := (dropLink f fs dest).1
    let p := destPath fs1 dest base
    let copied :=
      let r := copyOver f [fs] fs1 c p
      if r.2.2 then
        if f.chown || f.unlinkSrc then ⟨r.1, r.2.1, .failed⟩
        else finish (r.1 ++ [r.2.1]) (set r.2.1 src none) p newmtime t
      else ⟨r.1, r.2.1, .failed⟩
    if sameDev && !f.exdev then
      if f.rename then ⟨[fs], fs1, .failed⟩
      else match renameTo fs1 src p with
        | none => ⟨[fs], fs1, .failed⟩
        | some fs2 => finish [fs, fs1] fs2 p newmtime t
    else copied

/-- utils.py:862-940 -/
def copyfile (f : Faults) (fs : FS) (src dest : Str) (newmtime : Option Nat) : Run :=
  match fs src with
  | none => ⟨[], fs, .failed⟩
  | some (.link _) => moveLink f false [fs] (dropLink f fs dest).1 (dropLink f fs dest).2 src dest
  | some .dir => ⟨[], fs, .failed⟩
  | some (.file c t) =>
    let fs1 := (dropLink f fs dest).1
    let r := copyOver f [fs] fs1 c dest
    if r.2.2 then
      if f.chown then ⟨r.1, r.2.1, .failed⟩ else finish r.1 r.2.1 dest newmtime t
    else ⟨r.1, r.2.1, .failed⟩

end Bb.MoveFile
