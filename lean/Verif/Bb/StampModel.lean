import Verif.Meta.SsInstModel

/-
Files that say that a task was run (bitbake/lib/bb/build.py, make_stamp and clean_stamp; bitbake/lib/bb/siggen.py, stampfile).
-/

namespace Bb.Stamp
open Py

/-- The rest of a pattern after a `*`: it may begin at any place up to the next slash. -/
def star (f : Str → Bool) : Str → Bool
  | [] => f []
  | c :: n => f (c :: n) || (c != '/' && star f n)

/-- `glob.glob`, for patterns with `*` alone: question marks and brackets are taken as they are, and files that begin with a dot are
not left out (the `*` of a mask comes after a dot). -/
def glob : Str → Str → Bool
  | [], n => n.isEmpty
  | c :: p, n => if c = '*' then star (glob p) n else match n with
    | [] => false
    | d :: n => c == d && glob p n

/-- siggen.py:137-154: what is known of a recipe: its `STAMP` (not empty), and `stamp-extra-info` of its tasks (empty if not set). -/
structure Recipe where
  base : Str
  extra : Str → Str

/-- siggen.py:149-151, 165-167: the task without `_setscene`. -/
def flagName (task : Str) : Str := if endsWith task "_setscene".toList then Meta.SsInst.replaceGo "_setscene".toList [] 0 task else task

/-- `rstrip('.')`. -/
def dots (s : Str) : Str := (s.reverse.dropWhile (· = '.')).reverse

/-- siggen.py:509-519, 141-154: the name of the file for a task with a hash; `*` gives the mask (lines 514-515, 521-522). -/
def stampFile (r : Recipe) (task h : Str) : Str :=
  dots (r.base ++ '.' :: (task ++ '.' :: (h ++ '.' :: r.extra (flagName task))))

/-- build.py:794-806: the masks of a task. -/
def masks (r : Recipe) (task : Str) : List Str :=
  let tf := Meta.SsInst.replaceGo "_setscene".toList [] 0 task
  let m := stampFile r task ['*']
  [m, Meta.SsInst.replaceGo tf (tf ++ "_setscene".toList) 0 m]

/-- build.py:812-817, 862-865: files that are left alone. -/
def kept (n : Str) : Bool := isSub "sigdata".toList n || isSub "sigbasedata".toList n || endsWith n ".taint".toList

/-- build.py:808-818. -/
def clean (r : Recipe) (task : Str) (fs : List Str) : List Str := fs.filter fun n => !((masks r task).any (glob · n)) || kept n

/-- build.py:824-838: the file of a task that has run.  That the directory is there, and the file of signature data that is written next to
it (lines 848-852), are left out. -/
def make (r : Recipe) (task h : Str) (fs : List Str) : List Str :=
  stampFile r task h :: (clean r task fs).filter fun n => !(n == stampFile r task h)

/-- build.py:855-870: files of other hashes. -/
def stale (r : Recipe) (task h : Str) (fs : List Str) : List Str :=
  (masks r task).flatMap fun m => fs.filter fun n => glob m n && !kept n && !(n == stampFile r task h) && !(n == stampFile r (task ++ "_setscene".toList) h)

end Bb.Stamp
