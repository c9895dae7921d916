import Verif.Py.Dict
/-!
# The copy of the local repository for a build

Model of `do_local_isarapt` in `meta/classes-recipe/dpkg-base.bbclass`: before a package is built, the local repository is
copied to the work directory; the files of the packages are not copied but linked.

A repository is an index, which lists files and their contents, and the pool with the files.  Files are numbers of
inodes, so that links can be told from copies.  Assumed of `reprepro`: it makes new files and removes old ones, and does
not write into files that are there.  All functions that change the repository hold the same lock as the copy
(`isar.lock`), so that each is one step here; the copy may be stopped anywhere.
-/

namespace Meta.LocalApt
open Py

/-- One copy: the index, if there is one, and the pool. -/
structure Copy where
  index : Option (List (Str × Str))
  pool : Dict Nat

/-- The contents of files by inode, the next inode, the repository, and the copies by the number of the recipe. -/
structure World where
  store : Nat → Str
  next : Nat
  index : List (Str × Str)
  pool : Dict Nat
  copies : Nat → Copy

inductive Op where
  /-- dpkg-base.bbclass:224-228, `do_deploy_deb`: `reprepro includedeb` -/
  | add (name content : Str)
  /-- dpkg-base.bbclass:211-219, `deb_clean`: `reprepro remove` -/
  | remove (name : Str)
  /-- `do_local_isarapt` of a recipe -/
  | copy (i : Nat)
  /-- the same, stopped after so many steps -/
  | stopped (i : Nat) (k : Nat)

/-- `cp -Rlf pool`: each file is linked, and replaces one that was there. -/
def link (from_ : Dict Nat) (to_ : Dict Nat) : Dict Nat := from_.foldl (fun d e => d.set e.1 e.2) to_

/-- dpkg-base.bbclass:131-139, `do_local_isarapt`.  The pattern after `rm -rf` is quoted, so that nothing is removed.
The first step copies the index, the others are links. -/
def copySteps (w : World) (c : Copy) : Nat → Copy
  | 0 => c
  | k + 1 => ⟨some w.index, link (w.pool.take k) c.pool⟩

def step (w : World) : Op → World
  | .add n c => { w with
      store := fun k => if k = w.next then c else w.store k
      next := w.next + 1
      index := (n, c) :: w.index.filter fun e => decide (e.1 ≠ n)
      pool := w.pool.set n w.next }
  | .remove n => { w with index := w.index.filter fun e => decide (e.1 ≠ n), pool := w.pool.del n }
  | .copy i => { w with copies := fun j => if j = i then copySteps w (w.copies j) (w.pool.length + 1) else w.copies j }
  | .stopped i k => { w with copies := fun j => if j = i then copySteps w (w.copies j) k else w.copies j }

def run (w : World) (ops : List Op) : World := ops.foldl step w

def start : World := ⟨fun _ => [], 0, [], [], fun _ => ⟨none, []⟩⟩

end Meta.LocalApt
