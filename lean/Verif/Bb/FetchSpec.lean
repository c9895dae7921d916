import Verif.Bb.FetchModel
/-!
# What a user expects of fetching

The words of the properties: what a right file is, which histories a download directory can have, and
which requests may be made.
-/

namespace Bb.Fetch
open Py

/-- The contents have every checksum that the recipe gives for the URL.  (An empty checksum counts as
none.) -/
def Right (env : Env) (u : Ud) (data : Str) : Prop :=
  ∀ a s, u.expected a = some s → s ≠ [] → env.hash a data = s

/-- The recipe gives no checksum for the URL. -/
def Unsummed (u : Ud) : Prop := ∀ a s, u.expected a = some s → s = []

/-- All operations on the disk work, and the process is not killed. -/
def Calm (script : List Ev) : Prop := ∀ e, e ∈ script → ∃ t, e = .ok t

/-- `wget` does not say that it worked when there is no file. -/
def Delivers (env : Env) : Prop := ∀ k url, env.answer k url ≠ .nothing

/-- Checksums are not empty. -/
def HashOk (env : Env) : Prop := ∀ a d, env.hash a d ≠ []

/-- What the proofs need of the recipes and the names: no name has a `[` in it, a URL of a recipe has
its checksums checked, and mirrors are not used for `file://` URLs. -/
structure Sane (env : Env) (urls : List Ud) : Prop where
  plain : ∀ p, env.plain p = true
  checked : ∀ u, u ∈ urls → u.ignore = false
  noLocal : ∀ u, u ∈ urls → u.isLocal = true → env.premirrors u = [] ∧ env.mirrors u = []

/-- The histories of a download directory.  It starts without done stamps.  Any number of fetches
follow, of any recipes with any configurations; each may be killed at any point or have failures of
the disk.  Between them, anyone may write files (with a time that is not before the present), remove
files and done stamps, and time passes. -/
inductive History (hash : Alg → Str → Str) : World → Prop
  | start {w : World} : (∀ p, w.stamps p = none) → History hash w
  | fetch {w : World} {env : Env} {urls : List Ud} {script : List Ev} : History hash w →
      env.hash = hash → HashOk env → Sane env urls →
      History hash (download env urls false { w with script := script }).2
  | write {w : World} {p : Str} {f : File} : History hash w → w.now ≤ f.mtime →
      History hash { w with files := upd w.files p (some f) }
  | remove {w : World} {p : Str} : History hash w →
      History hash { w with files := upd w.files p none }
  | unstamp {w : World} {p : Str} : History hash w →
      History hash { w with stamps := upd w.stamps p none }
  | wait {w : World} {n : Nat} : History hash w → w.now ≤ n → History hash { w with now := n }

/-- The paths that the fetch of a URL works on. -/
def Touches (env : Env) (u : Ud) (p : Str) : Prop :=
  p = u.path ∨ (∃ m, m ∈ env.premirrors u ∧ p = m.path) ∨ ∃ m, m ∈ env.mirrors u ∧ p = m.path

/-- The URLs of a recipe do not get in each other's way. -/
def Apart (env : Env) (urls : List Ud) : Prop :=
  urls.Pairwise fun u v => ¬ Touches env v u.path

/-- The server always has the right file. -/
def Serves (env : Env) (u : Ud) : Prop :=
  ∀ k, ∃ part f, env.answer k u.url = .done part f ∧ f.data ≠ [] ∧ Right env u f.data

end Bb.Fetch
