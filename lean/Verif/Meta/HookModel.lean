import Verif.Py.Str

/-!
# Packages with hooks and scripts for initramfs-tools

Model of meta/classes-recipe/initramfs-hook.bbclass.  Simplified: texts are abstract up to concatenation, modes are left out, the templates are already filled in, and the
name of a hook has no slash and is not empty.
-/

namespace Isar.Meta.Hook

open Py

/-- initramfs-hook.bbclass:37-43 -/
def hookName (bpn : Str) : Str :=
  let name := if startsWith bpn "initramfs-".toList then bpn.drop 10 else bpn
  if endsWith name "-hook".toList then name.take (name.length - 5) else name

/-- initramfs-hook.bbclass:64-66 -/
def points : List Str :=
  ["init-top".toList, "init-premount".toList, "local-top".toList, "nfs-top".toList, "local-block".toList, "local-premount".toList,
   "nfs-premount".toList, "local-bottom".toList, "nfs-bottom".toList, "init-bottom".toList]

/-- `-complete`, initramfs-hook.bbclass:67 -/
def complete (s : Str) : Str := s ++ "-complete".toList

/-- What is in `WORKDIR` and in the variables of the recipe. -/
structure Recipe where
  bpn : Str
  /-- the regular files of the work directory -/
  work : Str → Option Str
  copyExecs : Str
  addModules : Str
  hookHeader : Str
  scriptHeader : Str

/-- A file below /usr/share/initramfs-tools: `none` is the directory of hooks, `some s` that of the scripts for `s`. -/
abbrev Place := Option Str × Str

abbrev Pkg := List (Place × Str)

/-- initramfs-hook.bbclass:48-62 -/
def hookFile (r : Recipe) : Pkg :=
  if (r.work "hook".toList).isSome ∨ r.copyExecs ≠ [] ∨ r.addModules ≠ [] then
    [((none, hookName r.bpn), r.hookHeader ++ (match r.work "hook".toList with
      | some h => h
      | none => "exit 0\n".toList))]
  else []

/-- initramfs-hook.bbclass:67-82, one script -/
def scriptFile (r : Recipe) (s : Str) : Pkg :=
  match r.work s with
  | some t => [((some s, hookName r.bpn), r.scriptHeader ++ t)]
  | none =>
    match r.work (complete s) with
    | some t => [((some s, hookName r.bpn), t)]
    | none => []

/-- initramfs-hook.bbclass:47-84; the directory of the package is empty before (dpkg-raw.bbclass:23). -/
def install (r : Recipe) : Pkg := hookFile r ++ points.flatMap (scriptFile r)

end Isar.Meta.Hook
