import Verif.Py.Str

/-!
# Kernel modules that are loaded when the device starts, and packages for the initial RAM disk

Model of meta/classes-recipe/linux-module.bbclass:81-89 with meta/recipes-kernel/linux-module/files/debian/postinst (`AUTOLOAD`), and of the check in
meta/classes-recipe/initramfs.bbclass:40-53.  Simplified: whether `depmod` succeeds is a parameter; names of modules are not special for the shell.
-/

namespace Isar.Meta.Autoload

open Py

/-- The commands of the postinst script: `depmod`, and `echo m >> /etc/modules`. -/
inductive Cmd where
  | depmod
  | append (m : Str)
deriving DecidableEq

/-- linux-module.bbclass:86-88, after the two lines of the file -/
def postinst (autoload : Str) : List Cmd := .depmod :: (words autoload).map .append

/-- one command: /etc/modules and the status -/
def exec (depmodOk : Bool) (modules : Str) : Cmd → Str × Bool
  | .depmod => (modules, depmodOk)
  | .append m => (modules ++ (m ++ ['\n']), true)

/-- The script has no `set -e`: its status is that of the last command. -/
def run (depmodOk : Bool) : Str × Bool → List Cmd → Str × Bool
  | s, [] => s
  | s, c :: cs => run depmodOk (exec depmodOk s.1 c) cs

/-- What dpkg does with the package: it is configured after it is installed or upgraded, or removed; there is no script for the latter. -/
inductive Event where
  | configure (depmodOk : Bool)
  | remove
deriving DecidableEq

/-- /etc/modules, and whether dpkg had no error -/
def step (autoload : Str) (modules : Str) : Event → Str × Bool
  | .configure ok => run ok (modules, true) (postinst autoload)
  | .remove => (modules, true)

def history (autoload : Str) (modules : Str) (es : List Event) : Str := es.foldl (fun m e => (step autoload m e).1) modules

/-! ## Generators of initial RAM disks -/

/-- initramfs.bbclass:44-45; `none` is `get` of a key that is not there, over which the loop cannot go -/
def incompatible (gen : Str) : Option (List Str) :=
  if gen = "initramfs-tools".toList then some ["dracut".toList]
  else if gen = "dracut".toList then some ["initramfs".toList]
  else none

/-- initramfs.bbclass:46-50: the packages for which there is an error, or none for an exception -/
def validate (gen packages : Str) : Option (List Str) :=
  match incompatible gen with
  | none => none
  | some ids => some (ids.flatMap fun i => (words packages).filter fun p => isSub i p)

end Isar.Meta.Autoload
