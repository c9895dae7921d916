import Verif.Py.Str
/-!
# The command that makes the initial ramdisk, and which one is deployed

Model of meta/classes-recipe/initrd-dracut.bbclass and of `rootfs_generate_initramfs` of meta/classes-recipe/rootfs.bbclass.
-/

namespace Meta.Dracut

open Py

/-- The variables that are read (initrd-dracut.bbclass:26-30); those that are not set are empty. -/
structure Conf where
  /-- `DRACUT_CONFIG_PATH` -/
  config : Str
  /-- `DRACUT_EXTRA_DRIVERS` -/
  drivers : Str
  /-- `DRACUT_EXTRA_MODULES` -/
  modules : Str
  /-- `DRACUT_EXTRACT_MODULES_FROM_PACKAGE_NAMES` -/
  extract : Bool
  /-- `INITRAMFS_INSTALL` -/
  packages : Str

/-- The text after the first place where a text occurs: the second part of Python's `s.split(sub, 1)` (initrd-dracut.bbclass:43-44). -/
def after (sub : Str) : Str → Option Str
  | [] => if sub = [] then some [] else none
  | c :: s => if startsWith (c :: s) sub then some ((c :: s).drop sub.length) else after sub s

/-- initrd-dracut.bbclass:37-45: the module that is found in the name of a package. -/
def moduleOf (pkg : Str) : Option Str :=
  if startsWith pkg "dracut-config-".toList then none
  else if startsWith pkg "dracut-".toList then some (pkg.drop 7)
  else if startsWith pkg.reverse "-dracut".toList.reverse then some (pkg.take (pkg.length - 7))
  else after "-dracut-".toList pkg

/-- initrd-dracut.bbclass:33-45. -/
def extracted (c : Conf) : List Str := (words c.packages).filterMap moduleOf

/-- initrd-dracut.bbclass:46: the value after `--add`. -/
def allModules (c : Conf) : Str := if c.extract then c.modules ++ ' ' :: join [' '] (extracted c) else c.modules

/-- initrd-dracut.bbclass:48-53: an option with its value, if the value is not empty. -/
def option (name value : Str) : List Str := if value = [] then [] else [name ++ ' ' :: value]

/-- initrd-dracut.bbclass:25-54, `extend_dracut_cmdline`. -/
def cmdline (c : Conf) : Str :=
  join [' '] (option "--conf".toList c.config ++ option "--add-drivers".toList c.drivers ++ option "--add".toList (allModules c))

/-- rootfs.bbclass:19, 25, 661 and initrd-dracut.bbclass:56: the words that the program gets.  The shell splits at blanks; the values are
taken to have no characters that are special to it.  The version of the kernel is quoted, so that it is one word. -/
def argv (version : Str) (c : Conf) : List Str := "--force".toList :: "--kver".toList :: version :: words (cmdline c)

/-- What the program understands. -/
structure Args where
  force : Bool := false
  kver : Option Str := none
  conf : Option Str := none
  drivers : List Str := []
  add : List Str := []
  /-- what is no option: the file to be written, and a version of a kernel -/
  rest : List Str := []
deriving DecidableEq

/-- The manual of dracut, which uses getopt: the options that are used here, each but `--force` with a value in the next word.  `none`: the
program stops with an error.  Other options of dracut, and values in the same word (`--add=...`), are not modelled: a word that begins
with a dash is an error. -/
def parse : List Str → Args → Option Args
  | [], a => some a
  | [w], a =>
    if w = "--force".toList then some { a with force := true }
    else if startsWith w ['-'] then none
    else some { a with rest := a.rest ++ [w] }
  | w :: v :: ws, a =>
    if w = "--force".toList then parse (v :: ws) { a with force := true }
    else if w = "--kver".toList then parse ws { a with kver := some v }
    else if w = "--conf".toList then parse ws { a with conf := some v }
    else if w = "--add-drivers".toList then parse ws { a with drivers := a.drivers ++ [v] }
    else if w = "--add".toList then parse ws { a with add := a.add ++ [v] }
    else if startsWith w ['-'] then none
    else parse (v :: ws) { a with rest := a.rest ++ [w] }

/-- rootfs.bbclass:662: does `find -name "initrd.img-$kernel_version*"` take a name? The version is taken to have no characters that are
special in patterns. -/
def found (version name : Str) : Bool := startsWith name ("initrd.img-".toList ++ version)

/-- The files `initrd.img-*` in `/boot` with their contents, in the order in which `find` gives them. -/
abbrev Boot := List (Str × Nat)

/-- The generator writes the file of a version; a file that is there keeps its place. -/
def generate (version : Str) (content : Nat) : Boot → Boot
  | [] => [("initrd.img-".toList ++ version, content)]
  | (n, x) :: b => if n = "initrd.img-".toList ++ version then (n, content) :: b else (n, x) :: generate version content b

/-- rootfs.bbclass:662: each file that is found is put over `/isar-work/initrd.img`. -/
def copyFound (version : Str) (b : Boot) (work : Option Nat) : Option Nat :=
  b.foldl (fun w e => if found version e.1 then some e.2 else w) work

/-- rootfs.bbclass:655-664: the kernels one after the other; `make` says what the generator writes for a version. -/
def loop (make : Str → Nat) : List Str → Boot → Option Nat → Boot × Option Nat
  | [], b, w => (b, w)
  | v :: vs, b, w => loop make vs (generate v (make v) b) (copyFound v (generate v (make v) b) w)

/-- rootfs.bbclass:653-669: what is deployed.  Without kernels nothing is. -/
def deployed (make : Str → Nat) (kernels : List Str) (b : Boot) (work : Option Nat) : Option Nat :=
  if kernels = [] then none else (loop make kernels b work).2

end Meta.Dracut
