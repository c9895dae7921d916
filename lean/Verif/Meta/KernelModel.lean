import Verif.Py.Path
/-!
# Fragments of a kernel configuration, and the boot script

Models of meta/classes-recipe/linux-kernel.bbclass (`config_fragments`, `get_kernel_config_fragments`, `dpkg_configure_kernel`) and of
meta/recipes-bsp/u-boot-script/files/update-u-boot-script.
-/

namespace Meta.Kernel

open Py

/-- linux-kernel.bbclass:218-221: a word of `SRC_URI`, decoded: the path and the parameter `apply`. -/
structure Src where
  loc : Str
  apply : Option Str
deriving DecidableEq

/-- `os.path.splitext(s)[1]`, used at linux-kernel.bbclass:224. -/
def ext (s : Str) : Str := s.drop (splitextRoot s).length

/-- linux-kernel.bbclass:224-225: `ext and ext in (".cfg")`, where the second is a test of strings. -/
def isFragment (loc : Str) : Bool := decide (ext (basename loc) ≠ []) && isSub (ext (basename loc)) ".cfg".toList

/-- linux-kernel.bbclass:216-227, `config_fragments`. -/
def configFragments (named : List Str) (sources : List Src) : List Str :=
  named ++ (sources.filter fun s => decide (s.apply ≠ some "no".toList) && isFragment s.loc).map Src.loc

/-- linux-kernel.bbclass:289-297, `get_kernel_config_fragments`: where the build reads a fragment, in the source tree `s`. -/
def listed (s frag : Str) : Str :=
  if startsWith frag (s ++ "/".toList) then frag.drop (s.length + 1) else "debian/fragments/".toList ++ frag

/-- The command `dirname`, used at linux-kernel.bbclass:319, for names without a slash at the end. -/
def shDirname (f : Str) : Str := if '/' ∈ f then dirname f else ".".toList

/-- linux-kernel.bbclass:314-323, `dpkg_configure_kernel`: where a fragment is copied to, in the source tree `s`; nothing for
those that are skipped. -/
def copied (s frag : Str) : Option Str :=
  if startsWith frag s then none else some ("debian/fragments/".toList ++ shDirname frag ++ "/".toList ++ basename frag)

/-! ## The boot script -/

/-- update-u-boot-script:36-85: the commands of U-Boot that the script writes, those that read files and the last one.
`SCRIPT_PREPEND`, the arguments of the kernel and the commands for addresses are left out. -/
inductive Cmd where
  | kernel (path : Str)
  | initrd (path : Str)
  | fdt (path : Str)
  | builtinFdt
  | overlay (path : Str)
  | boot (cmd : Str) (initrd : Bool)
deriving DecidableEq

/-- What the script reads: update-u-boot-script:12-14 (`/etc/default/u-boot-script`, of which `BUILTIN_DT` and `NO_INITRD` are taken as
decided), 18-19 (the newest version found, taken as given) and 21 (`uname -m`). -/
structure Conf where
  machine : Str
  version : Str
  builtinDt : Bool
  noInitrd : Bool
  overlays : List Str

/-- update-u-boot-script:21-30: the name of the kernel and the command. -/
def kernelFile (machine : Str) : Str × Str :=
  if machine ∈ ["aarch64".toList, "mips".toList, "riscv64".toList] then ("vmlinux".toList, "booti".toList) else ("vmlinuz".toList, "bootz".toList)

/-- update-u-boot-script:45 and 72: the directory for the files of a kernel. -/
def kernelDir (version : Str) : Str := "/usr/lib/linux-image-".toList ++ version ++ "/".toList

/-- update-u-boot-script:70-82: `path` is `OVERLAY_PATH`, which the loop sets and does not clear. -/
def overlayCmds (version : Str) : Str → List Str → List Cmd
  | _, [] => []
  | path, o :: l =>
    let path := if startsWith o "/".toList then path else kernelDir version
    .overlay (path ++ o) :: overlayCmds version path l

/-- update-u-boot-script:36-85: the script.  Overlays with variables of U-Boot are not modelled. -/
def script (c : Conf) : List Cmd :=
  (if c.builtinDt then [.builtinFdt] else [.fdt (kernelDir c.version ++ "${fdtfile}".toList)]) ++
  [.kernel ("/boot/".toList ++ (kernelFile c.machine).1 ++ "-".toList ++ c.version)] ++
  (if c.noInitrd then [] else [.initrd ("/boot/initrd.img-".toList ++ c.version)]) ++
  overlayCmds c.version [] c.overlays ++
  [.boot (kernelFile c.machine).2 (!c.noInitrd)]

end Meta.Kernel
