import Verif.Py.Str

/-!
# Images for virtual machines

Model of meta/classes-recipe/imagetypes_vm.bbclass.  Images are texts.  `qemu-img convert`, the checksum program and filling in the template (with the size of the disk, new UUIDs and a new MAC address)
are parameters.  `PP_DEPLOY` is the directory `DEPLOY_DIR_IMAGE` inside of the chroot.  All commands succeed.
-/

namespace Isar.Meta.Ova

open Py

/-- imagetypes_vm.bbclass:15-23 and 44-51: variables of the image -/
structure Conf where
  fullname : Str
  imageType : Str
  subformat : Str
  shaAlg : Str

/-- imagetypes_vm.bbclass:39, 88 and 93, programs: `qemu-img convert` (type, options, raw image), the template with the disk filled in, the checksum -/
structure Tools where
  convert : Str → Str → Str → Str
  ovf : Str → Str
  sum : Str → Str

/-- imagetypes_vm.bbclass:36-40 and 73-97: the directory with the images: files that are no archives, archives with their members in order -/
structure Deploy where
  files : Str → Option Str
  archives : Str → Option (List (Str × Str))

/-- imagetypes_vm.bbclass:36, 73-75 and 88: writing or removing a file -/
def put {α : Type} (fs : Str → Option α) (name : Str) (v : Option α) : Str → Option α := fun n => if n = name then v else fs n

/-- imagetypes_vm.bbclass:70: the type for which there are archives -/
def vmdk : Str := ['v', 'm', 'd', 'k']

/-- imagetypes_vm.bbclass:92: the format of VirtualBox -/
def monolithicSparse : Str := ['m', 'o', 'n', 'o', 'l', 'i', 't', 'h', 'i', 'c', 'S', 'p', 'a', 'r', 's', 'e']

/-- imagetypes_vm.bbclass:73: the archive -/
def ovaName (c : Conf) : Str := c.fullname ++ ['.', 'o', 'v', 'a']

/-- imagetypes_vm.bbclass:74: the description -/
def ovfName (c : Conf) : Str := c.fullname ++ ['.', 'o', 'v', 'f']

/-- imagetypes_vm.bbclass:75: the manifest -/
def mfName (c : Conf) : Str := c.fullname ++ ['.', 'm', 'f']

/-- imagetypes_vm.bbclass:22 -/
def diskName (c : Conf) : Str := c.fullname ++ ['-', 'd', 'i', 's', 'k', '0', '0', '1', '.'] ++ c.imageType

/-- imagetypes_vm.bbclass:25-33, `set_convert_options` -/
def convertOptions (c : Conf) : Str :=
  if c.imageType = vmdk then ['-', 'o', ' ', 's', 'u', 'b', 'f', 'o', 'r', 'm', 'a', 't', '='] ++ c.subformat else []

/-- imagetypes_vm.bbclass:35-41, `convert_wic`: the old disk is removed, the new one made from the raw image -/
def convertWic (t : Tools) (c : Conf) (raw : Str) (d : Deploy) : Deploy :=
  let files := put d.files (diskName c) none
  { d with files := put files (diskName c) (some (t.convert c.imageType (convertOptions c) raw)) }

/-- imagetypes_vm.bbclass:93-94: one line of the manifest -/
def mfLine (t : Tools) (c : Conf) (name content : Str) : Str :=
  ['S', 'H', 'A'] ++ c.shaAlg ++ ['('] ++ name ++ [')', '='] ++ t.sum content ++ ['\n']

/-- imagetypes_vm.bbclass:93-94, `>>`: appends to a file or makes it -/
def appendTo (fs : Str → Option Str) (name text : Str) : Str → Option Str := put fs name (some ((fs name).getD [] ++ text))

/-- imagetypes_vm.bbclass:95 and 97, `tar -uvf`: the file is added at the end (the archive has no member with this name yet) -/
def tarAdd (d : Deploy) (archive name : Str) : Deploy :=
  match d.archives archive, d.files name with
  | some members, some content => { d with archives := put d.archives archive (some (members ++ [(name, content)])) }
  | _, _ => d

/-- imagetypes_vm.bbclass:69-99, the command for the type ova -/
def imageCmd (t : Tools) (c : Conf) (d : Deploy) : Deploy :=
  if c.imageType ≠ vmdk then d
  else
    let files := put (put d.files (ovfName c) none) (mfName c) none
    let disk := (files (diskName c)).getD []
    let ovf := t.ovf disk
    let files := put files (ovfName c) (some ovf)
    let d : Deploy := ⟨files, put (put d.archives (ovaName c) none) (ovaName c) (some [(ovfName c, ovf)])⟩
    let d :=
      if c.subformat = monolithicSparse then
        let files := appendTo d.files (mfName c) (mfLine t c (diskName c) disk)
        let files := appendTo files (mfName c) (mfLine t c (ovfName c) ovf)
        tarAdd { d with files := files } (ovaName c) (mfName c)
      else d
    tarAdd d (ovaName c) (diskName c)

/-- imagetypes_vm.bbclass:68: `convert_wic` is run before the command -/
def doImageOva (t : Tools) (c : Conf) (raw : Str) (d : Deploy) : Deploy := imageCmd t c (convertWic t c raw d)

end Isar.Meta.Ova
