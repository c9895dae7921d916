import Verif.Py.Str
import Verif.Wic.LayoutModel
import Verif.Wic.FilemapModel
/-!
# Model of `direct.py`: identifiers, fstab, `root=`, hybrid MBR and assembling the image

Optional string attributes are strings; the empty string stands for `None`, because the code
only tests their truth value.
-/

namespace Isar.Wic

open Py Filemap

/-- The attributes of `Partition` (`partition.py:25-66`) used here. -/
structure PartInfo where
  realnum : Nat := 0
  mountpoint : Str := []
  fstype : Str := "vfat".toList
  useUuid : Bool := false
  uuid : Str := []
  fsuuid : Str := []
  useLabel : Bool := false
  label : Str := []
  partName : Str := []
  disk : Str := "sda".toList
  fsopts : Str := []
  fspassno : Str := []
  deriving DecidableEq, Repr

/-- `part.fstype == 'vfat' or part.fstype == 'msdos'` (`direct.py:350, 356`). -/
def isFat (fstype : Str) : Bool := fstype = "vfat".toList || fstype = "msdos".toList

/-- One lower-case hexadecimal digit. -/
def hexChar (n : Nat) : Char :=
  if n % 16 < 10 then Char.ofNat (48 + n % 16) else Char.ofNat (87 + n % 16)

/-- `'%08x' % n` for `n < 2^32` (the identifier is at most `0xffffffff`, `direct.py:314-319`). -/
def hex8 (n : Nat) : Str :=
  [hexChar (n / 268435456), hexChar (n / 16777216), hexChar (n / 1048576), hexChar (n / 65536),
   hexChar (n / 4096), hexChar (n / 256), hexChar (n / 16), hexChar n]

/-- `'%02d' % n` -/
def dec2 (n : Nat) : Str := rjust (dec n) 2 '0'

/-- `part.uuid` on msdos: `'%08x-%02d' % (identifier, realnum)` (`direct.py:348`). -/
def msdosUuid (ident realnum : Nat) : Str := hex8 ident ++ '-' :: dec2 realnum

/-- The assignment of `part.uuid` (`direct.py:343-348`); `fresh` stands for `uuid4()`. -/
def assignUuid (pt : PTable) (ident : Nat) (fresh : Str) (p : PartInfo) : Str :=
  if p.uuid = [] ∧ p.useUuid then
    match pt with
    | .gpt | .gptHybrid => fresh
    | .msdos => msdosUuid ident p.realnum
  else p.uuid

/-- The assignment of `part.fsuuid` (`direct.py:349-360`); `fresh` stands for `uuid4()`. -/
def assignFsuuid (fresh : Str) (p : PartInfo) : Str :=
  if p.fsuuid = [] then
    if isFat p.fstype then "0x".toList ++ upper (fresh.take 8) else fresh
  else if isFat p.fstype then
    if startsWith (upper p.fsuuid) "0X".toList then
      "0x".toList ++ rjust ((upper p.fsuuid).drop 2) 8 '0'
    else "0x".toList ++ rjust (upper p.fsuuid) 8 '0'
  else p.fsuuid

/-- `device_name` in `update_fstab` (`direct.py:123-138`). -/
def fstabDevice (p : PartInfo) : Str :=
  if p.useUuid then
    if p.fsuuid ≠ [] then
      if p.fsuuid.length = 10 then
        "UUID=".toList ++ (p.fsuuid.drop 2).take 4 ++ '-' :: p.fsuuid.drop 6
      else "UUID=".toList ++ p.fsuuid
    else "PARTUUID=".toList ++ p.uuid
  else if p.useLabel then "LABEL=".toList ++ p.label
  else
    "/dev/".toList ++ p.disk ++ (if startsWith p.disk "mmcblk".toList then ['p'] else []) ++
      dec p.realnum

/-- The line appended for a partition (`direct.py:140-143`). -/
def fstabLine (p : PartInfo) : Str :=
  join ['\t'] [fstabDevice p, p.mountpoint, p.fstype,
    (if p.fsopts ≠ [] then p.fsopts else "defaults".toList), ['0'],
    (if p.fspassno ≠ [] then p.fspassno else ['0'])] ++ ['\n']

/-- The loop of `update_fstab` (`direct.py:117-146`): the lines and `updated`. -/
def updateFstabLoop : List PartInfo → List Str × Bool → List Str × Bool
  | [], s => s
  | p :: ps, (lines, updated) =>
    if p.realnum = 0 ∨ p.mountpoint = [] ∨
        ¬ (startsWith p.mountpoint ['/'] = true ∨ p.mountpoint = "swap".toList) then
      updateFstabLoop ps (lines, updated)
    else updateFstabLoop ps (lines ++ [fstabLine p], true)

/-- `update_fstab` (`direct.py:105-154`): the new contents, if a new file is written. -/
def updateFstab (lines : List Str) (parts : List PartInfo) : Option (List Str) :=
  let r := updateFstabLoop parts (lines, false)
  if r.2 then some r.1 else none

/-- `rootdev` (`direct.py:254-270`). -/
def rootdev (pt : PTable) : List PartInfo → Option Str
  | [] => none
  | p :: ps =>
    if p.mountpoint = ['/'] then
      if p.uuid ≠ [] then some ("PARTUUID=".toList ++ p.uuid)
      else if p.label ≠ [] ∧ pt ≠ .msdos then some ("PARTLABEL=".toList ++ p.label)
      else
        some ("/dev/".toList ++ p.disk ++ (if startsWith p.disk "mmcblk".toList then ['p'] else []) ++
          dec p.realnum)
    else rootdev pt ps

/-- The name set with `sgdisk --change-name` (`direct.py:624-630`), if any. -/
def gptName (pt : PTable) (p : PartInfo) : Option Str :=
  if pt ≠ .msdos ∧ (p.partName ≠ [] ∨ p.label ≠ []) then
    some (if p.partName ≠ [] then p.partName else p.label)
  else none

/-- The hybrid MBR part of `create` (`direct.py:617-622, 669-680`): the partitions put into the
MBR, followed by the protective one, or an error. -/
def hybridLoop : Nat → List Placed → Option (Nat × List MkPart)
  | n, [] => some (n, [])
  | n, q :: qs =>
    if q.num = 0 ∨ q.spec.mbr = false then hybridLoop n qs
    else if n + 1 > 4 then none
    else
      let size : Int := if q.spec.bootFat ∧ q.size % 2 = 1 then (q.size : Int) - 1 else q.size
      (hybridLoop (n + 1) qs).map fun r => (r.1, mkPart (some .primary) q.start size :: r.2)

@[inherit_doc hybridLoop]
def hybridMbr (l : Layout) : Option (List MkPart) :=
  match hybridLoop 0 l.parts with
  | none => none
  | some (n, ms) => if n + 1 > 4 then none else some (ms ++ [mkPart (some .primary) 1 gptOverhead])

/-- The content of a partition: the file, and what its block map reports. -/
structure Source where
  file : File
  bs : Nat
  ranges : List (Nat × Nat)

/-- `assemble` (`direct.py:691-706`): copy the source file of every partition, if it has one, to
`start * 512` in the image.  The renaming of the source file is left out. -/
def assemble : List (Nat × Option Source) → File → Option File
  | [], img => some img
  | (_, none) :: ps, img => assemble ps img
  | (start, some s) :: ps, img =>
    match sparseCopy s.file s.bs s.ranges (some img) 0 (start * sectorSize) 0 with
    | none => none
    | some img => assemble ps img

end Isar.Wic
