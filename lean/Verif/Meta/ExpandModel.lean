import Verif.Py.Str

/-
Growing the last partition at the first boot
(meta/recipes-support/expand-on-first-boot/files/expand-last-partition.sh and expand-on-first-boot.service).
-/

namespace Meta.Expand
open Py

/-! ### Which disk -/

/-- expand-last-partition.sh:22: `sed 's/p\?[0-9]*$//'`. -/
def bootDev (s : Str) : Str := match s.reverse.dropWhile Char.isDigit with
  | 'p' :: r => r.reverse
  | r => r.reverse

/-- expand-last-partition.sh:22-26: no partition is found. -/
def noPartition (rootDev : Str) : Bool := rootDev = bootDev rootDev

/-! ### The partition table as a text -/

/-- expand-last-partition.sh:60: `grep -v last-lba`. -/
def noLastLba (ls : List Str) : List Str := ls.filter fun l => !isSub "last-lba".toList l

/-- expand-last-partition.sh:61: `s|^\(.*, \)size=[^,]*, \(type=[f5]\)$|\1\2|`.  A comma-free end before the type has to begin with
`size=`. -/
def sedExtended (l : Str) : Str :=
  if endsWith l ", type=f".toList || endsWith l ", type=5".toList then
    let b := l.take (l.length - 8)
    let run := (b.reverse.takeWhile (· ≠ ',')).reverse
    let pre := b.take (b.length - run.length)
    if pre ≠ [] ∧ startsWith run " size=".toList then pre ++ [' '] ++ l.drop (l.length - 6) else l
  else l

/-- `\(.*, \)size=[^,]*, ` at the last place where it matches. -/
def cutLast : Str → Option Str
  | [] => none
  | c :: r => match cutLast r with
    | some r' => some (c :: r')
    | none =>
      if startsWith (c :: r) ", size=".toList then
        let rest := ((c :: r).drop 7).dropWhile (· ≠ ',')
        if startsWith rest ", ".toList then some (", ".toList ++ rest.drop 2) else none
      else none

/-- expand-last-partition.sh:62: `s|^\(LAST .*, \)size=[^,]*, |\1|`, where the name has no characters that mean something to
`sed`. -/
def sedLast (last l : Str) : Str :=
  if startsWith l (last ++ [' ']) then match cutLast (l.drop (last.length + 1)) with
    | some r => last ++ [' '] ++ r
    | none => l
  else l

/-- expand-last-partition.sh:49: the last partition. -/
def lastPart (ls : List Str) : Str := ((splitOn ' ' (ls.getLast?.getD [])).head?).getD []

/-- expand-last-partition.sh:59-63: what `sfdisk` is given. -/
def newTable (ls : List Str) : List Str := ((noLastLba ls).map sedExtended).map (sedLast (lastPart ls))

/-! ### Boots -/

/-- What is on the device: sizes in blocks of the disk, of all partitions before and after growing, whether there is a GPT, whether
fstab has `x-systemd.growfs`, whether the last partition is grown, whether its file system is, whether the first block is the one
of the image, and whether the service is enabled. -/
structure Dev where
  disk : Nat
  before : Nat
  after : Nat
  gpt : Bool
  growfs : Bool
  table : Bool
  fs : Bool
  mbr : Bool
  enabled : Bool
deriving DecidableEq

/-- expand-last-partition.sh:32-36: the sum of the sizes. -/
def allParts (d : Dev) : Nat := if d.table then d.after else d.before

/-- expand-last-partition.sh:38-42: full. -/
def full (d : Dev) : Bool := d.disk < allParts d + 32768

/-- expand-last-partition.sh:44-68: the table is written; `sfdisk` writes another first block to a disk with a GPT, which is repaired
from a copy in memory. -/
def writeTable (d : Dev) : List Dev :=
  if d.gpt then [{ d with table := true, mbr := false }, { d with table := true }] else [{ d with table := true }]

/-- expand-last-partition.sh:73-105: the file system, unless systemd grows it.  Kinds of file systems that are not known are not
modelled. -/
def growFs (d : Dev) : List Dev := if d.growfs then [] else [{ d with fs := true }]

/-- expand-last-partition.sh: all states after a command of the script.  Commands that fail are not modelled. -/
def script (d : Dev) : List Dev := if full d then [] else writeTable d ++ growFs { d with table := true }

/-- expand-on-first-boot.service:15-22: the script, after which the service is disabled. -/
def service (d : Dev) : List Dev :=
  if d.enabled then script d ++ [{ (script d).getLast?.getD d with enabled := false }] else []

/-- `x-systemd.growfs`: the file system is grown at each boot to the size of its partition, after the service
(`Before=local-fs-pre.target`). -/
def mount (d : Dev) : List Dev := if d.growfs && d.table then [{ d with fs := true }] else []

/-- All states in which the device may be switched off during a boot; the last one is the end. -/
def boot (d : Dev) : List Dev := d :: service d ++ mount ((service d).getLast?.getD d)

/-- The end of a boot. -/
def booted (d : Dev) : Dev := (boot d).getLast?.getD d

/-- Boots, each to its end or not. -/
inductive After : Dev → Dev → Prop where
  | none (d) : After d d
  | some {d d' d''} : After d d' → d'' ∈ boot d' → After d d''

end Meta.Expand
