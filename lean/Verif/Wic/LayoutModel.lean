/-!
# Model of the wic `direct` imager's partition layout

Source: `/repo/scripts/lib/wic/plugins/imager/direct.py`, class `PartitionedImage`.

All positions are counted in 512-byte sectors, as in the code.  Python exceptions
(`WicError`) are values of `Except`.
-/

namespace Isar.Wic

/-- `ptable_format`: the choices accepted by `bootloader --ptable`
(`/repo/scripts/lib/wic/ksparser.py:196`). -/
inductive PTable
  | msdos | gpt | gptHybrid
  deriving DecidableEq, Repr

/-- `part.type`: the choices accepted by `part --type`
(`/repo/scripts/lib/wic/ksparser.py:172-173`). -/
inductive PType
  | primary | logical
  deriving DecidableEq, Repr

/-- The options of one `part` line that the layout reads
(`/repo/scripts/lib/wic/ksparser.py:148-191`, `direct.py:373`).

Simplifications: `--align` is a natural number and `0` stands for "not given" (the code
tests `if part.align:`, so `None` and `0` behave alike; negative values are not
modelled).  `sizeSec` is `part.size_sec`, computed by `prepare`.  `part_name`,
`part_type` and the `/boot` + FAT test are kept as Booleans, which is all the layout
looks at. -/
structure PartSpec where
  noTable : Bool := false
  ptype : PType := .primary
  align : Nat := 0
  offset : Option Int := none
  sizeSec : Nat
  hasPartName : Bool := false
  hasPartType : Bool := false
  mbr : Bool := false
  bootFat : Bool := false
  deriving DecidableEq, Repr

/-- A partition after `layout_partitions`: the attributes `part.type`, `part.start`,
`part.size_sec`, `part.num` (`direct.py:466-487`). -/
structure Placed where
  spec : PartSpec
  ptype : PType
  start : Nat
  size : Nat
  num : Nat
  deriving DecidableEq, Repr

/-- The `WicError`s that `layout_partitions` raises (`direct.py:390-403, 454-459`). -/
inductive LayoutError
  | partNameOnMsdos
  | partTypeOnMsdos
  | mbrWithoutHybrid
  | offsetNotSectorMultiple
  | offsetOccupied
  deriving DecidableEq, Repr

/-- `MBR_OVERHEAD`, `GPT_OVERHEAD`, `SECTOR_SIZE` (`direct.py:289-296`). -/
def mbrOverhead : Nat := 1
@[inherit_doc mbrOverhead] def gptOverhead : Nat := 34
@[inherit_doc mbrOverhead] def sectorSize : Nat := 512

/-- The counters of `PartitionedImage.__init__` (`direct.py:305-311`). -/
structure LState where
  numpart : Nat := 0
  realpart : Nat := 0
  primaryPartNum : Nat := 0
  extendedpart : Nat := 0
  extendedSizeSec : Nat := 0
  logicalPartCnt : Nat := 0
  offset : Nat := 0
  deriving DecidableEq, Repr

/-- `num_real_partitions = len([p for p in self.partitions if not p.no_table])`
(`direct.py:326, 384`). -/
def numReal (ps : List PartSpec) : Nat := (ps.filter (fun p => !p.noTable)).length

/-- The table overhead selected at `direct.py:411-414`. -/
def tableOverhead : PTable → Nat
  | .msdos => mbrOverhead
  | .gpt => gptOverhead
  | .gptHybrid => gptOverhead

/-- The checks at `direct.py:390-403`. -/
def checkPart (pt : PTable) (p : PartSpec) : Except LayoutError Unit :=
  if pt = .msdos ∧ p.hasPartName then .error .partNameOnMsdos
  else if pt = .msdos ∧ p.hasPartType then .error .partTypeOnMsdos
  else if p.mbr ∧ pt ≠ .gptHybrid then .error .mbrWithoutHybrid
  else .ok ()

/-- `direct.py:419-422`: on msdos a partition is turned into a logical one when the
primary slots are used up, or when the extended partition has to take the fourth. -/
def effType (pt : PTable) (nreal : Nat) (s : LState) (p : PartSpec) : PType :=
  if pt = .msdos then
    if s.primaryPartNum > 3 ∨ (s.extendedpart = 0 ∧ s.primaryPartNum ≥ 3 ∧ nreal > 4) then .logical
    else p.ptype
  else p.ptype

/-- `align_sectors` (`direct.py:428-449`): how far `off` must move to reach the next
multiple of `align` KiB. -/
def alignSectors (align off : Nat) : Nat :=
  if align = 0 then 0
  else
    let a := align * 1024 / sectorSize
    if off % a = 0 then 0 else a - off % a

/-- `direct.py:451-464`: `--offset`, in bytes, must be a sector multiple and must not lie
before the next free sector. -/
def applyOffset (o : Option Int) (off : Nat) : Except LayoutError Nat :=
  match o with
  | none => .ok off
  | some b =>
    let q := b.fdiv sectorSize
    if q * sectorSize ≠ b then .error .offsetNotSectorMultiple
    else if q - off < 0 then .error .offsetOccupied
    else .ok q.toNat

/-- One iteration of the loop of `layout_partitions` (`direct.py:387-487`). -/
def layoutStep (pt : PTable) (nreal : Nat) (s : LState) (p : PartSpec) :
    Except LayoutError (LState × Placed) := do
  checkPart pt p
  -- 406-408
  let numpart := s.numpart + 1
  let realpart := if p.noTable then s.realpart else s.realpart + 1
  -- 410-417
  let off0 := if numpart = 1 then s.offset + tableOverhead pt else s.offset
  -- 419-426
  let ty := effType pt nreal s p
  let off1 := if pt = .msdos ∧ ty = .logical then off0 + 2 else off0
  -- 428-449
  let al := alignSectors p.align off1
  let off2 := off1 + al
  -- 451-464
  let start ← applyOffset p.offset off2
  -- 466-467
  let off3 := start + p.sizeSec
  -- 469-487
  if pt = .msdos ∧ p.noTable = false then
    if ty = .logical then
      let cnt := s.logicalPartCnt + 1
      let num := cnt + 4
      if s.extendedpart = 0 then
        .ok ({ numpart, realpart, primaryPartNum := s.primaryPartNum + 1, extendedpart := num,
               extendedSizeSec := s.extendedSizeSec + (p.sizeSec + 2),
               logicalPartCnt := cnt, offset := off3 },
             { spec := p, ptype := ty, start, size := p.sizeSec, num })
      else
        .ok ({ numpart, realpart, primaryPartNum := s.primaryPartNum,
               extendedpart := s.extendedpart,
               extendedSizeSec := s.extendedSizeSec + al + (p.sizeSec + 2),
               logicalPartCnt := cnt, offset := off3 },
             { spec := p, ptype := ty, start, size := p.sizeSec, num })
    else
      .ok ({ s with numpart, realpart, primaryPartNum := s.primaryPartNum + 1, offset := off3 },
           { spec := p, ptype := ty, start, size := p.sizeSec, num := s.primaryPartNum + 1 })
  else
    .ok ({ s with numpart, realpart, offset := off3 },
         { spec := p, ptype := ty, start, size := p.sizeSec,
           num := if p.noTable then 0 else realpart })

/-- The loop itself (`direct.py:387`): partitions in `.wks` order, stopping at the first
exception. -/
def layoutLoop (pt : PTable) (nreal : Nat) :
    LState → List PartSpec → Except LayoutError (LState × List Placed)
  | s, [] => .ok (s, [])
  | s, p :: ps => do
    let (s', q) ← layoutStep pt nreal s p
    let (s'', qs) ← layoutLoop pt nreal s' ps
    .ok (s'', q :: qs)

/-- The result of `layout_partitions`. -/
structure Layout where
  parts : List Placed
  /-- `self.min_size`, in bytes; the image file is truncated to this size by `_make_disk`. -/
  minSize : Nat
  /-- `self.extendedpart`: number of the logical partition in front of which the extended
  partition is created, `0` for none. -/
  extendedpart : Nat
  /-- `self.extended_size_sec`. -/
  extendedSizeSec : Nat
  deriving DecidableEq, Repr

/-- `layout_partitions` (`direct.py:375-501`). -/
def layoutPartitions (pt : PTable) (extraSpace : Nat) (ps : List PartSpec) :
    Except LayoutError Layout := do
  let (s, qs) ← layoutLoop pt (numReal ps) {} ps
  -- 496-501
  let sectors := match pt with
    | .msdos => s.offset
    | .gpt => s.offset + gptOverhead
    | .gptHybrid => s.offset + gptOverhead
  .ok { parts := qs, minSize := sectors * sectorSize + extraSpace,
        extendedpart := s.extendedpart, extendedSizeSec := s.extendedSizeSec }

/-- `PartitionedImage.__init__` (`direct.py:331-340`): the partition number recorded in
`part.realnum`, which `update_fstab` and `root=` use to name the device. -/
def realnumsAux (pt : PTable) (nreal : Nat) : Nat → List PartSpec → List Nat
  | _, [] => []
  | n, p :: ps =>
    if p.noTable then 0 :: realnumsAux pt nreal n ps
    else if pt = .msdos ∧ n + 1 > 3 ∧ nreal > 4 then
      (n + 1 + 1) :: realnumsAux pt nreal (n + 1) ps
    else (n + 1) :: realnumsAux pt nreal (n + 1) ps

@[inherit_doc realnumsAux]
def realnums (pt : PTable) (ps : List PartSpec) : List Nat :=
  realnumsAux pt (numReal ps) 0 ps

/-- One `parted mkpart` issued by `create`: inclusive sector range (`direct.py:503-516`). -/
structure MkPart where
  kind : Option PType   -- `none` is the extended partition
  first : Int
  last : Int
  deriving DecidableEq, Repr

/-- `_create_partition` (`direct.py:503-516`): `end = start + size - 1`. -/
def mkPart (kind : Option PType) (start size : Int) : MkPart :=
  { kind, first := start, last := start + size - 1 }

/-- The partitions `create` asks `parted` for on the main device, in order
(`direct.py:573-615`).  The fs-type argument, flags, labels and the hybrid MBR copy are
left out. -/
def createParts (pt : PTable) (l : Layout) : List MkPart :=
  l.parts.flatMap fun q =>
    if q.num = 0 then []
    else
      let ext :=
        if pt = .msdos ∧ q.num = l.extendedpart then
          [mkPart none ((q.start : Int) - 2) (l.extendedSizeSec : Int)]
        else []
      let size : Int := if q.spec.bootFat ∧ q.size % 2 = 1 then (q.size : Int) - 1 else q.size
      ext ++ [mkPart (some q.ptype) (q.start : Int) size]

end Isar.Wic
