import Verif.Wic.LayoutModel
/-!
# What a correct disk layout is

Independent of how the layout is computed: only the input lines (`PartSpec`) and the result
(`Placed`, `Layout`, `MkPart`) are mentioned.
-/

namespace Isar.Wic

/-- Sectors at the start of the disk that belong to the partition table: the MBR sector, or
the protective MBR, the GPT header and its 32 sectors of entries. -/
def reservedSectors : PTable → Nat
  | .msdos => 1
  | _ => 34

/-- Sectors at the end of the disk that belong to the partition table (backup GPT). -/
def backupSectors : PTable → Nat
  | .msdos => 0
  | _ => 33

/-- Sector `n` belongs to the partition. -/
def Placed.Covers (q : Placed) (n : Nat) : Prop := q.start ≤ n ∧ n < q.start + q.size

/-- Sector `n` belongs to the range handed to `parted`. -/
def MkPart.Covers (m : MkPart) (n : Int) : Prop := m.first ≤ n ∧ n ≤ m.last

/-- First sector that is not used by the partition table or by the partitions `pre`. -/
def freeAfter (pt : PTable) (pre : List Placed) : Nat :=
  match pre.getLast? with
  | none => reservedSectors pt
  | some r => r.start + r.size

/-- Room that has to be kept in front of a partition for its extended boot record. -/
def ebrSectors (pt : PTable) (ty : PType) : Nat :=
  if pt = .msdos ∧ ty = .logical then 2 else 0

/-- The partition has an entry in the partition table. -/
def Placed.InTable (q : Placed) : Prop := q.spec.noTable = false

end Isar.Wic
