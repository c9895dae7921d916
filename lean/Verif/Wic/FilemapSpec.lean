import Verif.Wic.FilemapModel
/-! # What a sparse copy and a block map have to satisfy -/

namespace Isar.Wic.Filemap

/-- Byte `i` of a file; behind the end a (sparse) file reads as zeros. -/
def rd (f : File) (i : Nat) : UInt8 := f.getD i 0

/-- Block `b` lies in one of the ranges (inclusive bounds). -/
def InRanges (rs : List (Nat × Nat)) (b : Nat) : Prop := ∃ r ∈ rs, r.1 ≤ b ∧ b ≤ r.2

/-- The ranges are non-empty, increasing and do not overlap. -/
def Sorted (rs : List (Nat × Nat)) : Prop :=
  (∀ r ∈ rs, r.1 ≤ r.2) ∧ rs.Pairwise (fun a b => a.2 < b.1)

/-- As `Sorted`, and consecutive ranges are separated by at least one block. -/
def SortedGaps (rs : List (Nat × Nat)) : Prop :=
  (∀ r ∈ rs, r.1 ≤ r.2) ∧ rs.Pairwise (fun a b => a.2 + 1 < b.1)

/-- The map is valid for the file: bytes in blocks that are not mapped read as zeros. -/
def ValidMap (src : File) (bs : Nat) (rs : List (Nat × Nat)) : Prop :=
  ∀ i, rd src i ≠ 0 → InRanges rs (i / bs)

/-- The hole map of the file has block granularity: all bytes of a block that lie in the file
are data or all are hole. -/
def BlockAligned (data : List Bool) (bs : Nat) : Prop :=
  ∀ i j, i < data.length → j < data.length → i / bs = j / bs → data[i]? = data[j]?

/-- The extents of a file as `FIEMAP` reports them: non-empty, in ascending order, disjoint. -/
def ExtentsOk (es : List (Nat × Nat)) : Prop :=
  (∀ e ∈ es, 0 < e.2) ∧ es.Pairwise (fun a b => a.1 + a.2 ≤ b.1)

/-- Block `b` belongs to an extent. -/
def InExtents (es : List (Nat × Nat)) (b : Nat) : Prop := ∃ e ∈ es, e.1 ≤ b ∧ b < e.1 + e.2

end Isar.Wic.Filemap
