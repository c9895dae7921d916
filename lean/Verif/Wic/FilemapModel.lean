/-!
# Model of `scripts/lib/wic/filemap.py`

Files are lists of bytes.  What the kernel reports about holes enters as a parameter (see
`seekData`, `seekHole` and `fiemap` below).  Not modelled: opening and probing
(`filemap.py:28-56, 70-150, 190-243, 323-346, 502-518`), I/O errors and log messages.
-/

namespace Isar.Wic.Filemap

abbrev File := List UInt8

/-- Contents of a file written with `seek(pos)` and `write(chunk)`; a gap behind the old end
is filled with zeros, and writing nothing changes nothing (POSIX). -/
def writeAt (f : File) (pos : Nat) (chunk : List UInt8) : File :=
  if chunk = [] then f
  else f.take pos ++ List.replicate (pos - f.length) 0 ++ chunk ++ f.drop (pos + chunk.length)

/-- The variables of the inner loop of `sparse_copy` (`filemap.py:564-582`); `srcPos` and
`dstPos` are the positions of the two file objects. -/
structure CopyState where
  dst : File
  srcPos : Nat
  dstPos : Nat
  read : Nat
  written : Nat
  chunkSize : Nat
  deriving Repr

/-- `while read < to_read` (`filemap.py:568-582`).  The result is `none` if the loop does not
end within `fuel` rounds; the Boolean tells whether the function returned early at 580-582. -/
def copyLoop (src : File) (length toRead : Nat) : Nat → CopyState → Option (CopyState × Bool)
  | 0, _ => none
  | fuel + 1, s =>
    if s.read < toRead then
      let chunkSize := if s.read + s.chunkSize > toRead then toRead - s.read else s.chunkSize
      let size := if length ≠ 0 ∧ s.written + chunkSize > length then length - s.written
        else chunkSize
      let chunk := (src.drop s.srcPos).take size
      let s' : CopyState :=
        { dst := writeAt s.dst s.dstPos chunk
          srcPos := s.srcPos + chunk.length
          dstPos := s.dstPos + chunk.length
          read := s.read + size
          written := s.written + size
          chunkSize := chunkSize }
      if s'.written = length then some (s', true) else copyLoop src length toRead fuel s'
    else some (s, false)

/-- The loop over the mapped ranges (`filemap.py:543-583`). -/
def copyRanges (src : File) (bs skip seek length : Nat) :
    List (Nat × Nat) → File → Option File
  | [], dst => some dst
  | (first, last) :: rest, dst =>
    let start := first * bs
    let stop := (last + 1) * bs
    if skip ≥ stop then copyRanges src bs skip seek length rest dst
    else
      let start := if start < skip ∧ skip < stop then skip else start
      let written := start - skip
      if length ≠ 0 ∧ written ≥ length then some dst
      else
        let toRead := stop - start
        match copyLoop src length toRead (toRead + 1)
            { dst, srcPos := start, dstPos := seek + start - skip, read := 0, written,
              chunkSize := 1024 * 1024 } with
        | none => none
        | some (s, true) => some s.dst
        | some (s, false) => copyRanges src bs skip seek length rest s.dst

/-- `sparse_copy` (`filemap.py:520-583`), given the ranges reported by the file map and its
block size.  `dst = none`: the destination does not exist and is created with its final size
(534-541). -/
def sparseCopy (src : File) (bs : Nat) (ranges : List (Nat × Nat)) (dst : Option File)
    (skip seek length : Nat) : Option File :=
  let dst := match dst with
    | some d => d
    | none =>
      List.replicate (if length ≠ 0 then length + seek else src.length + seek - skip) 0
  copyRanges src bs skip seek length ranges dst

/-- `blocks_cnt` (`filemap.py:109-110`). -/
def blocksCnt (bs size : Nat) : Nat := (size + bs - 1) / bs

/-- The kernel's answer to `lseek(off, SEEK_DATA)`: the first data byte at or after `off`;
`none` stands for `ENXIO`.  `data` tells for every byte of the file whether it is data.
`_lseek` (`filemap.py:170-188`) turns `ENXIO` into -1. -/
def seekData (data : List Bool) (off : Nat) : Option Nat :=
  ((data.drop off).findIdx? (· = true)).map (off + ·)

/-- The kernel's answer to `lseek(off, SEEK_HOLE)`: the first byte at or after `off` that is
not data, where the end of the file counts as a hole. -/
def seekHole (data : List Bool) (off : Nat) : Option Nat :=
  if off < data.length then
    some (off + ((data.drop off).findIdx (· = false)))
  else none

/-- `FilemapSeek._get_ranges` (`filemap.py:257-282`) with `SEEK_DATA`, `SEEK_HOLE`; `none` if
the loop does not end within `fuel` rounds. -/
def seekRangesLoop (data : List Bool) (bs limit : Nat) : Nat → Nat → Option (List (Nat × Nat))
  | 0, _ => none
  | fuel + 1, stop =>
    match seekData data stop with
    | none => some []
    | some start =>
      if start ≥ limit ∨ start = data.length then some []
      else
        let e := match seekHole data start with
          | none => blocksCnt bs data.length * bs
          | some e => if e = data.length then blocksCnt bs data.length * bs else e
        let e := if e > limit then limit else e
        (seekRangesLoop data bs limit fuel e).map ((start / bs, e / bs - 1) :: ·)

/-- `FilemapSeek.get_mapped_ranges` (`filemap.py:284-288`). -/
def seekRanges (data : List Bool) (bs start count : Nat) : Option (List (Nat × Nat)) :=
  let stop := start * bs
  let limit := stop + count * bs
  seekRangesLoop data bs limit (limit + 1) stop

/-- The `FIEMAP` ioctl (`filemap.py:348-389`; the check of the block number at 358-360 is left out) in blocks: `extents` are the extents
`(first block, number of blocks)` of the file; it reports those that intersect the requested
area, at most `cap` of them (`_fiemap_extent_cnt`). -/
def fiemap (extents : List (Nat × Nat)) (cap block count : Nat) : List (Nat × Nat) :=
  (extents.filter fun e => block < e.1 + e.2 ∧ e.1 < block + count).take cap

/-- The inner loop of `_do_get_mapped_ranges` (`filemap.py:432-455`) over one ioctl result:
the ranges, and whether the generator returned. -/
def fiemapInner (block start count : Nat) : List (Nat × Nat) → List (Nat × Nat) × Bool
  | [] => ([], false)
  | (eb, ec) :: es =>
    if eb > start + count - 1 then ([], true)
    else
      let r := fiemapInner block start count es
      ((max eb block, min (eb + ec) (start + count) - 1) :: r.1, r.2)

/-- `_do_get_mapped_ranges` (`filemap.py:413-457`). -/
def fiemapRaw (extents : List (Nat × Nat)) (cap start count : Nat) :
    Nat → Nat → Option (List (Nat × Nat))
  | 0, _ => none
  | fuel + 1, block =>
    if block < start + count then
      let es := fiemap extents cap block count
      match es.getLast? with
      | none => some []
      | some (eb, ec) =>
        let r := fiemapInner block start count es
        if r.2 then some r.1
        else (fiemapRaw extents cap start count fuel (eb + ec)).map (r.1 ++ ·)
    else some []

/-- The merging loop of `FilemapFiemap.get_mapped_ranges` (`filemap.py:464-477`). -/
def mergeRanges : Nat × Nat → List (Nat × Nat) → List (Nat × Nat)
  | p, [] => [p]
  | (f, l), (f', l') :: rest =>
    if (l : Int) = f' - 1 then mergeRanges (f, l') rest else (f, l) :: mergeRanges (f', l') rest

/-- What iterating `FilemapFiemap.get_mapped_ranges` (`filemap.py:459-477`) gives:
`next()` on an empty iterator raises `StopIteration` inside the generator, which Python turns
into `RuntimeError`. -/
inductive RangesResult where
  | diverges
  | runtimeError
  | ranges (rs : List (Nat × Nat))
  deriving DecidableEq, Repr

@[inherit_doc RangesResult]
def fiemapRanges (extents : List (Nat × Nat)) (cap start count : Nat) : RangesResult :=
  match fiemapRaw extents cap start count (count + 1) start with
  | none => .diverges
  | some [] => .runtimeError
  | some (r :: rs) => .ranges (mergeRanges r rs)

/-- `FilemapNobmap.get_mapped_ranges` (`filemap.py:496-500`); `last` is `start + count - 1`,
which is -1 for an empty file.  An empty area is represented by the empty list. -/
def nobmapRanges (start count : Nat) : List (Nat × Nat) :=
  if count = 0 then [] else [(start, start + count - 1)]

end Isar.Wic.Filemap
