import Verif.Wic.KsModel
/-! # What the kickstart parser has to satisfy -/

namespace Isar.Wic.Ks

open Py

/-- The unit of a size suffix: KiB, or bytes if `inBytes`, where sectors are allowed too. -/
def unitOf (inBytes : Bool) (c : Char) : Option Nat :=
  if c = 'k' ∨ c = 'K' then some (if inBytes then 1024 else 1)
  else if c = 'M' then some (if inBytes then 1024 * 1024 else 1024)
  else if c = 'G' then some (if inBytes then 1024 * 1024 * 1024 else 1024 * 1024)
  else if (c = 's' ∨ c = 'S') ∧ inBytes = true then some 512
  else none

/-- A partition description without contradictory options. -/
structure PartOk (p : Parsed) : Prop where
  squashfs : p.fstype = "squashfs".toList → p.fsuuid = [] ∧ p.label = []
  erofs : p.fstype = "erofs".toList → p.label = []
  /-- at most eight digits, besides an optional `0x` -/
  fat : p.fstype = "vfat".toList ∨ p.fstype = "msdos".toList →
    p.fsuuid.length ≤ 8 ∨
      ∃ x ds, p.fsuuid = '0' :: x :: ds ∧ (x = 'x' ∨ x = 'X') ∧ ds.length ≤ 8
  label : p.useLabel = true → p.label ≠ []
  fixed : p.fixedSize ≠ 0 → p.overheadFactor = none ∧ (p.extraSpace = none ∨ p.extraSpace = some 0)

/-- A reference to variable `k` at the position behind `a`: the text is `a ++ "${k}" ++ b`. -/
def RefAt (line a k b : Str) : Prop :=
  line = a ++ ['$', '{'] ++ k ++ ['}'] ++ b ∧ k ≠ [] ∧
    ∀ c ∈ k, c ∉ ['{', '}', '@', '\n', '\t', ' ', ':']

/-- One expansion: the first reference is replaced by the value of its variable. -/
def ExpandStep (env : Str → Option Str) (line line' : Str) : Prop :=
  ∃ a k b v, RefAt line a k b ∧ (∀ a' k' b', RefAt line a' k' b' → a.length ≤ a'.length) ∧
    env k = some v ∧ line' = a ++ v ++ b

/-- Any number of expansions. -/
inductive ExpandSteps (env : Str → Option Str) : Str → Str → Prop
  | refl (l) : ExpandSteps env l l
  | step {l l' l''} : ExpandStep env l l' → ExpandSteps env l' l'' → ExpandSteps env l l''

/-- A piece of a line: text, or a reference to a variable. -/
inductive Piece where
  | text (s : Str)
  | ref (k : Str)

/-- The text of a piece in the `.wks` file. -/
def Piece.source : Piece → Str
  | .text s => s
  | .ref k => ['$', '{'] ++ k ++ ['}']

/-- The text it stands for. -/
def Piece.value (env : Str → Option Str) : Piece → Str
  | .text s => s
  | .ref k => (env k).getD []

/-- A plain piece: no `$` in the text and in the value; a reference is to a known variable. -/
def Piece.Plain (env : Str → Option Str) : Piece → Prop
  | .text s => '$' ∉ s
  | .ref k => k ≠ [] ∧ (∀ c ∈ k, c ∉ ['{', '}', '@', '\n', '\t', ' ', ':', '$']) ∧
      ∃ v, env k = some v ∧ '$' ∉ v

/-- The commands of a file after textual inclusion of the files it includes. -/
inductive Inlined (w : World) : List Str → List Command → Prop
  | nil : Inlined w [] []
  | command {l ls c cs} : readLine w l = some c → (∀ p, c ≠ .incl p) → Inlined w ls cs →
      Inlined w (l :: ls) (c :: cs)
  | incl {l ls p ls' cs cs'} : readLine w l = some (.incl p) → w.file p = some ls' →
      Inlined w ls' cs' → Inlined w ls cs → Inlined w (l :: ls) (cs' ++ cs)

/-- The partitions described by a list of commands, in order. -/
def partsOf (cs : List Command) : List (List Str × Parsed) :=
  cs.filterMap fun
    | .part a p => some (a, p)
    | _ => none

/-- The boot loader lines. -/
def bootloadersOf (cs : List Command) : List Bootloader :=
  cs.filterMap fun
    | .bootloader b => some b
    | _ => none

end Isar.Wic.Ks
