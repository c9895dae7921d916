import Verif.Meta.ExpandModel

/- C163, C164, C165: growing the last partition. -/

namespace Meta.Expand
open Py

/-! ### C163 -/

/-- How the kernel names a partition of a disk. -/
def partName (disk : Str) (n : Nat) : Str := match disk.getLast? with
  | some c => if c.isDigit then disk ++ ['p'] ++ dec n else disk ++ dec n
  | none => dec n

theorem dropWhile_digits {ds s : Str} (h : ∀ c ∈ ds, c.isDigit = true) : (ds ++ s).dropWhile Char.isDigit = s.dropWhile Char.isDigit := by
  induction ds with
  | nil => rfl
  | cons c ds ih => rw [List.cons_append, List.dropWhile_cons_of_pos (h c List.mem_cons_self)]; exact ih fun x hx => h x (List.mem_cons_of_mem _ hx)

/-- C163, where it holds: the disk of every partition is found, unless the name of the disk ends with a p. -/
theorem disk_found_partial {disk : Str} {n : Nat} (hne : disk ≠ []) (hp : disk.getLast? ≠ some 'p') : bootDev (partName disk n) = disk := by
  have hd : ∀ c ∈ (dec n).reverse, c.isDigit = true := fun c hc => dec_digits (List.mem_reverse.1 hc)
  obtain ⟨c, r, hr⟩ : ∃ c r, disk.reverse = c :: r := by
    cases h : disk.reverse with
    | nil => exact absurd (List.reverse_eq_nil_iff.1 h) hne
    | cons c r => exact ⟨c, r, rfl⟩
  have hl : disk.getLast? = some c := by rw [← List.head?_reverse, hr]; rfl
  have hdisk : disk = (c :: r).reverse := by rw [← hr, List.reverse_reverse]
  unfold partName bootDev
  rw [hl]
  dsimp only
  by_cases hc : c.isDigit = true
  · rw [if_pos hc, List.reverse_append, dropWhile_digits hd, List.reverse_append]
    have e : (['p'].reverse ++ disk.reverse).dropWhile Char.isDigit = 'p' :: disk.reverse := rfl
    rw [e]
    exact List.reverse_reverse _
  · rw [if_neg hc, List.reverse_append, dropWhile_digits hd, hr, List.dropWhile_cons_of_neg hc]
    split
    · rename_i heq
      cases heq
      exact absurd hl hp
    · exact hdisk.symm

/-- C163: and it is not taken for a disk without partitions. -/
theorem partition_found {disk : Str} {n : Nat} (hne : disk ≠ []) (hp : disk.getLast? ≠ some 'p') : noPartition (partName disk n) = false := by
  unfold noPartition
  rw [disk_found_partial hne hp]
  refine decide_eq_false fun h => ?_
  have hl := congrArg List.length h
  unfold partName at hl
  have h1 : 0 < (dec n).length := List.length_pos_iff.2 (dec_ne_nil n)
  cases hg : disk.getLast? with
  | none => exact hne (List.getLast?_eq_none_iff.1 hg)
  | some c =>
    rw [hg] at hl
    dsimp only at hl
    by_cases hc : c.isDigit = true
    · rw [if_pos hc, List.length_append, List.length_append] at hl; omega
    · rw [if_neg hc, List.length_append] at hl; omega

example : bootDev "/dev/mmcblk0p2".toList = "/dev/mmcblk0".toList ∧ bootDev "/dev/sda12".toList = "/dev/sda".toList ∧ bootDev "/dev/nvme0n1p3".toList = "/dev/nvme0n1".toList := by
  decide +kernel

/-- Against C163: the disk of a partition of the sixteenth SCSI disk is not found. -/
theorem disk_p : partName "/dev/sdp".toList 2 = "/dev/sdp2".toList ∧ bootDev "/dev/sdp2".toList = "/dev/sd".toList := by decide +kernel

/-- Against C163: a disk without partitions is taken for a partition. -/
theorem whole_disk : bootDev "/dev/mmcblk0".toList = "/dev/mmcblk".toList ∧ noPartition "/dev/mmcblk0".toList = false := by decide +kernel

/-! ### C164 -/

/-- A partition in the output of `sfdisk -d`. -/
structure Part where
  node : Str
  start : Str
  size : Option Str
  type : Str
  /-- Further fields, each with a comma before it. -/
  extra : Str

def sizeField : Option Str → Str
  | some s => "size=".toList ++ s ++ ", ".toList
  | none => []

def render (p : Part) : Str := p.node ++ " : start=".toList ++ p.start ++ ", ".toList ++ sizeField p.size ++ "type=".toList ++ p.type ++ p.extra

/-- A line as `sfdisk` writes it, whose further fields have no text that looks like a size or like `last-lba`. -/
structure Usual (p : Part) : Prop where
  node : ' ' ∉ p.node ∧ ',' ∉ p.node
  start : ',' ∉ p.start
  size : ∃ s, p.size = some s ∧ ',' ∉ s
  type : ',' ∉ p.type
  extra : p.extra = [] ∨ ∃ r, p.extra = ',' :: ' ' :: r
  noSize : isSub "size=".toList p.extra = false
  noType : isSub "type=".toList p.extra = false
  noLast : isSub "last-lba".toList (render p) = false

/-- What becomes of a partition that is not the last one: the container of logical partitions grows. -/
def other (p : Part) : Part := if p.extra = [] ∧ (p.type = ['f'] ∨ p.type = ['5']) then { p with size := none } else p

theorem not_sub_append {p a : Str} (h : isSub p a = false) : ∀ x y, a ≠ x ++ p ++ y := fun x y e => by
  rw [isSub_iff.2 ⟨x, y, e⟩] at h; cases h

theorem cutLast_none : ∀ {s : Str}, isSub ", size=".toList s = false → cutLast s = none
  | [], _ => rfl
  | c :: r, h => by
    have hr : isSub ", size=".toList r = false := by
      cases e : isSub ", size=".toList r with
      | false => rfl
      | true =>
        obtain ⟨a, b, e⟩ := isSub_iff.1 e
        rw [isSub_iff.2 ⟨c :: a, b, by rw [e]; rfl⟩] at h
        cases h
    unfold cutLast
    rw [cutLast_none hr]
    dsimp only
    rw [if_neg]
    intro hs
    obtain ⟨t, e⟩ := startsWith_iff.1 hs
    have h2 : isSub ", size=".toList (c :: r) = true := isSub_iff.2 ⟨[], t, e⟩
    rw [h2] at h
    cases h

theorem dropWhile_comma {x r : Str} (hx : ',' ∉ x) : (x ++ ',' :: r).dropWhile (· ≠ ',') = ',' :: r := by
  induction x with
  | nil => rfl
  | cons c x ih =>
    have hc : c ≠ ',' := fun e => hx (by rw [e]; exact List.mem_cons_self)
    rw [List.cons_append, List.dropWhile_cons_of_pos (by exact decide_eq_true hc)]
    exact ih fun h => hx (List.mem_cons_of_mem _ h)

/-- The place of the size. -/
theorem cutLast_at {x r : Str} (hx : ',' ∉ x) (hr : cutLast (x ++ ", ".toList ++ r) = none) :
    ∀ (a : Str), cutLast (a ++ ", size=".toList ++ x ++ ", ".toList ++ r) = some (a ++ ", ".toList ++ r)
  | [] => by
    have e : ([] : Str) ++ ", size=".toList ++ x ++ ", ".toList ++ r = ',' :: (" size=".toList ++ (x ++ ", ".toList ++ r)) := by
      simp only [List.nil_append, List.append_assoc]; rfl
    rw [e]
    -- nothing later matches
    have later : ∀ (b : Str), (∀ t, b ≠ ',' :: t) → (∀ b1 t, b ≠ b1 ++ ',' :: t) → cutLast (b ++ (x ++ ", ".toList ++ r)) = none := by
      intro b _ hb
      induction b with
      | nil => exact hr
      | cons c b ih =>
        have hb' : ∀ b1 t, b ≠ b1 ++ ',' :: t := fun b1 t e => hb (c :: b1) t (by rw [e]; rfl)
        rw [List.cons_append]
        unfold cutLast
        rw [ih (fun t e => hb' [] t e) hb']
        dsimp only
        rw [if_neg]
        intro hs
        obtain ⟨t, e⟩ := startsWith_iff.1 hs
        have : c = ',' := (List.cons.inj e).1
        exact hb [] b (by rw [this]; rfl)
    have nocomma : ∀ b1 t, " size=".toList ≠ b1 ++ ',' :: t := by
      intro b1 t e
      have : ',' ∈ " size=".toList := by rw [e]; exact List.mem_append_right _ List.mem_cons_self
      exact absurd this (by decide)
    unfold cutLast
    rw [later " size=".toList (fun t e => nocomma [] t e) nocomma]
    dsimp only
    have e2 : ',' :: (" size=".toList ++ (x ++ ", ".toList ++ r)) = ", size=".toList ++ (x ++ ", ".toList ++ r) := rfl
    rw [if_pos (startsWith_iff.2 ⟨_, e2⟩)]
    have e3 : (',' :: (" size=".toList ++ (x ++ ", ".toList ++ r))).drop 7 = x ++ ',' :: (' ' :: r) := by
      rw [e2]
      have : (", size=".toList ++ (x ++ ", ".toList ++ r)).drop 7 = x ++ ", ".toList ++ r := rfl
      rw [this, List.append_assoc]; rfl
    rw [e3, dropWhile_comma hx]
    have e4 : startsWith (',' :: ' ' :: r) ", ".toList = true := startsWith_iff.2 ⟨r, rfl⟩
    rw [if_pos e4]
    rfl
  | c :: a => by
    have ih := cutLast_at hx hr a
    have e : (c :: a) ++ ", size=".toList ++ x ++ ", ".toList ++ r = c :: (a ++ ", size=".toList ++ x ++ ", ".toList ++ r) := by
      simp only [List.cons_append]
    rw [e]
    unfold cutLast
    rw [ih]
    rfl

theorem nosub_of {p a : Str} (h : ∀ x y, a ≠ x ++ p ++ y) : isSub p a = false := by
  cases e : isSub p a with
  | false => rfl
  | true =>
    obtain ⟨x, y, e⟩ := isSub_iff.1 e
    exact absurd e (h x y)

theorem comma_split {a b x y : Str} (ha : ',' ∉ a) (h : a ++ b = x ++ ',' :: y) : ∃ x', x = a ++ x' ∧ b = x' ++ ',' :: y := by
  induction a generalizing x with
  | nil => exact ⟨x, rfl, h⟩
  | cons c a ih =>
    cases x with
    | nil => exact absurd (by rw [(List.cons.inj h).1]; exact List.mem_cons_self) ha
    | cons d x =>
      obtain ⟨h1, h2⟩ := List.cons.inj h
      obtain ⟨x', e1, e2⟩ := ih (fun hm => ha (List.mem_cons_of_mem _ hm)) h2
      exact ⟨x', by rw [h1, e1]; rfl, e2⟩

/-- Nothing after the size looks like a size. -/
theorem tail_clean {p : Part} (h : Usual p) {a : Str} (ha : ',' ∉ a) : isSub ", size=".toList (a ++ ", ".toList ++ ("type=".toList ++ p.type ++ p.extra)) = false := by
  refine nosub_of fun x y e => ?_
  have e : a ++ (',' :: (" type=".toList ++ p.type ++ p.extra)) = x ++ ',' :: (" size=".toList ++ y) := by
    simp only [List.append_assoc] at e ⊢
    exact e
  obtain ⟨x', hx, e⟩ := comma_split ha e
  cases x' with
  | nil =>
    have e := (List.cons.inj e).2
    have : (" type=".toList ++ (p.type ++ p.extra)) = " size=".toList ++ y := by rw [← List.append_assoc]; exact e
    have h2 := congrArg (fun l : Str => l[1]?) this
    exact absurd h2 (by
      have l1 : (" type=".toList ++ (p.type ++ p.extra))[1]? = some 't' := rfl
      have l2 : (" size=".toList ++ y)[1]? = some 's' := rfl
      show ¬ ((" type=".toList ++ (p.type ++ p.extra))[1]? = (" size=".toList ++ y)[1]?)
      rw [l1, l2]; decide)
  | cons d x' =>
    obtain ⟨_, e⟩ := List.cons.inj e
    have ht : ',' ∉ " type=".toList ++ p.type := fun hm => (List.mem_append.1 hm).elim (by decide) h.type
    obtain ⟨x'', _, e⟩ := comma_split ht e
    refine not_sub_append h.noSize (x'' ++ [',', ' ']) y ?_
    rw [e]
    simp only [List.append_assoc]
    rfl

theorem render_split (p : Part) : render p = p.node ++ [' '] ++ (": start=".toList ++ p.start ++ ", ".toList ++ sizeField p.size ++ ("type=".toList ++ p.type ++ p.extra)) := by
  unfold render
  simp only [List.append_assoc]
  rfl

theorem start_comma {p : Part} (h : Usual p) : ',' ∉ ": start=".toList ++ p.start := fun hm => (List.mem_append.1 hm).elim (by decide) h.start

/-- The last partition loses its size. -/
theorem sedLast_render {p : Part} (h : Usual p) : sedLast p.node (render p) = render { p with size := none } := by
  obtain ⟨s, hs, hc⟩ := h.size
  have hst : startsWith (render p) (p.node ++ [' ']) = true := startsWith_iff.2 ⟨_, render_split p⟩
  unfold sedLast
  rw [if_pos hst]
  have hdrop : (render p).drop (p.node.length + 1) = ": start=".toList ++ p.start ++ ", ".toList ++ sizeField p.size ++ ("type=".toList ++ p.type ++ p.extra) := by
    rw [render_split, List.drop_left' (by rw [List.length_append]; rfl)]
  rw [hdrop, hs]
  have hn : cutLast (s ++ ", ".toList ++ ("type=".toList ++ p.type ++ p.extra)) = none := cutLast_none (tail_clean h hc)
  have key := cutLast_at hc hn (": start=".toList ++ p.start)
  have e : ": start=".toList ++ p.start ++ ", ".toList ++ sizeField (some s) ++ ("type=".toList ++ p.type ++ p.extra) =
      ": start=".toList ++ p.start ++ ", size=".toList ++ s ++ ", ".toList ++ ("type=".toList ++ p.type ++ p.extra) := by
    unfold sizeField
    simp only [List.append_assoc]
    rfl
  rw [e, key]
  dsimp only
  unfold render
  show p.node ++ [' '] ++ (": start=".toList ++ p.start ++ ", ".toList ++ ("type=".toList ++ p.type ++ p.extra)) =
    p.node ++ " : start=".toList ++ p.start ++ ", ".toList ++ [] ++ "type=".toList ++ p.type ++ p.extra
  simp only [List.append_assoc, List.nil_append]
  rfl

/-- A partition without a size stays as it is. -/
theorem sedLast_nosize {p : Part} (h : Usual p) : sedLast p.node (render { p with size := none }) = render { p with size := none } := by
  have hn : cutLast (": start=".toList ++ p.start ++ ", ".toList ++ ("type=".toList ++ p.type ++ p.extra)) = none := cutLast_none (tail_clean h (start_comma h))
  unfold sedLast
  by_cases hst : startsWith (render { p with size := none }) (p.node ++ [' ']) = true
  · rw [if_pos hst]
    have hdrop : (render { p with size := none }).drop (p.node.length + 1) = ": start=".toList ++ p.start ++ ", ".toList ++ ("type=".toList ++ p.type ++ p.extra) := by
      rw [render_split, List.drop_left' (by rw [List.length_append]; rfl)]
      show ": start=".toList ++ p.start ++ ", ".toList ++ [] ++ _ = _
      rw [List.append_nil]
    rw [hdrop, hn]
  · rw [if_neg hst]

theorem space_split {a b x y : Str} (ha : ' ' ∉ a) (hx : ' ' ∉ x) (h : a ++ ' ' :: b = x ++ ' ' :: y) : a = x := by
  induction a generalizing x with
  | nil =>
    cases x with
    | nil => rfl
    | cons d x => exact absurd (by rw [(List.cons.inj h).1]; exact List.mem_cons_self) hx
  | cons c a ih =>
    cases x with
    | nil => exact absurd (by rw [← (List.cons.inj h).1]; exact List.mem_cons_self) ha
    | cons d x =>
      obtain ⟨h1, h2⟩ := List.cons.inj h
      rw [h1, ih (fun hm => ha (List.mem_cons_of_mem _ hm)) (fun hm => hx (List.mem_cons_of_mem _ hm)) h2]

theorem sedLast_other {last : Str} (hl : ' ' ∉ last) {p : Part} (hn : ' ' ∉ p.node) (hne : p.node ≠ last) : sedLast last (render p) = render p := by
  unfold sedLast
  rw [if_neg]
  intro hs
  obtain ⟨t, e⟩ := startsWith_iff.1 hs
  rw [render_split] at e
  simp only [List.append_assoc, List.singleton_append] at e
  exact hne (space_split hn hl e)

theorem last_comma {a b x y : Str} (hb : ',' ∉ b) (hy : ',' ∉ y) (h : a ++ ',' :: b = x ++ ',' :: y) : a = x ∧ b = y := by
  have h' := congrArg List.reverse h
  rw [List.reverse_append, List.reverse_append, List.reverse_cons, List.reverse_cons, List.append_assoc, List.append_assoc, List.singleton_append, List.singleton_append] at h'
  have hb' : ',' ∉ b.reverse := fun hm => hb (List.mem_reverse.1 hm)
  have hy' : ',' ∉ y.reverse := fun hm => hy (List.mem_reverse.1 hm)
  obtain ⟨z, e1, e2⟩ := comma_split hb' h'
  cases z with
  | nil =>
    rw [List.append_nil] at e1
    exact ⟨List.reverse_inj.1 (List.cons.inj e2).2, List.reverse_inj.1 e1.symm⟩
  | cons c z =>
    have : c = ',' := (List.cons.inj e2).1.symm
    exact absurd (by rw [e1, this]; exact List.mem_append_right _ List.mem_cons_self) hy'

theorem ends_type {p : Part} (h : Usual p) {t : Char} (ht : t = 'f' ∨ t = '5') : endsWith (render p) (", type=".toList ++ [t]) = true ↔ p.extra = [] ∧ p.type = [t] := by
  obtain ⟨s, hs, hc⟩ := h.size
  have hform : render p = (p.node ++ " : start=".toList ++ p.start ++ ", size=".toList ++ s) ++ ',' :: (" type=".toList ++ p.type ++ p.extra) := by
    unfold render sizeField
    rw [hs]
    simp only [List.append_assoc]
    rfl
  have htc : ',' ∉ " type=".toList ++ [t] := by
    rcases ht with rfl | rfl <;> decide
  constructor
  · intro he
    obtain ⟨a, e⟩ := endsWith_iff.1 he
    have e : (p.node ++ " : start=".toList ++ p.start ++ ", size=".toList ++ s) ++ ',' :: (" type=".toList ++ p.type ++ p.extra) = a ++ ',' :: (" type=".toList ++ [t]) := by
      rw [← hform, e]; rfl
    rcases h.extra with hx | ⟨r, hx⟩
    · rw [hx, List.append_nil] at e
      obtain ⟨_, e2⟩ := last_comma (fun hm => (List.mem_append.1 hm).elim (by decide) h.type) htc e
      exact ⟨hx, List.append_cancel_left e2⟩
    · exfalso
      -- the last comma is in the further fields, before them there is "type="
      have e' : ((p.node ++ " : start=".toList ++ p.start ++ ", size=".toList ++ s) ++ ',' :: (" type=".toList ++ p.type)) ++ p.extra = a ++ ',' :: (" type=".toList ++ [t]) := by
        rw [← e]; simp only [List.append_assoc, List.cons_append]
      -- a suffix of `extra` that begins with the last comma
      have : ∃ u, p.extra = u ++ ',' :: (" type=".toList ++ [t]) := by
        have hsuf1 : p.extra <:+ a ++ ',' :: (" type=".toList ++ [t]) := ⟨_, e'⟩
        have hsuf2 : (',' :: (" type=".toList ++ [t])) <:+ a ++ ',' :: (" type=".toList ++ [t]) := ⟨a, rfl⟩
        rcases Nat.le_total p.extra.length (',' :: (" type=".toList ++ [t])).length with hle | hle
        · obtain ⟨u, hu⟩ := List.suffix_of_suffix_length_le hsuf1 hsuf2 hle
          cases u with
          | nil => exact ⟨[], hu⟩
          | cons c u =>
            rw [hx] at hu
            have : ',' ∈ " type=".toList ++ [t] := by
              have := (List.cons.inj hu).2
              rw [← this]
              exact List.mem_append_right _ List.mem_cons_self
            exact absurd this htc
        · obtain ⟨u, hu⟩ := List.suffix_of_suffix_length_le hsuf2 hsuf1 hle
          exact ⟨u, hu.symm⟩
      obtain ⟨u, hu⟩ := this
      refine not_sub_append h.noType (u ++ [',', ' ']) [t] ?_
      rw [hu]
      simp only [List.append_assoc]
      rfl
  · rintro ⟨hx, ht⟩
    refine endsWith_iff.2 ⟨p.node ++ " : start=".toList ++ p.start ++ ", size=".toList ++ s, hform.trans ?_⟩
    rw [hx, ht, List.append_nil]
    rfl

theorem takeWhile_comma {x r : Str} (hx : ',' ∉ x) : (x ++ ',' :: r).takeWhile (· ≠ ',') = x := by
  induction x with
  | nil => rfl
  | cons c x ih =>
    have hc : c ≠ ',' := fun e => hx (by rw [e]; exact List.mem_cons_self)
    rw [List.cons_append, List.takeWhile_cons_of_pos (by exact decide_eq_true hc), ih fun h => hx (List.mem_cons_of_mem _ h)]

theorem isSub_f {l : Str} : endsWith l ", type=f".toList = endsWith l (", type=".toList ++ ['f']) := rfl
theorem isSub_5 {l : Str} : endsWith l ", type=5".toList = endsWith l (", type=".toList ++ ['5']) := rfl

/-- The container loses its size. -/
theorem sedExtended_at {a s : Str} {t : Char} (hc : ',' ∉ s) (ht : t = 'f' ∨ t = '5') :
    sedExtended (a ++ ", size=".toList ++ s ++ (", type=".toList ++ [t])) = a ++ (", type=".toList ++ [t]) := by
  have h8 : (", type=".toList ++ [t]).length = 8 := rfl
  have hcond : (endsWith (a ++ ", size=".toList ++ s ++ (", type=".toList ++ [t])) ", type=f".toList || endsWith (a ++ ", size=".toList ++ s ++ (", type=".toList ++ [t])) ", type=5".toList) = true := by
    rw [isSub_f, isSub_5]
    rcases ht with rfl | rfl
    · rw [endsWith_iff.2 ⟨_, rfl⟩]; rfl
    · rw [endsWith_iff.2 ⟨_, rfl⟩, Bool.or_true]
  unfold sedExtended
  rw [if_pos hcond]
  have hb : (a ++ ", size=".toList ++ s ++ (", type=".toList ++ [t])).take ((a ++ ", size=".toList ++ s ++ (", type=".toList ++ [t])).length - 8) = a ++ ", size=".toList ++ s :=
    List.take_left' (by rw [List.length_append (bs := ", type=".toList ++ [t]), h8]; omega)
  have hd : (a ++ ", size=".toList ++ s ++ (", type=".toList ++ [t])).drop ((a ++ ", size=".toList ++ s ++ (", type=".toList ++ [t])).length - 6) = "type=".toList ++ [t] := by
    have e : a ++ ", size=".toList ++ s ++ (", type=".toList ++ [t]) = (a ++ ", size=".toList ++ s ++ ", ".toList) ++ ("type=".toList ++ [t]) := by
      simp only [List.append_assoc]; rfl
    rw [e]
    refine List.drop_left' ?_
    rw [List.length_append (bs := "type=".toList ++ [t])]
    have : ("type=".toList ++ [t]).length = 6 := rfl
    omega
  have hrun : ((a ++ ", size=".toList ++ s).reverse.takeWhile (· ≠ ',')).reverse = " size=".toList ++ s := by
    have e : (a ++ ", size=".toList ++ s).reverse = (" size=".toList ++ s).reverse ++ ',' :: a.reverse := by
      have : a ++ ", size=".toList ++ s = a ++ ',' :: (" size=".toList ++ s) := by rw [List.append_assoc]; rfl
      rw [this, List.reverse_append, List.reverse_cons, List.append_assoc]
      rfl
    have hcc : ',' ∉ (" size=".toList ++ s).reverse := fun hm => (List.mem_append.1 (List.mem_reverse.1 hm)).elim (by decide) hc
    rw [e, takeWhile_comma hcc, List.reverse_reverse]
  have hpre : (a ++ ", size=".toList ++ s).take ((a ++ ", size=".toList ++ s).length - (" size=".toList ++ s).length) = a ++ [','] := by
    have e : a ++ ", size=".toList ++ s = (a ++ [',']) ++ (" size=".toList ++ s) := by simp only [List.append_assoc]; rfl
    rw [e]
    exact List.take_left' (by rw [List.length_append (bs := " size=".toList ++ s)]; omega)
  dsimp only
  rw [hb, hd, hrun, hpre]
  have hst : startsWith (" size=".toList ++ s) " size=".toList = true := startsWith_iff.2 ⟨_, rfl⟩
  rw [if_pos ⟨fun e => absurd (congrArg List.length e) (by rw [List.length_append]; show ¬ (a.length + 1 = 0); omega), hst⟩]
  simp only [List.append_assoc]
  rfl

theorem sedExtended_no {l : Str} (h1 : endsWith l (", type=".toList ++ ['f']) = false) (h2 : endsWith l (", type=".toList ++ ['5']) = false) : sedExtended l = l := by
  unfold sedExtended
  rw [isSub_f, isSub_5, h1, h2]
  rfl

/-- Only a container changes at first. -/
theorem sedExtended_render {p : Part} (h : Usual p) : sedExtended (render p) = render (other p) := by
  by_cases hx : p.extra = [] ∧ (p.type = ['f'] ∨ p.type = ['5'])
  · obtain ⟨s, hs, hc⟩ := h.size
    obtain ⟨t, ht, htt⟩ : ∃ t, (t = 'f' ∨ t = '5') ∧ p.type = [t] := hx.2.elim (fun e => ⟨_, .inl rfl, e⟩) fun e => ⟨_, .inr rfl, e⟩
    unfold other
    rw [if_pos hx]
    have e1 : render p = (p.node ++ " : start=".toList ++ p.start) ++ ", size=".toList ++ s ++ (", type=".toList ++ [t]) := by
      unfold render sizeField
      rw [hs, hx.1, htt]
      simp only [List.append_assoc, List.append_nil]
      rfl
    rw [e1, sedExtended_at hc ht]
    unfold render sizeField
    dsimp only
    rw [hx.1, htt]
    simp only [List.append_assoc, List.append_nil, List.nil_append]
    rfl
  · have hf : endsWith (render p) (", type=".toList ++ ['f']) = false := by
      cases e : endsWith (render p) (", type=".toList ++ ['f']) with
      | false => rfl
      | true => have := (ends_type h (.inl rfl)).1 e; exact absurd ⟨this.1, .inl this.2⟩ hx
    have h5 : endsWith (render p) (", type=".toList ++ ['5']) = false := by
      cases e : endsWith (render p) (", type=".toList ++ ['5']) with
      | false => rfl
      | true => have := (ends_type h (.inr rfl)).1 e; exact absurd ⟨this.1, .inr this.2⟩ hx
    rw [sedExtended_no hf h5]
    unfold other
    rw [if_neg hx]

/-- A line of the header. -/
def Header (l : Str) : Prop := ',' ∉ l

theorem header_ext {l : Str} (h : Header l) : sedExtended l = l := by
  have key : ∀ t, endsWith l (", type=".toList ++ [t]) = false := fun t => by
    cases e : endsWith l (", type=".toList ++ [t]) with
    | false => rfl
    | true =>
      obtain ⟨a, e⟩ := endsWith_iff.1 e
      exact absurd (by rw [e]; exact List.mem_append_right _ (List.mem_cons_self)) h
  exact sedExtended_no (key 'f') (key '5')

theorem header_last {l last : Str} (h : Header l) : sedLast last l = l := by
  unfold sedLast
  by_cases hs : startsWith l (last ++ [' ']) = true
  · rw [if_pos hs]
    have : cutLast (l.drop (last.length + 1)) = none := cutLast_none (nosub_of fun x y e => by
      have hm : ',' ∈ l.drop (last.length + 1) := by rw [e]; exact List.mem_append_left _ (List.mem_append_right _ List.mem_cons_self)
      exact h (List.mem_of_mem_drop hm))
    rw [this]
  · rw [if_neg hs]

theorem lastPart_render {ls : List Str} {p : Part} (h : ' ' ∉ p.node) : lastPart (ls ++ [render p]) = p.node := by
  unfold lastPart
  rw [List.getLast?_append, List.getLast?_singleton, Option.some_or, Option.getD_some]
  have e : render p = p.node ++ ' ' :: (": start=".toList ++ p.start ++ ", ".toList ++ sizeField p.size ++ ("type=".toList ++ p.type ++ p.extra)) := by
    rw [render_split, List.append_assoc, List.singleton_append]
  rw [e, splitOn_append, splitOn_clean ' ' p.node h]
  rfl

/-- C164, where it holds: in the table that is written every partition is as it was, but the last one has no size any more, so that it
grows to the end of the disk, nor have containers of logical partitions; and from the header only the end of the disk is
missing. -/
theorem table_partial {hs : List Str} {ps : List Part} {l : Part} (hh : ∀ h ∈ hs, Header h) (hp : ∀ p ∈ ps, Usual p) (hl : Usual l)
    (hn : ∀ p ∈ ps, p.node ≠ l.node) :
    newTable (hs ++ ps.map render ++ [render l]) =
      (hs.filter fun h => !isSub "last-lba".toList h) ++ (ps.map other).map render ++ [render { l with size := none }] := by
  unfold newTable
  rw [lastPart_render hl.node.1]
  have hno : ∀ p, Usual p → (!isSub "last-lba".toList (render p)) = true := fun p h => by rw [h.noLast]; rfl
  have hfil : noLastLba (hs ++ ps.map render ++ [render l]) = noLastLba hs ++ ps.map render ++ [render l] := by
    unfold noLastLba
    rw [List.filter_append, List.filter_append]
    congr 1
    · congr 1
      refine List.filter_eq_self.2 fun x hx => ?_
      obtain ⟨p, hp', rfl⟩ := List.mem_map.1 hx
      exact hno p (hp p hp')
    · exact List.filter_eq_self.2 fun x hx => by rw [List.mem_singleton.1 hx]; exact hno l hl
  rw [hfil, List.map_append, List.map_append, List.map_append, List.map_append]
  congr 1
  · congr 1
    · have hmem : ∀ x ∈ noLastLba hs, Header x := fun x hx => hh x (List.mem_filter.1 hx).1
      have e1 : (noLastLba hs).map sedExtended = noLastLba hs := (List.map_congr_left fun x hx => header_ext (hmem x hx)).trans (List.map_id' _)
      rw [e1]
      exact (List.map_congr_left fun x hx => header_last (hmem x hx)).trans (List.map_id' _)
    · rw [List.map_map, List.map_map, List.map_map]
      refine List.map_congr_left fun p hp' => ?_
      show sedLast l.node (sedExtended (render p)) = render (other p)
      rw [sedExtended_render (hp p hp')]
      have hnode : (other p).node = p.node := by unfold other; split <;> rfl
      exact sedLast_other hl.node.1 (by rw [hnode]; exact (hp p hp').node.1) (by rw [hnode]; exact hn p hp')
  · show [sedLast l.node (sedExtended (render l))] = _
    rw [sedExtended_render hl]
    unfold other
    split
    · rw [sedLast_nosize hl]
    · rw [sedLast_render hl]

/-- C164: in particular no line of another partition is lost, and none is new. -/
theorem table_same_partitions {hs : List Str} {ps : List Part} {l : Part} (hh : ∀ h ∈ hs, Header h) (hp : ∀ p ∈ ps, Usual p) (hl : Usual l)
    (hn : ∀ p ∈ ps, p.node ≠ l.node) {p : Part} (hm : p ∈ ps) (hx : p.extra ≠ [] ∨ p.type ≠ ['f'] ∧ p.type ≠ ['5']) :
    render p ∈ newTable (hs ++ ps.map render ++ [render l]) := by
  rw [table_partial hh hp hl hn]
  refine List.mem_append_left _ (List.mem_append_right _ (List.mem_map.2 ⟨other p, List.mem_map.2 ⟨p, hm, rfl⟩, ?_⟩))
  unfold other
  rw [if_neg]
  rintro ⟨h1, h2⟩
  rcases hx with hx | hx
  · exact hx h1
  · exact h2.elim hx.1 hx.2

/-- A small disk with a GPT. -/
def sample : List Str := ["label: gpt".toList, "device: /dev/sda".toList, "last-lba: 4194270".toList, [],
  "/dev/sda1 : start=        2048, size=       32768, type=C12A7328, name=\"efi\"".toList,
  "/dev/sda10 : start=       65536, size=       32768, type=0FC63DAF, name=\"home\"".toList,
  "/dev/sda2 : start=      131072, size=     2097152, type=0FC63DAF, uuid=1".toList]

example : newTable sample = ["label: gpt".toList, "device: /dev/sda".toList, [],
  "/dev/sda1 : start=        2048, size=       32768, type=C12A7328, name=\"efi\"".toList,
  "/dev/sda10 : start=       65536, size=       32768, type=0FC63DAF, name=\"home\"".toList,
  "/dev/sda2 : start=      131072, type=0FC63DAF, uuid=1".toList] := by decide +kernel

/-- With a container of logical partitions. -/
example : newTable ["label: dos".toList, "/dev/sda1 : start= 2048, size= 10, type=f".toList, "/dev/sda5 : start= 4096, size= 8, type=83".toList] =
  ["label: dos".toList, "/dev/sda1 : start= 2048, type=f".toList, "/dev/sda5 : start= 4096, type=83".toList] := by decide +kernel

def samplePart : Part := ⟨"/dev/sda2".toList, "      131072".toList, some "     2097152".toList, "0FC63DAF".toList, ", uuid=1".toList⟩

/-- Usual partitions exist. -/
theorem sample_usual : Usual samplePart :=
  ⟨by decide, by decide, ⟨_, rfl, by decide⟩, by decide, .inr ⟨"uuid=1".toList, rfl⟩, by decide +kernel, by decide +kernel, by decide +kernel⟩

example : newTable ["last-lba: 9".toList, render { samplePart with node := "/dev/sda1".toList }, render samplePart] =
    [render { samplePart with node := "/dev/sda1".toList }, render { samplePart with size := none }] :=
  table_partial (hs := ["last-lba: 9".toList]) (ps := [{ samplePart with node := "/dev/sda1".toList }])
    (fun h hm => by rw [List.mem_singleton.1 hm]; show ',' ∉ _; decide)
    (fun p hm => by
      rw [List.mem_singleton.1 hm]
      exact ⟨by decide, by decide, ⟨_, rfl, by decide⟩, by decide, .inr ⟨"uuid=1".toList, rfl⟩, by decide +kernel, by decide +kernel, by decide +kernel⟩)
    sample_usual (fun p hm => by rw [List.mem_singleton.1 hm]; decide)

/-- Against C164: a partition whose name has `last-lba` in it is removed from the table. -/
theorem partition_lost : newTable ["label: gpt".toList, "/dev/sda1 : start= 34, size= 10, type=A, name=\"last-lba\"".toList, "/dev/sda2 : start= 64, size= 8, type=B".toList] =
    ["label: gpt".toList, "/dev/sda2 : start= 64, type=B".toList] := by decide +kernel

/-- Against C164: if the name of the last partition looks like a size, the name is changed and the partition does not grow. -/
theorem name_changed : newTable ["label: gpt".toList, "/dev/sda1 : start= 64, size= 8, type=B, name=\"a, size=1, b\"".toList] =
    ["label: gpt".toList, "/dev/sda1 : start= 64, size= 8, type=B, name=\"a, b\"".toList] := by decide +kernel

/-! ### C165 -/

/-- A device as it comes from the build: something to do, and after it nothing. -/
structure New (d : Dev) : Prop where
  table : d.table = false
  fs : d.fs = false
  mbr : d.mbr = true
  enabled : d.enabled = true
  space : d.before + 32768 ≤ d.disk
  tight : d.disk < d.after + 32768

/-- All was done. -/
def Done (d : Dev) : Prop := d.table = true ∧ d.fs = true ∧ d.mbr = true ∧ d.enabled = false

theorem booted_cases (d : Dev) : booted d = (mount ((service d).getLast?.getD d)).getLast?.getD ((service d).getLast?.getD d) := by
  unfold booted boot
  rw [List.getLast?_append]
  cases h : (mount ((service d).getLast?.getD d)).getLast? with
  | some x => rfl
  | none =>
    rw [Option.none_or, Option.getD_none]
    cases h2 : service d with
    | nil => rfl
    | cons x l => rw [List.getLast?_cons_cons]

/-- C165: a boot that is not interrupted does everything. -/
theorem first_boot {d : Dev} (h : New d) : Done (booted d) := by
  obtain ⟨disk, before, after, gpt, growfs, table, fs, mbr, enabled⟩ := d
  obtain ⟨h1, h2, h3, h4, h5, h6⟩ := h
  dsimp only at h1 h2 h3 h4 h5 h6
  subst h1 h2 h3 h4
  have hf : full ⟨disk, before, after, gpt, growfs, false, false, true, true⟩ = false := by
    unfold full allParts
    exact decide_eq_false (by show ¬ disk < before + 32768; omega)
  rw [booted_cases]
  unfold service script
  rw [hf]
  cases gpt <;> cases growfs <;> exact ⟨rfl, rfl, rfl, rfl⟩

/-- C165: what was done stays. -/
theorem done_stays {d d' : Dev} (h : Done d) (ha : After d d') : d' = d := by
  induction ha with
  | none => rfl
  | @some d1 d2 _ hm ih =>
    subst ih
    obtain ⟨disk, before, after, gpt, growfs, table, fs, mbr, enabled⟩ := d1
    obtain ⟨h1, h2, h3, h4⟩ := h
    dsimp only at h1 h2 h3 h4
    subst h1 h2 h3 h4
    cases growfs
    · exact List.mem_singleton.1 hm
    · rcases List.mem_cons.1 hm with hm | hm
      · exact hm
      · exact List.mem_singleton.1 hm

/-- Boots that are interrupted before the table is written, if at all. -/
inductive Quiet : Dev → Dev → Prop where
  | none (d) : Quiet d d
  | stop {d d'} : Quiet d d' → Quiet d d'
  | all {d d'} : Quiet d d' → Quiet d (booted d')

/-- C165, where it holds: unless a boot is interrupted in between, nothing or everything was done. -/
theorem all_or_nothing_partial {d d' : Dev} (h : New d) (ha : Quiet d d') : d' = d ∨ Done d' := by
  induction ha with
  | none => exact .inl rfl
  | stop _ ih => exact ih
  | @all d1 _ ih =>
    rcases ih with ih | ih
    · rw [ih]; exact .inr (first_boot h)
    · refine .inr ?_
      have := done_stays ih (.some (.none _) (show booted d1 ∈ boot d1 from ?_))
      · rw [this]; exact ih
      · unfold booted
        cases hb : (boot d1).getLast? with
        | none => exact absurd (List.getLast?_eq_none_iff.1 hb) (List.cons_ne_nil _ _)
        | some x => exact List.mem_of_getLast? hb

/-- Nothing is ever undone, and what does not change. -/
theorem monotone {d d' : Dev} (ha : After d d') : (d.table = true → d'.table = true) ∧ (d.fs = true → d'.fs = true) ∧ (d.enabled = false → d'.enabled = false) ∧
    d'.growfs = d.growfs ∧ d'.disk = d.disk ∧ d'.before = d.before ∧ d'.after = d.after ∧ d'.gpt = d.gpt ∧ (d.gpt = false → d'.mbr = d.mbr) := by
  induction ha with
  | none => exact ⟨id, id, id, rfl, rfl, rfl, rfl, rfl, fun _ => rfl⟩
  | @some d1 d2 _ hm ih =>
    obtain ⟨disk, before, after, gpt, growfs, table, fs, mbr, enabled⟩ := d1
    obtain ⟨i1, i2, i3, i4, i5, i6, i7, i8, i9⟩ := ih
    dsimp only at i1 i2 i3 i4 i5 i6 i7 i8 i9
    subst i4 i5 i6 i7 i8
    have : (table = true → d2.table = true) ∧ (fs = true → d2.fs = true) ∧ (enabled = false → d2.enabled = false) ∧
        d2.growfs = d.growfs ∧ d2.disk = d.disk ∧ d2.before = d.before ∧ d2.after = d.after ∧ d2.gpt = d.gpt ∧ (d.gpt = false → d2.mbr = mbr) := by
      unfold boot service script at hm
      cases hf : full ⟨d.disk, d.before, d.after, d.gpt, d.growfs, table, fs, mbr, enabled⟩ <;> rw [hf] at hm <;> revert hm <;>
        unfold writeTable growFs mount <;> dsimp only <;>
        cases d.gpt <;> cases d.growfs <;> cases table <;> cases enabled <;> (intro hm; simp at hm; rcases hm with rfl | rfl | rfl | rfl | rfl | rfl <;> simp)
    exact ⟨fun h => this.1 (i1 h), fun h => this.2.1 (i2 h), fun h => this.2.2.1 (i3 h), this.2.2.2.1, this.2.2.2.2.1, this.2.2.2.2.2.1, this.2.2.2.2.2.2.1,
      this.2.2.2.2.2.2.2.1, fun h => (this.2.2.2.2.2.2.2.2 h).trans (i9 h)⟩

/-- C165, where it holds: if systemd grows the file system, then whatever boots were interrupted, and wherever, the next one that is not
interrupted ends with the partition and its file system grown. -/
theorem growfs_partial {d d' : Dev} (h : New d) (hg : d.growfs = true) (ha : After d d') : (booted d').table = true ∧ (booted d').fs = true := by
  have inv : d'.table = true ∨ d'.enabled = true := by
    induction ha with
    | none => exact .inr h.enabled
    | @some d1 d2 ha hm ih =>
      obtain ⟨_, _, _, m4, m5, m6, m7, m8, _⟩ := monotone ha
      have hs := h.space
      obtain ⟨disk, before, after, gpt, growfs, table, fs, mbr, enabled⟩ := d1
      dsimp only at ih m4 m5 m6 m7 m8
      subst m5 m6
      have hf : table = false → full ⟨d.disk, d.before, after, gpt, growfs, table, fs, mbr, enabled⟩ = false := fun ht => by
        subst ht
        unfold full allParts
        exact decide_eq_false (by show ¬ d.disk < d.before + 32768; omega)
      cases table with
      | true => exact .inl ((monotone (.some (.none _) hm)).1 rfl)
      | false =>
        have he : enabled = true := ih.elim (fun e => by cases e) id
        subst he
        unfold boot service script at hm
        rw [hf rfl] at hm
        revert hm
        unfold writeTable growFs mount
        dsimp only
        cases gpt <;> cases growfs <;> (intro hm; simp at hm; rcases hm with rfl | rfl | rfl | rfl | rfl | rfl <;> simp)
  obtain ⟨_, _, _, m4, m5, m6, m7, m8, _⟩ := monotone ha
  have hs := h.space
  obtain ⟨disk, before, after, gpt, growfs, table, fs, mbr, enabled⟩ := d'
  dsimp only at inv m4 m5 m6 m7 m8
  subst m5 m6
  rw [hg] at m4
  subst m4
  rw [booted_cases]
  unfold service script
  cases hf : full ⟨d.disk, d.before, after, gpt, true, table, fs, mbr, enabled⟩ with
  | false =>
    cases gpt <;> cases table <;> cases enabled <;> first
      | exact ⟨rfl, rfl⟩
      | exact inv.elim (fun e => by cases e) (fun e => by cases e)
  | true =>
    have ht : table = true := by
      cases table with
      | true => rfl
      | false =>
        have : full ⟨d.disk, d.before, after, gpt, true, false, fs, mbr, enabled⟩ = false := by
          unfold full allParts
          exact decide_eq_false (by show ¬ d.disk < d.before + 32768; omega)
        rw [this] at hf
        cases hf
    subst ht
    cases enabled <;> exact ⟨rfl, rfl⟩

/-- A device with a GPT. -/
def sampleDev : Dev := ⟨4000000, 1000000, 3990000, true, false, false, false, true, true⟩

theorem sample_new : New sampleDev := ⟨rfl, rfl, rfl, rfl, by decide, by decide⟩

example : New { sampleDev with growfs := true } := ⟨rfl, rfl, rfl, rfl, by decide, by decide⟩

/-- Against C165: if the power fails after the table was written, the next boot finds a full disk and disables the service, and the
file system is never grown. -/
theorem never_grown : ∃ d', After sampleDev d' ∧ d'.fs = false ∧ d'.enabled = false ∧ booted d' = d' :=
  ⟨{ sampleDev with table := true, enabled := false },
    .some (.some (.none _) (show { sampleDev with table := true } ∈ boot sampleDev by decide)) (by decide), rfl, rfl, by decide⟩

/-- Against C165: if it fails before the first block was repaired, the first block is lost. -/
theorem mbr_lost : ∃ d', After sampleDev d' ∧ d'.mbr = false ∧ d'.enabled = false ∧ booted d' = d' :=
  ⟨{ sampleDev with table := true, mbr := false, enabled := false },
    .some (.some (.none _) (show { sampleDev with table := true, mbr := false } ∈ boot sampleDev by decide)) (by decide), rfl, rfl, by decide⟩

end Meta.Expand
