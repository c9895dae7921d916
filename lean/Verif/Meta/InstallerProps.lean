import Verif.Meta.InstallerModel

/- C166 to C170: the installer. -/

namespace Meta.Installer
open Py

/-! ### C166: the disk of the running system is not offered -/

/-- How the kernel names a partition of a disk. -/
def partName (disk : Str) (n : Nat) : Str := match disk.getLast? with
  | some c => if c.isDigit then disk ++ ['p'] ++ dec n else disk ++ dec n
  | none => dec n

/-- A device has its data on a disk: it is the disk, a partition of it, or made of something that has its data there. -/
inductive LiesOn (sys : Sys) : Str → Str → Prop where
  | disk (d) : LiesOn sys d d
  | part (d n) : LiesOn sys (partName d n) d
  | made {x s d} : s ∈ sys.slaves x → LiesOn sys s d → LiesOn sys x d

/-- A usual name of a disk: it begins with a letter, and those of cards and NVMe disks end with a digit. -/
structure Disk (d : Str) : Prop where
  first : ∃ c r, d = c :: r ∧ c.isDigit = false
  last : startsWith d "mmcblk".toList = true ∨ startsWith d "nvme".toList = true → ∃ a c, d = a ++ [c] ∧ c.isDigit = true

theorem partName_eq {d : Str} (hd : Disk d) (n : Nat) :
    (∃ a c, d = a ++ [c] ∧ c.isDigit = true ∧ partName d n = d ++ 'p' :: dec n) ∨ (∃ a c, d = a ++ [c] ∧ c.isDigit = false ∧ partName d n = d ++ dec n) := by
  obtain ⟨c0, r, e0, _⟩ := hd.first
  rcases List.eq_nil_or_concat d with e | ⟨a, c, e⟩
  · rw [e] at e0; cases e0
  · rw [List.concat_eq_append] at e
    have hl : d.getLast? = some c := by rw [e, List.getLast?_append, List.getLast?_singleton, Option.some_or]
    unfold partName
    rw [hl]
    dsimp only
    cases hc : c.isDigit with
    | true => left; refine ⟨a, c, e, hc, ?_⟩; rw [if_pos rfl, List.append_assoc]; rfl
    | false => right; exact ⟨a, c, e, hc, by rw [if_neg Bool.false_ne_true]⟩

theorem takeWhile_prefix_of_stop {p : Char → Bool} {a b : Str} (h : ∃ c ∈ a, p c = false) : (a ++ b).takeWhile p = a.takeWhile p := by
  induction a with
  | nil => obtain ⟨c, hc, _⟩ := h; cases hc
  | cons x a ih =>
    cases hx : p x with
    | false => rw [List.cons_append, List.takeWhile_cons_of_neg (by rw [hx]; exact Bool.false_ne_true), List.takeWhile_cons_of_neg (by rw [hx]; exact Bool.false_ne_true)]
    | true =>
      rw [List.cons_append, List.takeWhile_cons_of_pos hx, List.takeWhile_cons_of_pos hx, ih]
      obtain ⟨c, hc, hp⟩ := h
      rcases List.mem_cons.1 hc with rfl | hc
      · rw [hx] at hp; cases hp
      · exact ⟨c, hc, hp⟩

/-- Up to the first digit the name of a partition is one of the disk. -/
theorem cutDigits_prefix {d : Str} (hd : Disk d) (n : Nat) : cutDigits (partName d n) <+: d := by
  have hpre : ∀ s : Str, cutDigits s <+: s := fun s => List.takeWhile_prefix _
  unfold cutDigits at hpre ⊢
  by_cases h : ∃ c ∈ d, c.isDigit = true
  · have h' : ∃ c ∈ d, (!c.isDigit) = false := by obtain ⟨c, hc, hx⟩ := h; exact ⟨c, hc, by rw [hx]; rfl⟩
    rcases partName_eq hd n with ⟨_, _, _, _, e⟩ | ⟨_, _, _, _, e⟩ <;> rw [e, takeWhile_prefix_of_stop h'] <;> exact hpre d
  · rcases partName_eq hd n with ⟨a, c, e1, hc, _⟩ | ⟨a, c, e1, hc, e⟩
    · exact absurd ⟨c, by rw [e1]; exact List.mem_append_right _ List.mem_cons_self, hc⟩ h
    · rw [e]
      have hall : ∀ c ∈ d, (!c.isDigit) = true := fun c hc => by
        cases hx : c.isDigit with
        | false => rfl
        | true => exact absurd ⟨c, hc, hx⟩ h
      rw [List.takeWhile_append_of_pos hall]
      cases hn : dec n with
      | nil => exact absurd hn (dec_ne_nil n)
      | cons x r =>
        have hx : x.isDigit = true := dec_digits (n := n) (by rw [hn]; exact List.mem_cons_self)
        rw [List.takeWhile_cons_of_neg (by rw [hx]; decide), List.append_nil]
        exact List.prefix_refl _

theorem cutDigits_ne {s : Str} {c : Char} {r : Str} (h : s = c :: r) (hc : c.isDigit = false) : cutDigits s ≠ [] := by
  unfold cutDigits
  rw [h, List.takeWhile_cons_of_pos (by rw [hc]; rfl)]
  exact List.cons_ne_nil _ _

theorem partName_first {d : Str} (hd : Disk d) (n : Nat) : ∃ c r, partName d n = c :: r ∧ c.isDigit = false := by
  obtain ⟨c, r, e, hc⟩ := hd.first
  rcases partName_eq hd n with ⟨_, _, _, _, e1⟩ | ⟨_, _, _, _, e1⟩ <;> rw [e1, e] <;> exact ⟨c, _, rfl, hc⟩

theorem cutPart_digits : ∀ {s : Str}, (∀ c ∈ s, c.isDigit = true) → cutPart s = s
  | [], _ => rfl
  | c :: r, h => by
    have hc : c.isDigit = true := h c List.mem_cons_self
    unfold cutPart
    rw [if_pos (cutPart_digits fun x hx => h x (List.mem_cons_of_mem _ hx))]
    split
    · exact absurd hc (by decide)
    · rfl

theorem cutPart_part {ds : Str} (hne : ds ≠ []) (hd : ∀ c ∈ ds, c.isDigit = true) : ∀ (a : Str), cutPart (a ++ 'p' :: ds) = a
  | [] => by
    rw [List.nil_append]
    unfold cutPart
    rw [if_pos (cutPart_digits hd)]
    cases ds with
    | nil => exact absurd rfl hne
    | cons x r =>
      show (if x.isDigit = true then [] else 'p' :: x :: r) = []
      rw [if_pos (hd x List.mem_cons_self)]
  | c :: a => by
    have ih := cutPart_part hne hd a
    rw [List.cons_append]
    unfold cutPart
    rw [ih, if_neg]
    intro e
    have := congrArg List.length e
    rw [List.length_append, List.length_cons] at this
    omega

/-- The base of the name of a partition begins the name of its disk. -/
theorem rootBase_part {d : Str} (hd : Disk d) (n : Nat) : rootBase (partName d n) <+: d ∧ rootBase (partName d n) ≠ [] := by
  obtain ⟨c, r, e, hc⟩ := hd.first
  obtain ⟨c', r', e', hc'⟩ := partName_first hd n
  unfold rootBase
  split
  · rename_i hst
    rcases partName_eq hd n with ⟨_, _, _, _, e1⟩ | ⟨a, x, ex, hx, e1⟩
    · rw [e1, cutPart_part (dec_ne_nil n) fun c hc => dec_digits hc]
      exact ⟨List.prefix_refl _, by rw [e]; exact List.cons_ne_nil _ _⟩
    · exfalso
      -- the disk would have to be a card or NVMe, and end with a digit
      have key : ∀ (w : Str), (∀ c ∈ w, c.isDigit = false) → startsWith (d ++ dec n) w = true → startsWith d w = true := by
        intro w hw hs
        have h1 : w <+: d ++ dec n := by obtain ⟨t, e⟩ := startsWith_iff.1 hs; exact ⟨t, e.symm⟩
        have h2 : d <+: d ++ dec n := ⟨_, rfl⟩
        rcases Nat.le_total w.length d.length with hle | hle
        · obtain ⟨t, e⟩ := List.prefix_of_prefix_length_le h1 h2 hle
          exact startsWith_iff.2 ⟨t, e.symm⟩
        · obtain ⟨t, e⟩ := List.prefix_of_prefix_length_le h2 h1 hle
          cases t with
          | nil => rw [List.append_nil] at e; exact startsWith_iff.2 ⟨[], by rw [List.append_nil]; exact e⟩
          | cons y t =>
            obtain ⟨u, hu⟩ := h1
            rw [← e, List.append_assoc] at hu
            have : y ∈ dec n := by rw [← List.append_cancel_left hu]; exact List.mem_append_left _ List.mem_cons_self
            have hy := hw y (by rw [← e]; exact List.mem_append_right _ List.mem_cons_self)
            rw [dec_digits this] at hy
            cases hy
      rw [e1] at hst
      have : startsWith d "mmcblk".toList = true ∨ startsWith d "nvme".toList = true := by
        rcases Bool.or_eq_true _ _ ▸ hst with h | h
        · exact .inl (key _ (by decide) h)
        · exact .inr (key _ (by decide) h)
      obtain ⟨b, y, ey, hy⟩ := hd.last this
      have := List.append_inj' (ex.symm.trans ey) rfl
      rw [List.cons.inj this.2 |>.1, hy] at hx
      cases hx
  · exact ⟨cutDigits_prefix hd n, cutDigits_ne e' hc'⟩

theorem not_offered {sys : Sys} {d ex : Str} (he : ex ∈ excluded sys) (hp : ex <+: d) : "/dev/".toList ++ d ∉ offered sys := by
  intro hm
  unfold offered at hm
  obtain ⟨d', hd', e⟩ := List.mem_map.1 hm
  have e := List.append_cancel_left e
  subst e
  have hk := (List.mem_filter.1 hd').2
  have : skipped sys d' = true := by
    unfold skipped
    obtain ⟨t, ht⟩ := hp
    exact List.any_eq_true.2 ⟨ex, he, startsWith_iff.2 ⟨t, ht.symm⟩⟩
  rw [this] at hk
  simp at hk

theorem mem_nonEmpty {s : Str} (h : s ≠ []) : s ∈ nonEmpty s := by unfold nonEmpty; rw [if_neg h]; exact List.mem_cons_self

/-- C166, where it holds: the disk that has the root file system of the running installer is not offered, if that is the disk, a
partition of it, or made of disks and partitions directly. -/
theorem live_disk_partial {sys : Sys} {d : Str} (hd : Disk d) (hn : sys.nfs = false)
    (h : (sys.root = d ∨ ∃ n, sys.root = partName d n) ∨ ∃ s ∈ sys.slaves sys.root, s = d ∨ ∃ n, s = partName d n) :
    "/dev/".toList ++ d ∉ offered sys := by
  have hex : excluded sys = sys.root :: nonEmpty (rootBase sys.root) ++ (sys.slaves sys.root).flatMap fun s => s :: nonEmpty (cutDigits s) := by
    unfold excluded; rw [hn]; rfl
  rcases h with (h | ⟨n, h⟩) | ⟨s, hs, h | ⟨n, h⟩⟩
  · refine not_offered (ex := sys.root) ?_ (by rw [h]; exact List.prefix_refl _)
    rw [hex]; exact List.mem_cons_self
  · refine not_offered (ex := rootBase sys.root) ?_ (by rw [h]; exact (rootBase_part hd n).1)
    rw [hex]
    refine List.mem_cons_of_mem _ (List.mem_append_left _ (mem_nonEmpty ?_))
    rw [h]; exact (rootBase_part hd n).2
  · refine not_offered (ex := s) ?_ (by rw [h]; exact List.prefix_refl _)
    rw [hex]
    exact List.mem_cons_of_mem _ (List.mem_append_right _ (List.mem_flatMap.2 ⟨s, hs, List.mem_cons_self⟩))
  · obtain ⟨c', r', e', hc'⟩ := partName_first hd n
    refine not_offered (ex := cutDigits s) ?_ (by rw [h]; exact cutDigits_prefix hd n)
    rw [hex]
    refine List.mem_cons_of_mem _ (List.mem_append_right _ (List.mem_flatMap.2 ⟨s, hs, List.mem_cons_of_mem _ (mem_nonEmpty ?_)⟩))
    rw [h]; exact cutDigits_ne e' hc'

theorem disk_sda : Disk "sda".toList := ⟨⟨'s', "da".toList, rfl, rfl⟩, fun h => absurd h (by decide)⟩
theorem disk_nvme : Disk "nvme0n1".toList := ⟨⟨'n', "vme0n1".toList, rfl, rfl⟩, fun _ => ⟨"nvme0n".toList, '1', rfl, rfl⟩⟩

/-- A system on one disk, and another disk. -/
def twoDisks : Sys := ⟨["sda".toList, "sdb".toList, "loop0".toList], fun _ => [], fun _ => [], fun _ => none, false, "sda2".toList⟩

example : offered twoDisks = ["/dev/sdb".toList] := by decide +kernel
example : "/dev/sda".toList ∉ offered twoDisks := live_disk_partial (d := "sda".toList) disk_sda rfl (.inl (.inr ⟨2, rfl⟩))
example : offered { twoDisks with devices := ["nvme0n1".toList, "nvme1n1".toList], root := "nvme0n1p3".toList } = ["/dev/nvme1n1".toList] := by decide +kernel

/-- Against C166: with an encrypted LVM the disk of the running system is offered. -/
def cryptLvm : Sys :=
  { twoDisks with devices := ["sda".toList, "sdb".toList, "dm-0".toList, "dm-1".toList], root := "dm-1".toList,
                  slaves := fun x => if x = "dm-1".toList then ["dm-0".toList] else if x = "dm-0".toList then ["sda2".toList] else [] }

theorem live_disk_offered : LiesOn cryptLvm cryptLvm.root "sda".toList ∧ Disk "sda".toList ∧ "/dev/sda".toList ∈ offered cryptLvm :=
  ⟨.made (s := "dm-0".toList) (by decide) (.made (s := "sda2".toList) (by decide) (.part "sda".toList 2)), disk_sda, by decide +kernel⟩

/-! ### C170: other disks are offered -/

/-- C170, where it holds: if the system runs from a partition of a disk without digits in its name, each other disk is offered whose name
does not begin with the name of that one, and which is neither a card, an array, a member of one, nor a device of the kernel. -/
theorem others_partial {sys : Sys} {d x : Str} {n : Nat} (hd : Disk d) (hdig : ∀ c ∈ d, c.isDigit = false) (hc : startsWith d "mmcblk".toList = false ∧ startsWith d "nvme".toList = false)
    (hroot : sys.root = partName d n) (hs : sys.slaves sys.root = []) (hx : x ∈ sys.devices) (hpre : ¬ d <+: x)
    (hcard : startsWith x "mmcblk".toList = false) (hmd : startsWith x "md".toList = false) (hmem : ∀ h ∈ sys.holders x, startsWith h "md".toList = false)
    (hv : ∀ k ∈ ["dm-", "loop", "mtd", "sr", "ram", "zram"], startsWith x k.toList = false) (hnfs : sys.nfs = false) :
    "/dev/".toList ++ x ∈ offered sys := by
  unfold offered
  refine List.mem_map.2 ⟨x, List.mem_filter.2 ⟨?_, ?_⟩, rfl⟩
  · unfold listed
    exact List.mem_append_left _ (List.mem_filter.2 ⟨hx, by rw [hcard]; rfl⟩)
  · have h1 : isMember sys x = false := by
      unfold isMember
      have : ((sys.holders x).any fun h => startsWith h "md".toList && ((h.drop 2).head?.any Char.isDigit)) = false :=
        List.any_eq_false.2 fun h hh => by rw [hmem h hh]; exact Bool.false_ne_true
      rw [this, Bool.and_false]
    have h2 : badArray sys x = false := by unfold badArray; rw [hmd]; rfl
    have h3 : virtual x = false := by
      unfold virtual
      exact List.any_eq_false.2 fun k hk => by rw [hv k hk]; exact Bool.false_ne_true
    have hpn : partName d n = d ++ dec n := by
      rcases partName_eq hd n with ⟨a, c, e, hcd, _⟩ | ⟨_, _, _, _, e⟩
      · rw [hdig c (by rw [e]; exact List.mem_append_right _ List.mem_cons_self)] at hcd; cases hcd
      · exact e
    have hbase : rootBase sys.root = d := by
      have hcut : cutDigits (partName d n) = d := by
        unfold cutDigits
        rw [hpn, List.takeWhile_append_of_pos fun c hc => by rw [hdig c hc]; rfl]
        cases hn : dec n with
        | nil => exact absurd hn (dec_ne_nil n)
        | cons y r =>
          have hy : y.isDigit = true := dec_digits (n := n) (by rw [hn]; exact List.mem_cons_self)
          rw [List.takeWhile_cons_of_neg (by rw [hy]; decide), List.append_nil]
      unfold rootBase
      rw [if_neg]
      · rw [hroot]; exact hcut
      · intro hst
        rw [hroot, hpn] at hst
        have key : ∀ (w : Str), (∀ c ∈ w, c.isDigit = false) → startsWith (d ++ dec n) w = true → startsWith d w = true := by
          intro w hw hs
          have h1 : w <+: d ++ dec n := by obtain ⟨t, e⟩ := startsWith_iff.1 hs; exact ⟨t, e.symm⟩
          have h2 : d <+: d ++ dec n := ⟨_, rfl⟩
          rcases Nat.le_total w.length d.length with hle | hle
          · obtain ⟨t, e⟩ := List.prefix_of_prefix_length_le h1 h2 hle
            exact startsWith_iff.2 ⟨t, e.symm⟩
          · obtain ⟨t, e⟩ := List.prefix_of_prefix_length_le h2 h1 hle
            cases t with
            | nil => rw [List.append_nil] at e; exact startsWith_iff.2 ⟨[], by rw [List.append_nil]; exact e⟩
            | cons y t =>
              obtain ⟨u, hu⟩ := h1
              rw [← e, List.append_assoc] at hu
              have : y ∈ dec n := by rw [← List.append_cancel_left hu]; exact List.mem_append_left _ List.mem_cons_self
              have hy := hw y (by rw [← e]; exact List.mem_append_right _ List.mem_cons_self)
              rw [dec_digits this] at hy
              cases hy
        rcases Bool.or_eq_true _ _ ▸ hst with h | h
        · rw [key _ (by decide) h] at hc; cases hc.1
        · rw [key _ (by decide) h] at hc; cases hc.2
    have h4 : skipped sys x = false := by
      unfold skipped excluded
      rw [hnfs, if_neg Bool.false_ne_true, hs, List.flatMap_nil, List.append_nil, hbase]
      refine List.any_eq_false.2 fun ex hex hst => ?_
      obtain ⟨t, e⟩ := startsWith_iff.1 hst
      rcases List.mem_cons.1 hex with rfl | hex
      · rw [hroot, hpn, List.append_assoc] at e
        exact hpre ⟨_, e.symm⟩
      · unfold nonEmpty at hex
        split at hex
        · cases hex
        · rw [List.mem_singleton.1 hex] at e
          exact hpre ⟨_, e.symm⟩
    rw [h1, h2, h3, h4]
    rfl

example : "/dev/sdb".toList ∈ offered twoDisks :=
  others_partial (d := "sda".toList) (n := 2) disk_sda (by decide) (by decide) rfl rfl (by decide) (by decide) (by decide) (by decide) (fun _ h => by cases h) (by decide) rfl

/-- Against C170: a disk whose name only begins like that of the running system, and a card with a large number, are not
offered. -/
theorem others_missing : offered { twoDisks with devices := ["sda".toList, "sdaa".toList, "mmcblk10".toList] } = [] := by decide +kernel

/-- Against C170: if the running system is made of a partition of an NVMe disk, no other NVMe disk is offered. -/
theorem nvme_missing : offered { twoDisks with devices := ["nvme0n1".toList, "nvme1n1".toList], root := "dm-0".toList, slaves := fun x => if x = "dm-0".toList then ["nvme0n1p3".toList] else [] } = [] := by
  decide +kernel

/-! ### C167: what is overwritten -/

/-- The words that allow it. -/
def Allows (x : Str) : Prop := ∃ v, x = "installer.target.overwrite".toList ++ v

theorem kernelArg_overwrite {env : Env} {c : Config} {x : Str} : (kernelArg env c x).overwrite = c.overwrite ∨ Allows x := by
  unfold kernelArg
  split
  · exact .inl rfl
  · split
    · exact .inl rfl
    · split
      · exact .inl rfl
      · split
        · rename_i h; exact .inr (startsWith_iff.1 h)
        · split
          · exact .inl rfl
          · exact .inl rfl

theorem kernelArg_target {env : Env} {c : Config} {x : Str} : (kernelArg env c x).target = c.target ∨
    ∃ v, x = "installer.target.dev=".toList ++ v ∧ (kernelArg env c x).target = chooseDev env v := by
  unfold kernelArg
  split
  · exact .inl rfl
  · split
    · exact .inl rfl
    · split
      · rename_i h
        obtain ⟨v, e⟩ := startsWith_iff.1 h
        refine .inr ⟨v, e, ?_⟩
        rw [e]
        rfl
      · split
        · exact .inl rfl
        · split
          · exact .inl rfl
          · exact .inl rfl

theorem fold_overwrite {env : Env} : ∀ {ws : List Str} {c : Config}, (ws.foldl (kernelArg env) c).overwrite = c.overwrite ∨ ∃ x ∈ ws, Allows x
  | [], _ => .inl rfl
  | w :: ws, c => by
    rw [List.foldl_cons]
    rcases fold_overwrite (ws := ws) (c := kernelArg env c w) with h | ⟨x, hx, h⟩
    · rcases kernelArg_overwrite (env := env) (c := c) (x := w) with h2 | h2
      · exact .inl (h.trans h2)
      · exact .inr ⟨w, List.mem_cons_self, h2⟩
    · exact .inr ⟨x, List.mem_cons_of_mem _ hx, h⟩

theorem fold_target {env : Env} : ∀ {ws : List Str} {c : Config}, (ws.foldl (kernelArg env) c).target = c.target ∨
    ∃ x ∈ ws, ∃ v, x = "installer.target.dev=".toList ++ v ∧ (ws.foldl (kernelArg env) c).target = chooseDev env v
  | [], _ => .inl rfl
  | w :: ws, c => by
    rw [List.foldl_cons]
    rcases fold_target (ws := ws) (c := kernelArg env c w) with h | ⟨x, hx, v, e, h⟩
    · rcases kernelArg_target (env := env) (c := c) (x := w) with h2 | ⟨v, e, h2⟩
      · exact .inl (h.trans h2)
      · exact .inr ⟨w, List.mem_cons_self, v, e, h.trans h2⟩
    · exact .inr ⟨x, List.mem_cons_of_mem _ hx, v, e, h⟩

theorem check_some {env : Env} {c c' : Config} (h : checkConfig env c = some c') :
    c'.unattended = c.unattended ∧ c'.overwrite = c.overwrite ∧ c'.target = c.target ∧ c'.abortEnable = c.abortEnable ∧
      (c.unattended = true → env.isBlock c.target = true ∧ env.isFile c'.image = true) := by
  unfold checkConfig at h
  split at h
  · split at h
    · split at h
      · split at h
        · rename_i hb
          split at h
          · rename_i hf; cases h; exact ⟨rfl, rfl, rfl, rfl, fun _ => ⟨hb, hf⟩⟩
          · split at h
            · rename_i hf; cases h; exact ⟨rfl, rfl, rfl, rfl, fun _ => ⟨hb, hf⟩⟩
            · cases h
        · cases h
      · cases h
    · cases h
  · rename_i hu; cases h; exact ⟨rfl, rfl, rfl, rfl, fun e => absurd e hu⟩

/-- C167: without a user, nothing is done unless an image, a target and one of the two policies are given, the target is a device and the image is a file. -/
theorem unattended_checked {env : Env} {sys : Sys} {empty : Str → Bool} {lf ok : Bool} {auto : Option (List Str)} {cmdline : List Str} {u : User}
    (hu : (readConfig env auto cmdline).unattended = true) (h : (installer env sys empty lf ok auto cmdline u).wrote ≠ none ∨ (installer env sys empty lf ok auto cmdline u).status = 0) :
    (readConfig env auto cmdline).image ≠ [] ∧ (readConfig env auto cmdline).target ≠ [] ∧
      ((readConfig env auto cmdline).overwrite = "OVERWRITE".toList ∨ (readConfig env auto cmdline).overwrite = "ABORT".toList) ∧ env.isBlock (readConfig env auto cmdline).target = true := by
  unfold installer at h
  cases hc : checkConfig env (readConfig env auto cmdline) with
  | none =>
    rw [hc] at h
    rcases h with h | h
    · exact absurd rfl h
    · cases h
  | some c =>
    unfold checkConfig at hc
    rw [if_pos hu] at hc
    split at hc
    · rename_i h1
      split at hc
      · rename_i h2
        split at hc
        · rename_i h3; exact ⟨h1.1, h1.2.1, h2, h3⟩
        · cases hc
      · cases hc
    · cases hc

theorem finish_wrote {empty : Str → Bool} {lf ok un : Bool} {ow i t : Str} {u : User} {p : Str × Str} (h : (finish empty lf ok un ow i t u).wrote = some p) :
    p = (i, t) ∧ lf = true ∧ (empty t = true ∨ (un = false ∧ u.confirmOverwrite = true) ∨ (un = true ∧ ow = "OVERWRITE".toList)) := by
  have hinst : (install lf ok i t).wrote = some p → p = (i, t) ∧ lf = true := by
    unfold install
    cases lf <;> cases ok <;> intro h <;> cases h <;> exact ⟨rfl, rfl⟩
  have hpol : policy empty un ow t u = 0 ∧ (install lf ok i t).wrote = some p := by
    unfold finish at h
    split at h
    · rename_i e; exact ⟨e, h⟩
    · cases h
    · cases h
  refine ⟨(hinst hpol.2).1, (hinst hpol.2).2, ?_⟩
  have h0 := hpol.1
  unfold policy at h0
  split at h0
  · rename_i e; exact .inl e
  · split at h0
    · rename_i hu
      split at h0
      · rename_i hc; exact .inr (.inl ⟨by revert hu; cases un <;> simp, hc⟩)
      · cases h0
    · rename_i hu
      split at h0
      · cases h0
      · rename_i ho; exact .inr (.inr ⟨by revert hu; cases un <;> simp, Decidable.not_not.1 ho⟩)

theorem attended_go {env : Env} {sys : Sys} {c : Config} {u : User} {i t : Str} (h : attended env sys c u = .go i t) :
    t ∈ offered sys ∧ u.confirmInstall = true ∧ env.isFile i = true := by
  unfold attended at h
  split at h
  · cases h
  · cases h
  · rename_i i' x hi
    split at h
    · cases h
    · cases h
    · rename_i y t' ht
      split at h
      · rename_i hc
        cases h
        refine ⟨?_, hc, ?_⟩
        · unfold chooseTarget at ht
          split at ht
          · cases ht
          · rename_i d hd; cases ht; rw [hd]; exact List.mem_cons_self
          · split at ht
            · cases ht
            · split at ht
              · rename_i hm; cases ht; exact hm
              · cases ht
        · unfold chooseImage at hi
          split at hi
          · rename_i hf; cases hi; exact hf.2
          · split at hi
            · cases hi
            · split at hi
              · rename_i hf; cases hi; exact hf
              · cases hi
      · cases h

/-- C167, where it holds: a device that is not empty is only written to if the user has said yes to that, or, without a user, if the file of
answers says so or the kernel command line has a word that begins with `installer.target.overwrite`; and what is written is a file. -/
theorem overwrite_partial {env : Env} {sys : Sys} {empty : Str → Bool} {lf ok : Bool} {auto : Option (List Str)} {cmdline : List Str} {u : User} {i t : Str}
    (h : (installer env sys empty lf ok auto cmdline u).wrote = some (i, t)) :
    env.isFile i = true ∧ (empty t = true ∨ (u.confirmInstall = true ∧ u.confirmOverwrite = true) ∨
      (∃ ls, auto = some ls ∧ ls[2]? = some "OVERWRITE".toList) ∨ ∃ x ∈ cmdline, Allows x) := by
  unfold installer at h
  split at h
  · cases h
  · rename_i c hc
    obtain ⟨h1, h2, h3, h4, h5⟩ := check_some hc
    unfold flow at h
    dsimp only at h
    split at h
    · rename_i hun
      obtain ⟨hp, _, hw⟩ := finish_wrote h
      cases hp
      have hcu : (readConfig env auto cmdline).unattended = true := by rw [← h1]; exact (Bool.and_eq_true _ _ ▸ hun).1
      refine ⟨(h5 hcu).2, ?_⟩
      rcases hw with hw | hw | hw
      · exact .inl hw
      · cases hw.1
      · right; right
        rw [h2] at hw
        rcases fold_overwrite (env := env) (ws := cmdline) (c := readAuto auto) with ho | ho
        · left
          have ho : (readAuto auto).overwrite = "OVERWRITE".toList := by rw [← ho]; exact hw.2
          cases auto with
          | none => exact absurd ho (by decide)
          | some ls =>
            refine ⟨ls, rfl, ?_⟩
            have ho : ls[2]?.getD [] = "OVERWRITE".toList := ho
            cases hx : ls[2]? with
            | none => rw [hx] at ho; exact absurd ho (by decide)
            | some y => rw [hx] at ho; exact congrArg some ho
        · exact .inr ho
    · split at h
      · cases h
      · cases h
      · rename_i i' t' ha
        obtain ⟨hp, _, hw⟩ := finish_wrote h
        cases hp
        obtain ⟨_, h7, h8⟩ := attended_go ha
        refine ⟨h8, ?_⟩
        rcases hw with hw | hw | hw
        · exact .inl hw
        · exact .inr (.inl ⟨h7, hw.2⟩)
        · cases hw.1

/-- C166: with a user, only a device that is offered is written to, and only after they have said yes. -/
theorem attended_offered {env : Env} {sys : Sys} {empty : Str → Bool} {lf ok : Bool} {auto : Option (List Str)} {cmdline : List Str} {u : User} {i t : Str}
    (hun : (readConfig env auto cmdline).unattended = false) (h : (installer env sys empty lf ok auto cmdline u).wrote = some (i, t)) :
    t ∈ offered sys ∧ u.confirmInstall = true := by
  unfold installer at h
  split at h
  · cases h
  · rename_i c hc
    obtain ⟨h1, _⟩ := check_some hc
    unfold flow at h
    dsimp only at h
    rw [h1, hun, Bool.false_and] at h
    rw [if_neg Bool.false_ne_true] at h
    split at h
    · cases h
    · cases h
    · rename_i i' t' ha
      obtain ⟨hp, _, _⟩ := finish_wrote h
      cases hp
      exact ⟨(attended_go ha).1, (attended_go ha).2.1⟩

/-- A system with a disk and a stick. -/
def sampleEnv : Env := ⟨fun d => d = "/dev/sda".toList ∨ d = "/dev/sdb".toList, fun f => f = "/install/a.wic".toList, "/dev/sda".toList, "/install".toList⟩

def noUser : User := ⟨false, none, none, false, false⟩

example : installer sampleEnv twoDisks (fun _ => false) true true (some ["a.wic".toList, "/dev/sdb".toList, "OVERWRITE".toList]) [] noUser =
    ⟨some ("/install/a.wic".toList, "/dev/sdb".toList), 0, true⟩ := by decide +kernel
example : installer sampleEnv twoDisks (fun _ => false) true true (some ["a.wic".toList, "/dev/sdb".toList, "ABORT".toList]) [] noUser = ⟨none, 1, false⟩ := by decide +kernel
example : installer sampleEnv twoDisks (fun _ => false) true true none [] ⟨false, some "a.wic".toList, none, true, true⟩ =
    ⟨some ("/install/a.wic".toList, "/dev/sdb".toList), 0, true⟩ := by decide +kernel

/-- Against C167: `installer.target.overwrite=ABORT` on the kernel command line allows it, even if the file of answers says ABORT. -/
theorem abort_overwrites : installer sampleEnv twoDisks (fun _ => false) true true (some ["a.wic".toList, "/dev/sdb".toList, "ABORT".toList])
      ["quiet".toList, "installer.target.overwrite=ABORT".toList] noUser =
    ⟨some ("/install/a.wic".toList, "/dev/sdb".toList), 0, true⟩ := by decide +kernel

/-! ### C168: the boot device without a user -/

theorem find_not_boot {env : Env} {s d : Str} (h : (devList s).find? (fun d => env.isBlock d && d ≠ env.bootDevice) = some d) : d ≠ env.bootDevice := by
  have := List.find?_some h
  simp at this
  exact this.2

/-- C168, where it holds: if devices are given on the kernel command line only, and each time several, the boot device is not written to without
a user. -/
theorem boot_device_partial {env : Env} {sys : Sys} {empty : Str → Bool} {lf ok : Bool} {auto : Option (List Str)} {cmdline : List Str} {u : User} {i t : Str}
    (ha : ∀ ls, auto = some ls → ls[1]?.getD [] = []) (hv : ∀ v, "installer.target.dev=".toList ++ v ∈ cmdline → env.isBlock v = false) (hk : u.key = false)
    (hne : env.isBlock [] = false) (hun : (readConfig env auto cmdline).unattended = true)
    (h : (installer env sys empty lf ok auto cmdline u).wrote = some (i, t)) : t ≠ env.bootDevice := by
  unfold installer at h
  split at h
  · cases h
  · rename_i c hc
    obtain ⟨h1, h2, h3, h4, h5⟩ := check_some hc
    unfold flow at h
    dsimp only at h
    rw [h1, hun, hk, Bool.and_false] at h
    rw [if_pos (by rfl)] at h
    obtain ⟨hp, _, _⟩ := finish_wrote h
    cases hp
    rw [h3]
    have hb := (h5 hun).1
    rcases fold_target (env := env) (ws := cmdline) (c := readAuto auto) with ho | ⟨x, hx, v, e, ho⟩
    · have : (readConfig env auto cmdline).target = [] := by
        show (cmdline.foldl (kernelArg env) (readAuto auto)).target = []
        rw [ho]
        cases auto with
        | none => rfl
        | some ls => exact ha ls rfl
      rw [this, hne] at hb
      cases hb
    · have ho : (readConfig env auto cmdline).target = chooseDev env v := ho
      rw [ho]
      rw [ho] at hb
      unfold chooseDev at hb ⊢
      cases hf : (devList v).find? (fun d => env.isBlock d && d ≠ env.bootDevice) with
      | some d => exact find_not_boot hf
      | none =>
        rw [hf, Option.getD_none, hv v (e ▸ hx)] at hb
        cases hb

example : (installer sampleEnv twoDisks (fun _ => false) true true none
    ["installer.image.uri=a.wic".toList, "installer.target.dev=/dev/sdx,/dev/sda:/dev/sdb".toList, "installer.target.overwrite".toList] noUser).wrote =
    some ("/install/a.wic".toList, "/dev/sdb".toList) := by decide +kernel

/-- Against C168: if only the boot device is given, it is written to. -/
theorem boot_device_written : (installer sampleEnv twoDisks (fun _ => false) true true none
    ["installer.image.uri=a.wic".toList, "installer.target.dev=/dev/sda".toList, "installer.target.overwrite".toList] noUser).wrote =
    some ("/install/a.wic".toList, sampleEnv.bootDevice) := by decide +kernel

/-! ### C169: what the user is told -/

/-- C169, where it holds: if no other installer runs, the user is told of a success if and only if an image was written without
an error; and the status is 1 if it was written with one. -/
theorem success_partial {env : Env} {sys : Sys} {empty : Str → Bool} {ok : Bool} {auto : Option (List Str)} {cmdline : List Str} {u : User} :
    let o := installer env sys empty true ok auto cmdline u
    (o.success = true ↔ (∃ p, o.wrote = some p) ∧ ok = true) ∧ (o.success = true → o.status = 0) ∧ ((∃ p, o.wrote = some p) → ok = false → o.status = 1) := by
  have hf : ∀ (un : Bool) (ow i t : Str), let o := finish empty true ok un ow i t u
      (o.success = true ↔ (∃ p, o.wrote = some p) ∧ ok = true) ∧ (o.success = true → o.status = 0) ∧ ((∃ p, o.wrote = some p) → ok = false → o.status = 1) := by
    intro un ow i t
    unfold finish install
    cases ok <;> split <;> simp
  unfold installer
  split
  · simp
  · unfold flow
    dsimp only
    split
    · exact hf _ _ _ _
    · split
      · simp
      · simp
      · exact hf _ _ _ _

/-- Against C169: if another installer runs, the user is told of a success although this one has written nothing, whatever the other one
does. -/
theorem told_success : installer sampleEnv twoDisks (fun _ => true) false false (some ["a.wic".toList, "/dev/sdb".toList, "OVERWRITE".toList]) [] noUser = ⟨none, 0, true⟩ := by
  decide +kernel

/-- Against C169: the status is also 0 if the user says no. -/
theorem cancel_status : installer sampleEnv twoDisks (fun _ => true) true true none [] noUser = ⟨none, 0, false⟩ := by decide +kernel

end Meta.Installer
