import Verif.Meta.EventsModel

/- C157, C158: tasks that run more than once and mounts that are left. -/

namespace Meta.Events
open Py

/-! ### C157 -/

/-- The task was started in this build and did not fail since. -/
def Ran (t : Str × Str) (es : List Ev) : Prop := ∃ a b, es = a ++ Ev.started t :: b ∧ Ev.failed t ∉ b ∧ Ev.build ∉ b

/-- Names of tasks have no slash. -/
def Named (es : List Ev) : Prop := ∀ t, (Ev.started t ∈ es ∨ Ev.failed t ∈ es) → '/' ∉ t.2

theorem last_slash : ∀ {a b x y : Str}, '/' ∉ x → '/' ∉ y → a ++ '/' :: x = b ++ '/' :: y → a = b ∧ x = y
  | [], [], _, _, _, _, h => ⟨rfl, (List.cons.inj h).2⟩
  | [], c :: b, x, y, hx, _, h => absurd (by rw [(List.cons.inj h).2]; exact List.mem_append_right _ List.mem_cons_self) hx
  | c :: a, [], x, y, _, hy, h => absurd (by rw [← (List.cons.inj h).2]; exact List.mem_append_right _ List.mem_cons_self) hy
  | c :: a, d :: b, x, y, hx, hy, h => by
    have h := List.cons.inj h
    have := last_slash hx hy h.2
    exact ⟨by rw [h.1, this.1], this.2⟩

theorem stamp_inj {t u : Str × Str} (ht : '/' ∉ t.2) (hu : '/' ∉ u.2) (h : onceStamp t = onceStamp u) : t = u := by
  have once : ∀ {w : Str}, '/' ∉ w → '/' ∉ "once.".toList ++ w := fun hw hc => (List.mem_append.1 hc).elim (by decide) hw
  have e : ∀ (v : Str × Str), onceStamp v = v.1 ++ '/' :: ("once.".toList ++ v.2) := by
    intro v
    unfold onceStamp
    rw [List.append_assoc]
    rfl
  rw [e t, e u] at h
  obtain ⟨h1, h2⟩ := last_slash (once ht) (once hu) h
  exact Prod.ext h1 (List.append_cancel_left h2)

/-- The files after some events. -/
def filesAfter (files : List Str) (es : List Ev) : List Str := es.foldl (fun f e => (once f e).1) files

theorem said_at (files : List Str) (a : List Ev) (e : Ev) (b : List Ev) :
    (onceAll files (a ++ e :: b))[a.length]? = some (once (filesAfter files a) e).2 := by
  induction a generalizing files with
  | nil => rfl
  | cons x a ih => exact ih (once files x).1

theorem filesAfter_snoc (files : List Str) (es : List Ev) (e : Ev) : filesAfter files (es ++ [e]) = (once (filesAfter files es) e).1 := by
  unfold filesAfter; rw [List.foldl_append]; rfl

theorem ran_snoc {t : Str × Str} {es : List Ev} {e : Ev} : Ran t (es ++ [e]) ↔ e = Ev.started t ∨ (Ran t es ∧ e ≠ Ev.failed t ∧ e ≠ Ev.build) := by
  constructor
  · rintro ⟨a, b, h, hf, hb⟩
    rcases List.eq_nil_or_concat b with rfl | ⟨b', x, rfl⟩
    · exact Or.inl (List.cons.inj (List.append_inj' h rfl).2).1
    · rw [List.concat_eq_append] at h hf hb
      have h : es ++ [e] = (a ++ Ev.started t :: b') ++ [x] := by rw [h, List.append_assoc]; rfl
      obtain ⟨h1, h2⟩ := List.append_inj' h rfl
      have h2 : e = x := (List.cons.inj h2).1
      refine Or.inr ⟨⟨a, b', h1, fun hm => hf (List.mem_append_left _ hm), fun hm => hb (List.mem_append_left _ hm)⟩, ?_, ?_⟩
      · rintro rfl; exact hf (List.mem_append_right _ (by rw [h2]; exact List.mem_cons_self))
      · rintro rfl; exact hb (List.mem_append_right _ (by rw [h2]; exact List.mem_cons_self))
  · rintro (rfl | ⟨⟨a, b, rfl, hf, hb⟩, h1, h2⟩)
    · exact ⟨es, [], rfl, nofun, nofun⟩
    · refine ⟨a, b ++ [e], by rw [List.append_assoc]; rfl, fun hm => ?_, fun hm => ?_⟩
      · exact (List.mem_append.1 hm).elim hf fun hm => h1 (List.mem_singleton.1 hm).symm
      · exact (List.mem_append.1 hm).elim hb fun hm => h2 (List.mem_singleton.1 hm).symm

theorem files_ran {files : List Str} : ∀ (n : Nat) {es : List Ev}, es.length = n → Named es → ∀ {t : Str × Str}, '/' ∉ t.2 →
    (onceStamp t ∈ filesAfter files (Ev.build :: es) ↔ Ran t es) := by
  intro n
  induction n with
  | zero =>
    intro es hl _ t _
    rw [List.length_eq_zero_iff.1 hl]
    exact ⟨fun h => (nomatch h), fun ⟨a, b, h, _⟩ => by cases a <;> cases h⟩
  | succ n ih =>
    intro es hl hn t ht
    rcases List.eq_nil_or_concat es with rfl | ⟨es, e, rfl⟩
    · cases hl
    · rw [List.concat_eq_append] at hl hn ⊢
      have hl : es.length = n := by rw [List.length_append, List.length_singleton] at hl; omega
      have hn' : Named es := fun u hu => hn u (hu.imp (List.mem_append_left _) (List.mem_append_left _))
      have ih := fun {u : Str × Str} => ih hl hn' (t := u)
      rw [ran_snoc, show Ev.build :: (es ++ [e]) = (Ev.build :: es) ++ [e] from rfl, filesAfter_snoc]
      have hin : e ∈ es ++ [e] := List.mem_append_right _ List.mem_cons_self
      cases e with
      | build => exact ⟨fun h => (nomatch h), fun h => h.elim (fun h => nomatch h) fun h => absurd rfl h.2.2⟩
      | silent u =>
        show onceStamp t ∈ filesAfter files (Ev.build :: es) ↔ _
        rw [ih ht]
        exact ⟨fun h => Or.inr ⟨h, nofun, nofun⟩, fun h => h.elim (fun h => nomatch h) And.left⟩
      | succeeded u =>
        show onceStamp t ∈ filesAfter files (Ev.build :: es) ↔ _
        rw [ih ht]
        exact ⟨fun h => Or.inr ⟨h, nofun, nofun⟩, fun h => h.elim (fun h => nomatch h) And.left⟩
      | started u =>
        have hu := hn u (Or.inl hin)
        by_cases e : t = u
        · subst e
          refine ⟨fun _ => Or.inl rfl, fun _ => ?_⟩
          unfold once
          dsimp only
          split
          · assumption
          · exact List.mem_cons_self
        · have hne : onceStamp t ≠ onceStamp u := fun h => e (stamp_inj ht hu h)
          have : onceStamp t ∈ (once (filesAfter files (Ev.build :: es)) (Ev.started u)).1 ↔ onceStamp t ∈ filesAfter files (Ev.build :: es) := by
            unfold once
            dsimp only
            split
            · exact Iff.rfl
            · exact ⟨fun h => (List.mem_cons.1 h).resolve_left hne, List.mem_cons_of_mem _⟩
          rw [this, ih ht]
          exact ⟨fun h => Or.inr ⟨h, nofun, nofun⟩, fun h => h.elim (fun h => absurd (Ev.started.inj h).symm e) And.left⟩
      | failed u =>
        have hu := hn u (Or.inr hin)
        have : onceStamp t ∈ (once (filesAfter files (Ev.build :: es)) (Ev.failed u)).1 ↔ onceStamp t ∈ filesAfter files (Ev.build :: es) ∧ t ≠ u := by
          unfold once
          dsimp only
          split
          · rw [List.mem_filter]
            exact ⟨fun h => ⟨h.1, fun e => of_decide_eq_true h.2 (by rw [e])⟩, fun h => ⟨h.1, decide_eq_true (show onceStamp t ≠ onceStamp u from fun e => h.2 (stamp_inj ht hu e))⟩⟩
          · rename_i hc
            exact ⟨fun h => ⟨h, fun e => hc (e ▸ h)⟩, And.left⟩
        rw [this, ih ht]
        exact ⟨fun h => Or.inr ⟨h.1, fun e => h.2 (Ev.failed.inj e).symm, nofun⟩, fun h => h.elim (fun h => nomatch h) fun h => ⟨h.1, fun e => h.2.1 (by rw [e])⟩⟩

/-- C157: whatever files are left from earlier builds, and whatever happened since this build began: it is an error to start a task
if and only if it was started before in this build and did not fail since. -/
theorem multiple_iff {files : List Str} {a b : List Ev} {t : Str × Str} (hn : Named (a ++ [Ev.started t])) :
    (onceAll files (Ev.build :: (a ++ Ev.started t :: b)))[a.length + 1]? = some Said.multiple ↔ Ran t a := by
  have h := said_at files (Ev.build :: a) (Ev.started t) b
  rw [show Ev.build :: (a ++ Ev.started t :: b) = (Ev.build :: a) ++ Ev.started t :: b from rfl, show a.length + 1 = (Ev.build :: a).length from rfl, h]
  have ht := hn t (Or.inl (List.mem_append_right _ List.mem_cons_self))
  have hna : Named a := fun u hu => hn u (hu.imp (List.mem_append_left _) (List.mem_append_left _))
  rw [← files_ran (files := files) a.length rfl hna ht]
  unfold once
  dsimp only
  split
  · exact ⟨fun _ => by assumption, fun _ => rfl⟩
  · exact ⟨fun h => (nomatch h), fun h => absurd h (by assumption)⟩

/-- C157: nothing else is said to be such an error. -/
theorem multiple_only {files : List Str} {a b : List Ev} {e : Ev} (h : (onceAll files (a ++ e :: b))[a.length]? = some Said.multiple) : ∃ t, e = Ev.started t := by
  rw [said_at] at h
  have h := Option.some.inj h
  cases e with
  | started t => exact ⟨t, rfl⟩
  | build => cases h
  | silent t => cases h
  | succeeded t => cases h
  | failed t =>
    unfold once at h
    dsimp only at h
    split at h <;> cases h

/-- C157: the handler of failures finds its file if and only if the task was started and did not fail since. -/
theorem failed_iff {files : List Str} {a b : List Ev} {t : Str × Str} (hn : Named (a ++ [Ev.failed t])) :
    (onceAll files (Ev.build :: (a ++ Ev.failed t :: b)))[a.length + 1]? = some Said.nothing ↔ Ran t a := by
  have h := said_at files (Ev.build :: a) (Ev.failed t) b
  rw [show Ev.build :: (a ++ Ev.failed t :: b) = (Ev.build :: a) ++ Ev.failed t :: b from rfl, show a.length + 1 = (Ev.build :: a).length from rfl, h]
  have ht := hn t (Or.inr (List.mem_append_right _ List.mem_cons_self))
  have hna : Named a := fun u hu => hn u (hu.imp (List.mem_append_left _) (List.mem_append_left _))
  rw [← files_ran (files := files) a.length rfl hna ht]
  unfold once
  dsimp only
  split
  · exact ⟨fun _ => by assumption, fun _ => rfl⟩
  · exact ⟨fun h => (nomatch h), fun h => absurd h (by assumption)⟩

def exTask : Str × Str := ("/b/tmp/work/d-a/p/1/temp".toList, "do_build".toList)

example : Named [Ev.started exTask, Ev.failed exTask, Ev.started exTask, Ev.succeeded exTask, Ev.started exTask] := by
  intro t ht
  have : t = exTask := by
    rcases ht with ht | ht <;> simp only [List.mem_cons, Ev.started.injEq, Ev.failed.injEq, reduceCtorEq, List.not_mem_nil, false_or, or_false, or_self] at ht <;> exact ht
  rw [this]; decide
example : onceAll [onceStamp exTask] [Ev.build, Ev.started exTask, Ev.failed exTask, Ev.started exTask, Ev.succeeded exTask, Ev.started exTask] =
    [.nothing, .nothing, .nothing, .nothing, .nothing, .multiple] := by decide +kernel

/-- Beside C157: a task that failed silently counts as one that ran. -/
theorem silent_counts : onceAll [] [Ev.build, Ev.started exTask, Ev.silent exTask, Ev.started exTask] = [.nothing, .nothing, .nothing, .multiple] := by decide +kernel

/-! ### C158 -/

/-- Characters that `/proc/mounts`, `split` and the shell leave as they are. -/
def Plain (s : Str) : Prop := ∀ c ∈ s, isWs c = false ∧ c ≠ '\\'

theorem esc_plain {s : Str} (h : Plain s) : esc s = s := by
  induction s with
  | nil => rfl
  | cons c s ih =>
    obtain ⟨h1, h2⟩ := h c List.mem_cons_self
    have hs : ∀ x : Char, isWs x = true → c ≠ x := fun x hx e => by rw [e, hx] at h1; cases h1
    have e : esc (c :: s) = (if c = ' ' then "\\040".toList else if c = '\t' then "\\011".toList else if c = '\n' then "\\012".toList
      else if c = '\\' then "\\134".toList else [c]) ++ esc s := rfl
    rw [e, if_neg (hs ' ' rfl), if_neg (hs '\t' rfl), if_neg (hs '\n' rfl), if_neg h2, ih fun x hx => h x (List.mem_cons_of_mem _ hx)]
    rfl

theorem shell_plain : ∀ {s : Str}, Plain s → shellWord s = s
  | [], _ => rfl
  | c :: s, h => by
    have h2 := (h c List.mem_cons_self).2
    have ih := shell_plain (s := s) fun x hx => h x (List.mem_cons_of_mem _ hx)
    unfold shellWord
    split
    · rename_i heq; cases heq
    · rename_i heq; cases heq; exact absurd rfl h2
    · rename_i heq; cases heq; rw [ih]

theorem words_plain {s : Str} (h : Plain s) (hne : s ≠ []) : words s = [s] := words_word ⟨hne, fun c hc => (h c hc).1⟩

/-- Something is mounted at a place below the work directory. -/
def Below (base : Str) (m : Mount) : Prop := ∃ a b, m.point = a ++ base ++ b

instance (base : Str) (m : Mount) : Decidable (Below base m) := decidable_of_iff (isSub base m.point = true) isSub_iff

theorem line_eq {m : Mount} (hd : Plain m.dev) (hp : Plain m.point) : ∃ r, line m = m.dev ++ ' ' :: (m.point ++ ' ' :: r) := by
  refine ⟨join [' '] [esc m.type, esc m.opts, "0".toList, "0".toList] ++ ['\n'], ?_⟩
  unfold line
  rw [esc_plain hd, esc_plain hp]
  have e : ∀ (a b : Str) (l : List Str), join [' '] (a :: b :: l) = a ++ [' '] ++ join [' '] (b :: l) := fun _ _ _ => rfl
  rw [e, e]
  simp only [List.append_assoc, List.cons_append, List.nil_append]

theorem second_line {m : Mount} (hd : Plain m.dev) (hne : m.dev ≠ []) (hp : Plain m.point) (hpn : m.point ≠ []) : second (line m) = m.point := by
  obtain ⟨r, e⟩ := line_eq hd hp
  unfold second
  rw [e, words_append_ws _ _ ' ' rfl, words_append_ws _ _ ' ' rfl, words_plain hd hne, words_plain hp hpn]
  rfl

theorem umount_top {base : Str} {m : Mount} {ms : List Mount} (hm : Below base m) :
    ∀ {kept : List Mount}, (∀ k ∈ kept, ¬ Below base k) → umount m.point (kept ++ m :: ms) = some (kept ++ ms)
  | [], _ => by
    show umount m.point (m :: ms) = some ms
    unfold umount
    rw [if_pos rfl]
  | k :: kept, h => by
    have hk := h k List.mem_cons_self
    show umount m.point (k :: (kept ++ m :: ms)) = some (k :: (kept ++ ms))
    conv => lhs; unfold umount
    rw [if_neg, if_neg, umount_top hm fun x hx => h x (List.mem_cons_of_mem _ hx)]
    · rfl
    · intro hs
      obtain ⟨t, ht⟩ := startsWith_iff.1 hs
      obtain ⟨a, b, e⟩ := hm
      exact hk ⟨a, b ++ (['/'] ++ t), by rw [ht, e]; simp only [List.append_assoc]⟩
    · intro e
      obtain ⟨a, b, e'⟩ := hm
      exact hk ⟨a, b, by rw [e, e']⟩

/-- What is assumed of the mounts: names as they are usual, and the work directory is named only in places of mounts. -/
structure Usual (base : Str) (ms : List Mount) : Prop where
  dev : ∀ m ∈ ms, Plain m.dev ∧ m.dev ≠ []
  point : ∀ m ∈ ms, Plain m.point
  only : ∀ m ∈ ms, isSub base (line m) = true → Below base m

theorem unmountAll_spec {base : Str} (hb : base ≠ []) : ∀ {ms kept : List Mount}, Usual base ms → (∀ k ∈ kept, ¬ Below base k) →
    unmountAll base (ms.map line) (kept ++ ms) = kept ++ ms.filter (fun m => ¬ Below base m)
  | [], kept, _, _ => rfl
  | m :: ms, kept, hu, hk => by
    have hu' : Usual base ms := ⟨fun x hx => hu.dev x (List.mem_cons_of_mem _ hx), fun x hx => hu.point x (List.mem_cons_of_mem _ hx), fun x hx => hu.only x (List.mem_cons_of_mem _ hx)⟩
    have hd := hu.dev m List.mem_cons_self
    have hp := hu.point m List.mem_cons_self
    by_cases hm : Below base m
    · have hs : isSub base (line m) = true := by
        obtain ⟨r, e⟩ := line_eq hd.1 hp
        obtain ⟨a, b, e'⟩ := hm
        rw [isSub_iff]
        exact ⟨m.dev ++ ' ' :: a, b ++ ' ' :: r, by rw [e, e']; simp only [List.append_assoc, List.cons_append]⟩
      have hpn : m.point ≠ [] := by
        obtain ⟨a, b, e'⟩ := hm
        intro h
        rw [h] at e'
        have := congrArg List.length e'
        rw [List.length_append, List.length_append] at this
        exact hb (List.length_eq_zero_iff.1 (by simp only [List.length_nil] at this; omega))
      have hpl : place base (line m) = some m.point := by
        unfold place
        rw [if_pos hs, second_line hd.1 hd.2 hp hpn, shell_plain hp]
      have e : unmountAll base ((m :: ms).map line) (kept ++ m :: ms) = unmountAll base (ms.map line) ((umount m.point (kept ++ m :: ms)).getD (kept ++ m :: ms)) := by
        rw [List.map_cons]
        conv => lhs; unfold unmountAll
        rw [hpl]
      rw [e, umount_top hm hk, Option.getD_some, unmountAll_spec hb hu' hk, List.filter_cons, if_neg]
      intro h; exact of_decide_eq_true h hm
    · have hpl : place base (line m) = none := by
        unfold place
        rw [if_neg fun h => hm (hu.only m List.mem_cons_self h)]
      have e : unmountAll base ((m :: ms).map line) (kept ++ m :: ms) = unmountAll base (ms.map line) (kept ++ m :: ms) := by
        rw [List.map_cons]
        conv => lhs; unfold unmountAll
        rw [hpl]
      have ih := unmountAll_spec hb hu' (kept := kept ++ [m]) (fun k h => (List.mem_append.1 h).elim (hk k) fun h => by rw [List.mem_singleton.1 h]; exact hm)
      rw [List.append_assoc, List.append_assoc, List.singleton_append, List.singleton_append] at ih
      rw [e, ih, List.filter_cons, if_pos (decide_eq_true hm)]

/-- C158, for usual names: at the end of a build, all that is mounted below the work directory is unmounted in one go, however it is
nested, nothing else is, and each is told of. -/
theorem unmounted_partial {tmpdir : Str} (ht : tmpdir ≠ []) {ms : List Mount} (hu : Usual (tmpdir ++ "/work/".toList) ms) :
    completed tmpdir "default".toList false ms =
      (ms.filter (fun m => ¬ Below (tmpdir ++ "/work/".toList) m), (ms.filter (fun m => Below (tmpdir ++ "/work/".toList) m)).length) := by
  have hb : tmpdir ++ "/work/".toList ≠ [] := fun h => ht (List.append_eq_nil_iff.1 h).1
  unfold completed
  rw [if_neg ht, if_neg fun h => h rfl]
  dsimp only
  rw [if_neg nofun]
  refine Prod.ext ?_ ?_
  · exact unmountAll_spec hb (kept := []) hu nofun
  · dsimp only
    rw [List.filter_map, List.length_map]
    congr 1
    refine List.filter_congr fun m hm => ?_
    rw [Bool.eq_iff_iff, decide_eq_true_iff]
    refine ⟨hu.only m hm, fun h => ?_⟩
    obtain ⟨r, e⟩ := line_eq (hu.dev m hm).1 (hu.point m hm)
    obtain ⟨a, b, e'⟩ := h
    refine isSub_iff.2 ⟨m.dev ++ ' ' :: a, b ++ ' ' :: r, ?_⟩
    rw [e, e']; simp only [List.append_assoc, List.cons_append]

/-- C158: with `ISAR_FAIL_ON_CLEANUP` all is left as it is, and each mount is an error. -/
theorem left_mounted {tmpdir : Str} (ht : tmpdir ≠ []) {ms : List Mount} (hu : Usual (tmpdir ++ "/work/".toList) ms) :
    completed tmpdir "default".toList true ms = (ms, (ms.filter (fun m => Below (tmpdir ++ "/work/".toList) m)).length) := by
  have h := congrArg Prod.snd (unmounted_partial ht hu)
  unfold completed at h ⊢
  rw [if_neg ht, if_neg fun h => h rfl] at h ⊢
  exact Prod.ext rfl h

/-- C158: for other configurations nothing is done. -/
theorem other_mc {tmpdir mc : Str} (h : mc ≠ "default".toList) (b : Bool) (ms : List Mount) : completed tmpdir mc b ms = (ms, 0) := by
  unfold completed
  by_cases ht : tmpdir = []
  · rw [if_pos ht]
  · rw [if_neg ht, if_pos h]

/-- Beside these: mounts of a root file system, the newest first, and one that is not below. -/
def exMounts : List Mount := [⟨"proc".toList, "/b/tmp/work/d/p/1/rootfs/proc".toList, "proc".toList, "rw".toList⟩,
  ⟨"tmpfs".toList, "/run".toList, "tmpfs".toList, "rw".toList⟩, ⟨"/dev/sda1".toList, "/b/tmp/work/d/p/1/rootfs".toList, "ext4".toList, "rw".toList⟩]

example : Usual ("/b/tmp".toList ++ "/work/".toList) exMounts := by
  have hd : ∀ m ∈ exMounts, (m.dev.all fun c => !isWs c && c != '\\') = true ∧ m.dev ≠ [] := by decide +kernel
  have hp : ∀ m ∈ exMounts, (m.point.all fun c => !isWs c && c != '\\') = true := by decide +kernel
  have conv : ∀ {s : Str}, (s.all fun c => !isWs c && c != '\\') = true → Plain s := by
    intro s h c hc
    have := List.all_eq_true.1 h c hc
    grind
  exact ⟨fun m hm => ⟨conv (hd m hm).1, (hd m hm).2⟩, fun m hm => conv (hp m hm), by decide +kernel⟩

/-- Against C158: something is unmounted that is mounted elsewhere, as its options name the work directory. -/
theorem elsewhere_too : completed "/b/tmp".toList "default".toList false
      [⟨"overlay".toList, "/mnt".toList, "overlay".toList, "lowerdir=/b/tmp/work/d/p/1/rootfs".toList⟩] = ([], 1) := by decide +kernel

/-- Against C158: a place with a space in its name stays mounted. -/
theorem space_stays : completed "/b/tmp".toList "default".toList false
      [⟨"tmpfs".toList, "/b/tmp/work/a b".toList, "tmpfs".toList, "rw".toList⟩] =
    ([⟨"tmpfs".toList, "/b/tmp/work/a b".toList, "tmpfs".toList, "rw".toList⟩], 1) := by decide +kernel

end Meta.Events
