import Verif.Meta.SchrootSpec
/-!
# Chroots: mounts and cleanup
-/

namespace Meta.Schroot
open Py

/-! ## Runs with different names -/

theorem exec_cons (T : List Str) (σ : Str → Entry) (s : Str × Step) (sched : List (Str × Step)) :
    exec T σ (s :: sched) = exec T (fun n => if n = s.1 then step T (σ n) s.2 else σ n) sched := rfl

/-- **C134.**  Whatever runs with other names do meanwhile, a run finds what its own steps have made. -/
theorem own_steps (T : List Str) (n : Str) : ∀ (sched : List (Str × Step)) (σ : Str → Entry),
    exec T σ sched n = run T (σ n) (proj n sched)
  | [], σ => rfl
  | (m, s) :: sched, σ => by
    rw [exec_cons, own_steps T n sched]
    unfold proj
    by_cases h : m = n
    · subst h
      rw [if_pos rfl, List.filter_cons, if_pos (beq_self_eq_true m)]
      rfl
    · rw [if_neg (fun h' => h h'.symm), List.filter_cons, if_neg (fun h' => h (beq_iff_eq.1 h'))]

theorem append_right_cancel_len {a b c d : Str} (h : a ++ b = c ++ d) (hl : b.length = d.length) : a = c ∧ b = d := by
  have : a.length = c.length := by
    have := congrArg List.length h
    rw [List.length_append, List.length_append] at this
    omega
  exact List.append_inj h this

theorem last_dash {a b x y : Str} (h : a ++ '-' :: x = b ++ '-' :: y) (hx : '-' ∉ x) (hy : '-' ∉ y) : a = b ∧ x = y := by
  induction a generalizing b with
  | nil =>
    cases b with
    | nil => exact ⟨rfl, by simpa using h⟩
    | cons c b =>
      rw [List.nil_append, List.cons_append] at h
      injection h with h1 h2
      exact absurd (h2 ▸ List.mem_append_right b List.mem_cons_self) hx
  | cons c a ih =>
    cases b with
    | nil =>
      rw [List.nil_append, List.cons_append] at h
      injection h with h1 h2
      exact absurd (h2.symm ▸ List.mem_append_right a List.mem_cons_self) hy
    | cons d b =>
      rw [List.cons_append, List.cons_append] at h
      injection h with h1 h2
      obtain ⟨h3, h4⟩ := ih h2
      exact ⟨by rw [h1, h3], h4⟩

theorem dec_no_dash (n : Nat) : '-' ∉ dec n := fun h => by
  have := dec_digits h
  revert this
  decide

/-- **C134.**  Runs in different processes or different build directories have different names, whatever the names
of distributions and users are. -/
theorem names_differ {d1 u1 i1 d2 u2 i2 : Str} {p1 p2 : Nat} (hl : i1.length = i2.length)
    (h : chrootName d1 u1 i1 p1 = chrootName d2 u2 i2 p2) : i1 = i2 ∧ p1 = p2 := by
  unfold chrootName at h
  obtain ⟨h1, h2⟩ := last_dash h (dec_no_dash _) (dec_no_dash _)
  exact ⟨(append_right_cancel_len (a := d1 ++ '-' :: u1 ++ ['-']) (c := d2 ++ '-' :: u2 ++ ['-'])
    (by simpa using h1) hl).2, dec_injective h2⟩

/-! ## Mounts -/

theorem run_append (T : List Str) (e : Entry) (a b : List Step) : run T e (a ++ b) = run T (run T e a) b :=
  List.foldl_append

theorem run_cons (T : List Str) (e : Entry) (s : Step) (b : List Step) : run T e (s :: b) = run T (step T e s) b := rfl

/-- The file has these lines and those of the system. -/
def Has (T : List Str) (W : Str → Prop) (e : Entry) : Prop := ∃ l, e.fstab = some l ∧ Exact T W l

theorem Has.congr {T : List Str} {W V : Str → Prop} {e : Entry} (h : Has T W e) (hw : ∀ x, W x ↔ V x) : Has T V e := by
  obtain ⟨l, h1, r, h2, h3, h4⟩ := h
  exact ⟨l, h1, r, h2, h3, fun x => by rw [h4, hw]⟩

theorem has_add {T : List Str} {W : Str → Prop} {e : Entry} (h : Has T W e) (line : Str) :
    Has T (fun x => W x ∨ x = line) (step T e (.add line)) := by
  obtain ⟨l, h1, r, h2, h3, h4⟩ := h
  have h1' : e.fstab.getD [] = l := by rw [h1]; rfl
  by_cases hm : line ∈ l
  · have : step T e (.add line) = e := if_pos (h1'.symm ▸ hm)
    rw [this]
    refine ⟨l, h1, r, h2, h3, fun x => ?_⟩
    rw [h4]
    refine ⟨fun ⟨a, b⟩ => ⟨Or.inl a, b⟩, fun ⟨a, b⟩ => ?_⟩
    rcases a with a | rfl
    · exact ⟨a, b⟩
    · rw [h2, List.mem_append] at hm
      exact (h4 x).1 (hm.resolve_left b)
  · have : step T e (.add line) = { e with fstab := some (e.fstab.getD [] ++ [line]) } := if_neg (h1'.symm ▸ hm)
    rw [this]
    have hm' : line ∉ r := fun hr => hm (h2 ▸ List.mem_append_right T hr)
    refine ⟨l ++ [line], by rw [h1'], r ++ [line], by rw [h2, List.append_assoc], ?_, fun x => ?_⟩
    · exact List.nodup_append.2 ⟨h3, by simp, fun a ha b hb => by
        rw [List.mem_singleton] at hb; subst hb; intro he; exact hm' (he ▸ ha)⟩
    · rw [List.mem_append, h4, List.mem_singleton]
      constructor
      · rintro (⟨a, b⟩ | rfl)
        · exact ⟨Or.inl a, b⟩
        · exact ⟨Or.inr rfl, fun ht => hm (h2 ▸ List.mem_append_left r ht)⟩
      · rintro ⟨a | a, b⟩
        · exact Or.inl ⟨a, b⟩
        · exact Or.inr a

theorem has_adds {T : List Str} : ∀ (lines : List Str) {W : Str → Prop} {e : Entry}, Has T W e →
    Has T (fun x => W x ∨ x ∈ lines) (run T e (lines.map .add))
  | [], W, e, h => h.congr fun x => by simp
  | a :: lines, W, e, h => by
    rw [List.map_cons, run_cons]
    exact (has_adds lines (has_add h a)).congr fun x => by rw [List.mem_cons, or_assoc]

/-- The lines that `schroot_create_configs` adds. -/
def ownLines (r : Recipe) : List Str :=
  [bind r.baseApt "/base-apt".toList, bind r.workdir ("/home/builder/".toList ++ r.bpn)] ++
    if r.dlThere then [bind r.dlDir "/downloads".toList] else []

theorem create_eq (name : Str) (r : Recipe) :
    create name r = [.conf (confLines name r), .mkdir, .copy] ++ (ownLines r).map .add := by
  unfold create ownLines
  cases r.dlThere <;> rfl

theorem create_has {T : List Str} {e : Entry} (hd : e.dir = false) (name : Str) (r : Recipe) :
    Has T (fun x => x ∈ ownLines r) (run T e (create name r)) := by
  rw [create_eq, run_append]
  have : Has T (fun _ => False) (run T e [.conf (confLines name r), .mkdir, .copy]) := by
    refine ⟨T, ?_, [], by simp, List.nodup_nil, fun x => by simp⟩
    rw [run_cons, run_cons, run_cons]
    show (step T (step T (step T e (.conf (confLines name r))) .mkdir) .copy).fstab = some T
    have : (step T (step T e (.conf (confLines name r))) .mkdir).inside = false := hd
    show (if _ then _ else _ : Entry).fstab = some T
    rw [if_neg (by rw [this]; exact Bool.false_ne_true)]
  exact (has_adds _ this).congr fun x => by simp

theorem takeWhile_colon {a b : Str} (h : ':' ∉ a) : (a ++ ':' :: b).takeWhile (· ≠ ':') = a ∧
    (a ++ ':' :: b).dropWhile (· ≠ ':') = ':' :: b := by
  induction a with
  | nil => exact ⟨rfl, rfl⟩
  | cons c a ih =>
    obtain ⟨h1, h2⟩ := ih fun h' => h (List.mem_cons_of_mem _ h')
    have hc : decide (c ≠ ':') = true := decide_eq_true fun h' => h (h' ▸ List.mem_cons_self)
    rw [List.cons_append, List.takeWhile_cons, List.dropWhile_cons, if_pos hc, if_pos hc, h1, h2]
    exact ⟨rfl, rfl⟩

theorem first_colon : ∀ {w : Str}, ':' ∈ w → ∃ a b, w = a ++ ':' :: b ∧ ':' ∉ a
  | c :: w, h => by
    by_cases hc : c = ':'
    · exact ⟨[], w, by rw [hc]; rfl, List.not_mem_nil⟩
    · obtain ⟨a, b, h1, h2⟩ := first_colon ((List.mem_cons.1 h).resolve_left fun h' => hc h'.symm)
      exact ⟨c :: a, b, by rw [h1]; rfl, fun h' => (List.mem_cons.1 h').elim (fun h' => hc h'.symm) h2⟩

theorem takeWhile_all {w : Str} (h : ':' ∉ w) : w.takeWhile (· ≠ ':') = w := by
  have : ∀ x, x ∈ w → decide (x ≠ ':') = true := fun x hx => decide_eq_true fun h' => h (h' ▸ hx)
  have h2 := List.takeWhile_append_of_pos (l₂ := []) this
  simpa using h2

theorem word_iff {w src dst : Str} : Word w src dst ↔ beforeColon w = src ∧ afterColon w = dst := by
  constructor
  · intro h
    cases h with
    | pair h =>
      unfold beforeColon afterColon
      rw [if_pos (List.mem_append_right _ List.mem_cons_self), (takeWhile_colon h).1, (takeWhile_colon h).2]
      exact ⟨rfl, rfl⟩
    | one h =>
      unfold beforeColon afterColon
      rw [if_neg h]
      exact ⟨takeWhile_all h, rfl⟩
  · rintro ⟨rfl, rfl⟩
    by_cases h : ':' ∈ w
    · obtain ⟨a, b, h1, h2⟩ := first_colon h
      unfold beforeColon afterColon
      rw [if_pos h]
      subst h1
      rw [(takeWhile_colon h2).1, (takeWhile_colon h2).2]
      exact .pair h2
    · have h1 : beforeColon w = w := takeWhile_all h
      have h2 : afterColon w = w := if_neg h
      rw [h1, h2]
      exact .one h

theorem line_iff {r : Recipe} {x : Str} :
    Line r x ↔ x ∈ ownLines r ∨ x ∈ r.mounts.map mountLine := by
  have hb : ∀ src dst : Str, src ++ " ".toList ++ dst ++ " none rw,bind,private 0 0".toList = bind src dst := fun src dst => by
    unfold bind
    rw [List.append_assoc src]; rfl
  unfold Line ownLines
  rw [List.mem_append, List.mem_cons, List.mem_singleton, List.mem_map]
  constructor
  · rintro ⟨src, dst, h, rfl⟩
    rw [hb]
    cases h with
    | baseApt => exact Or.inl (Or.inl (Or.inl rfl))
    | workdir => exact Or.inl (Or.inl (Or.inr rfl))
    | downloads h => exact Or.inl (Or.inr (by rw [if_pos h]; exact List.mem_singleton.2 rfl))
    | @word w _ _ h h1 =>
      obtain ⟨h2, h3⟩ := word_iff.1 h1
      exact Or.inr ⟨w, h, by unfold mountLine; rw [h2, h3]⟩
  · rintro (((h | h) | h) | ⟨w, h1, h2⟩)
    · exact ⟨_, _, .baseApt, by rw [hb]; exact h⟩
    · exact ⟨_, _, .workdir, by rw [hb]; exact h⟩
    · by_cases hd : r.dlThere = true
      · rw [if_pos hd, List.mem_singleton] at h
        exact ⟨_, _, .downloads hd, by rw [hb]; exact h⟩
      · rw [if_neg hd] at h; cases h
    · exact ⟨_, _, .word h1 (word_iff.2 ⟨rfl, rfl⟩), by rw [hb]; exact h2.symm⟩

/-- After deleting nothing is left, whatever was there. -/
theorem delete_clean (T : List Str) (e : Entry) (s : List Step) : Clean (run T e (s ++ delete)) := by
  rw [run_append]
  exact ⟨rfl, rfl, rfl⟩

/-- What comes before a run with this name: nothing, or runs of which the last one has cleaned up. -/
def Finished (T : List Str) (e : Entry) (before : List Step) : Prop := Clean (run T e before)

/-- **C134.**  With any other runs at the same time, and after earlier runs with the same name that have been
finished: the chroot has the mounts of the system, and each that the recipe declares once, and no other. -/
theorem mounts_exact_partial (T : List Str) (σ : Str → Entry) (sched : List (Str × Step)) (n : Str) (r : Recipe)
    (before : List Step) (hp : proj n sched = before ++ (create n r ++ insertMounts r)) (hb : Finished T (σ n) before) :
    ∃ l, (exec T σ sched n).fstab = some l ∧ Exact T (Line r) l := by
  rw [own_steps, hp, run_append, run_append]
  have h := create_has (T := T) hb.2.1 n r
  have h2 := has_adds (r.mounts.map mountLine) h
  rw [List.map_map] at h2
  exact h2.congr fun x => line_iff.symm

/-- **C134.**  The same for the build of a package: what the recipe declares, without SCHROOT_MOUNTS, and its own copy
of the local repository. -/
theorem build_mounts_exact_partial (T : List Str) (σ : Str → Entry) (sched : List (Str × Step)) (n : Str) (r : Recipe)
    (before : List Step) (hp : proj n sched = before ++ dpkgCreate n r) (hb : Finished T (σ n) before) :
    ∃ l, (exec T σ sched n).fstab = some l ∧
      Exact T (fun x => Line { r with mounts := [] } x ∨ x = r.isarApt ++ " /isar-apt none rw,bind 0 0".toList) l := by
  rw [own_steps, hp, run_append]
  unfold dpkgCreate
  rw [run_append]
  refine (has_add (create_has (T := T) hb.2.1 n r) _).congr fun x => ?_
  rw [line_iff]
  have : x ∈ ({ r with mounts := [] } : Recipe).mounts.map mountLine ↔ False := by simp
  rw [this, or_false]
  have h2 : r.isarApt ++ ' ' :: "/isar-apt".toList ++ " none rw,bind 0 0".toList =
      r.isarApt ++ " /isar-apt none rw,bind 0 0".toList := by
    rw [List.append_assoc]; rfl
  rw [h2]
  exact Iff.rfl

/-- The file in `chroot.d` is that of this run, whatever was there before. -/
theorem conf_own (T : List Str) (e : Entry) (n : Str) (r : Recipe) :
    (run T e (create n r)).conf = some (confLines n r) := by
  rw [create_eq, run_append]
  have : ∀ (ls : List Str) (e : Entry), (run T e (ls.map .add)).conf = e.conf := by
    intro ls
    induction ls with
    | nil => intro e; rfl
    | cons a ls ih =>
      intro e
      rw [List.map_cons, run_cons, ih]
      show (if _ then _ else _ : Entry).conf = _
      split <;> rfl
  rw [this]
  show (if _ then _ else _ : Entry).conf = _
  split <;> rfl

/-! ## Removing mounts -/

theorem dotPrefix_self : ∀ p s : Str, dotPrefix p (p ++ s) = true
  | [], _ => by rw [dotPrefix.eq_def]
  | a :: p, s => by
    rw [List.cons_append]
    unfold dotPrefix
    rw [dotPrefix_self p s, beq_self_eq_true, Bool.or_true]; rfl

theorem hits_self (p : Str) : hits p p = true := by
  have := dotPrefix_self p []
  rw [List.append_nil] at this
  cases p with
  | nil => exact this
  | cons a p => unfold hits; rw [this]; rfl

theorem run_removes (T : List Str) : ∀ (ms : List Str) (e : Entry),
    (run T e (ms.map fun mp => Step.del (mountLine mp))).fstab =
      e.fstab.map fun l => l.filter fun x => !(ms.any fun mp => hits (mountLine mp) x)
  | [], e => by
    show e.fstab = _
    cases e.fstab with
    | none => rfl
    | some l => exact congrArg some (List.filter_eq_self.2 fun _ _ => rfl).symm
  | m :: ms, e => by
    rw [List.map_cons, run_cons, run_removes T ms]
    show (e.fstab.map fun l => l.filter fun x => !hits (mountLine m) x).map _ = _
    rw [Option.map_map]
    congr 1
    funext l
    show List.filter _ (List.filter _ l) = _
    rw [List.filter_filter]
    congr 1
    funext x
    rw [List.any_cons, Bool.not_or, Bool.and_comm]

/-- Removing the mounts leaves none of them, and every line in which none of them is found. -/
theorem mounts_removed (T : List Str) (e : Entry) (r : Recipe) (l : List Str) (h : e.fstab = some l) :
    ∃ l', (run T e (removeMounts r)).fstab = some l' ∧ l'.Sublist l ∧
      (∀ w src dst, w ∈ r.mounts → Word w src dst → src ++ " ".toList ++ dst ++ " none rw,bind,private 0 0".toList ∉ l') ∧
      ∀ x, x ∈ l → (∀ w, w ∈ r.mounts → hits (mountLine w) x = false) → x ∈ l' := by
  unfold removeMounts
  rw [run_removes, h]
  refine ⟨_, rfl, List.filter_sublist, fun w src dst hw hs hm => ?_, fun x hx hn => ?_⟩
  · obtain ⟨h1, h2⟩ := word_iff.1 hs
    have hl : src ++ " ".toList ++ dst ++ " none rw,bind,private 0 0".toList = mountLine w := by
      unfold mountLine bind
      rw [h1, h2, List.append_assoc src]; rfl
    rw [hl] at hm
    have h3 := (List.mem_filter.1 hm).2
    rw [Bool.not_eq_true', List.any_eq_false] at h3
    exact h3 w hw (hits_self _)
  · refine List.mem_filter.2 ⟨hx, ?_⟩
    rw [Bool.not_eq_true', List.any_eq_false]
    exact fun w hw => by rw [hn w hw]; exact Bool.false_ne_true

/-! ## Cleanup -/

/-- The cleanup and the ordinary end both delete. -/
theorem steps_clean (T : List Str) (e : Entry) (t : Task) (a b : List Step) (hb : t.body = a ++ delete)
    (hc : t.cleanup = b ++ delete) (fail : Option Nat) (hf : ∀ k, fail = some k → t.setup.length ≤ k) :
    Clean (run T e (t.steps fail)) := by
  cases fail with
  | none =>
    show Clean (run T e (t.setup ++ t.body))
    rw [hb, ← List.append_assoc]
    exact delete_clean T e _
  | some k =>
    have : t.steps (some k) = t.setup ++ t.body.take (k - t.setup.length) ++ t.cleanup :=
      if_neg (by have := hf k rfl; omega)
    rw [this, hc, ← List.append_assoc]
    exact delete_clean T e _

/-- **C135.**  Wherever the build of a package fails after the chroot was set up, nothing of it is left. -/
theorem build_clean_partial (T : List Str) (e : Entry) (n : Str) (r : Recipe) (work : List Step) (fail : Option Nat)
    (hf : ∀ k, fail = some k → (dpkgCreate n r).length ≤ k) : Clean (run T e ((dpkgBuild n r work).steps fail)) :=
  steps_clean T e _ work [] rfl rfl fail hf

/-- **C135.**  Wherever an image command fails after its session has begun, nothing of it is left. -/
theorem imager_clean_partial (T : List Str) (e : Entry) (n : Str) (r : Recipe) (work : List Step) (fail : Option Nat)
    (hf : ∀ k, fail = some k → (create n r ++ insertMounts r).length < k) :
    Clean (run T e ((imagerRun n r work).steps fail)) := by
  refine steps_clean T e _ (work ++ removeMounts r) (removeMounts r) rfl rfl fail fun k hk => ?_
  have := hf k hk
  show (create n r ++ insertMounts r ++ [Step.other]).length ≤ k
  rw [List.length_append]
  exact this

/-- **C135.**  The same for sources from the local repository, if the session can be ended. -/
theorem fetch_clean_partial (T : List Str) (e : Entry) (n : Str) (r : Recipe) (work : List Step) (fail : Option Nat)
    (hf : ∀ k, fail = some k → (create n r ++ insertMounts r).length < k) :
    Clean (run T e ((fetchCommonSource n r work true).steps fail)) := by
  refine steps_clean T e _ (work ++ removeMounts r) (removeMounts r) rfl rfl fail fun k hk => ?_
  have := hf k hk
  show (create n r ++ insertMounts r ++ [Step.other]).length ≤ k
  rw [List.length_append]
  exact this

/-- **C135.**  The same for sources that apt provides. -/
theorem apt_clean_partial (T : List Str) (e : Entry) (n : Str) (r : Recipe) (work : List Step) (fail : Option Nat)
    (hf : ∀ k, fail = some k → (create n r).length + 1 < k) :
    Clean (run T e ((aptSrc n r work true).steps fail)) := by
  refine steps_clean T e _ work [] rfl rfl fail fun k hk => ?_
  have := hf k hk
  show (create n r ++ [Step.other, Step.other]).length ≤ k
  rw [List.length_append]
  exact this

/-! ## Samples -/

def sysFstab : List Str := ["/proc /proc none rw,bind 0 0".toList, "tmpfs /dev/shm tmpfs defaults 0 0".toList]

def hello : Recipe := ⟨"/b/schroot".toList, "/b/base-apt".toList, "/b/work/hello/1.0".toList, "hello".toList, "/dl".toList, true,
  ["/b/work/hello/1.0:/work".toList, "/layer".toList], "/cc".toList, "/b/work/hello/1.0/isar-apt".toList⟩

def other : Recipe := { hello with workdir := "/b/work/other/2".toList, bpn := "other".toList, mounts := [] }

def noEntry : Entry := ⟨none, false, none, false⟩

/-- Two builds at the same time, with different names. -/
example : proj "a".toList ((create "b".toList other).map (fun s => ("b".toList, s)) ++
      (create "a".toList hello ++ insertMounts hello).map (fun s => ("a".toList, s)) ++ delete.map (fun s => ("b".toList, s))) =
    [] ++ (create "a".toList hello ++ insertMounts hello) ∧ Finished sysFstab noEntry [] := by
  refine ⟨by decide +kernel, rfl, rfl, rfl⟩

example : (run sysFstab noEntry (create "a".toList hello ++ insertMounts hello)).fstab = some (sysFstab ++
    ["/b/base-apt /base-apt none rw,bind,private 0 0".toList,
      "/b/work/hello/1.0 /home/builder/hello none rw,bind,private 0 0".toList, "/dl /downloads none rw,bind,private 0 0".toList,
      "/b/work/hello/1.0 /work none rw,bind,private 0 0".toList, "/layer /layer none rw,bind,private 0 0".toList]) := by
  decide +kernel

/-- A build that fails in its work. -/
example : Clean (run sysFstab noEntry ((dpkgBuild "a".toList hello (ccache hello)).steps (some 8))) :=
  build_clean_partial _ _ _ _ _ _ fun k hk => by injection hk with hk; subst hk; decide

/-- Against C134: a build was stopped, and a later process of the same number builds another recipe.  Its chroot has the
work directory of the first one, and if this was stopped early, none of the mounts of the system. -/
theorem leftover_mounts :
    (∃ l, (run sysFstab noEntry (create "a".toList hello ++ dpkgCreate "a".toList other)).fstab = some l ∧
      "/b/work/hello/1.0 /home/builder/hello none rw,bind,private 0 0".toList ∈ l) ∧
    ∃ l, (run sysFstab noEntry ((create "a".toList hello).take 2 ++ dpkgCreate "a".toList other)).fstab = some l ∧
      "/proc /proc none rw,bind 0 0".toList ∉ l := by
  refine ⟨⟨_, rfl, by decide +kernel⟩, ⟨_, rfl, by decide +kernel⟩⟩

/-- Against C135: if the session cannot be started, the configuration is left; it is also left if the session cannot be
ended, or if the terminal cannot be opened. -/
theorem session_fails_leaves :
    ¬ Clean (run sysFstab noEntry ((imagerRun "a".toList hello []).steps (some 8))) ∧
    ¬ Clean (run sysFstab noEntry ((aptSrc "a".toList hello [] true).steps (some 6))) ∧
    ¬ Clean (run sysFstab noEntry ((fetchCommonSource "a".toList hello [.other] false).steps (some 9))) ∧
    ¬ Clean (run sysFstab noEntry ((devshell "a".toList hello [.other]).steps (some 7))) := by
  refine ⟨fun h => ?_, fun h => ?_, fun h => ?_, fun h => ?_⟩ <;> · have := h.2.1; revert this; decide +kernel

end Meta.Schroot
