import Verif.Meta.ImageTypesLemmas
/-!
# Properties of the image types (C26 - C29, C54 - C56)
-/

namespace Isar.ImageTypes
open Py

/-- The conversions and the dependency shipped with isar. -/
def exConf : Conf :=
  { convs := ["gz".toList, "xz".toList, "zst".toList, "zck".toList]
    sorted := ["gz".toList, "xz".toList, "zck".toList, "zst".toList]
    typedep := fun t => if t = "ova".toList then ["wic".toList] else [] }

theorem exConf_ok : exConf.Ok where
  nodot := by decide
  sorted := by
    intro v
    simp only [exConf, List.mem_cons, List.not_mem_nil, or_false]
    constructor
    · rintro (h | h | h | h) <;> simp [h]
    · rintro (h | h | h | h) <;> simp [h]

/-! ## C26 -/

/-- **C26** The base type is what is left when the conversion suffixes are taken away; no
conversion suffix is left. -/
theorem base_type_defined (convs : List Str) (t : Str) : IsBase convs t (base convs t) :=
  base_isBase convs t

example : base exConf.convs "ext4.img.gz.xz".toList = "ext4.img".toList := by decide

theorem baseGo_stable (convs : List Str) : ∀ n m t, t.length ≤ n → n ≤ m →
    baseGo convs m t = baseGo convs n t := by
  intro n
  induction n with
  | zero =>
    intro m t ht _
    have : t = [] := List.length_eq_zero_iff.mp (by omega)
    subst this
    exact baseGo_of_none (stripOne_eq_none (by rintro c _ ⟨p, hp⟩; simp at hp)) m
  | succ n ih =>
    intro m t ht hm
    obtain ⟨m, rfl⟩ : ∃ m', m = m' + 1 := ⟨m - 1, by omega⟩
    unfold baseGo
    cases hs : stripOne convs t with
    | none => rfl
    | some bt =>
      obtain ⟨c, _, rfl⟩ := stripOne_some hs
      exact ih m bt (by simp only [List.length_append, List.length_cons] at ht; omega) (by omega)

/-- **C26** The recursion ends: allowing more steps than the name has characters changes
nothing. -/
theorem base_type_terminates (convs : List Str) (t : Str) (n : Nat) (h : t.length ≤ n) :
    baseGo convs n t = base convs t := baseGo_stable convs t.length n t (Nat.le_refl _) h

example : baseGo exConf.convs 100 "wic.zst".toList = "wic".toList := by decide

/-- **C26** The base type of a base type is itself. -/
theorem base_type_fixed (convs : List Str) (t bt : Str) (h : IsBase convs t bt) :
    base convs bt = bt := base_of_nosuffix h.2

example : IsBase exConf.convs "wic.gz".toList "wic".toList := by
  have := base_type_defined exConf.convs "wic.gz".toList
  have e : base exConf.convs "wic.gz".toList = "wic".toList := by decide
  rwa [e] at this

/-- **C26** If the conversion names contain no dots, there is only one base type, whatever the
order of the conversions. -/
theorem base_type_unique (convs : List Str) (hd : ∀ v ∈ convs, '.' ∉ v) (t bt : Str)
    (h : IsBase convs t bt) : base convs t = bt := (isBase_eq hd h).symm

/-! ## C27 -/

theorem reach_trans {c : Conf} {a b x : Str} (h : Reach c a b) (h' : Reach c b x) :
    Reach c a x := by
  induction h with
  | refl => exact h'
  | dep hd _ ih => exact .dep hd (ih h')
  | base _ ih => exact .base (ih h')

theorem needed_iff_reach {c : Conf} (hok : c.Ok) {req : List Str} {x : Str} :
    Needed c req x ↔ ∃ t ∈ req, Reach c t x := by
  constructor
  · intro h
    induction h with
    | req h => exact ⟨_, h, .refl⟩
    | dep _ hd ih =>
      obtain ⟨t, ht, hr⟩ := ih
      exact ⟨t, ht, reach_trans hr (.dep hd .refl)⟩
    | base _ hb ih =>
      obtain ⟨t, ht, hr⟩ := ih
      rw [isBase_eq hok.nodot hb]
      exact ⟨t, ht, reach_trans hr (.base .refl)⟩
  · rintro ⟨t, ht, hr⟩
    have aux : ∀ t x, Reach c t x → Needed c req t → Needed c req x := by
      intro t x hr
      induction hr with
      | refl => exact id
      | dep hd _ ih => exact fun h => ih (.dep h hd)
      | base _ ih => exact fun h => ih (.base h (base_isBase _ _))
    exact aux t x hr (.req ht)

theorem get_nil_of_not_key {d : List (Str × List Str)} {k : Str} (h : k ∉ d.map (·.1)) :
    get d k = [] := by
  induction d with
  | nil => rfl
  | cons e d ih =>
    obtain ⟨k0, vs⟩ := e
    simp only [List.map_cons, List.mem_cons, not_or] at h
    have : (k == k0) = false := by rw [beq_eq_false_iff_ne]; exact h.1
    unfold get at ih ⊢
    simp only [List.lookup_cons, this]
    exact ih h.2

/-- Everything known about a finished collection. -/
theorem collectAll_spec {c : Conf} (hok : c.Ok) {n : Nat} {req : List Str} {st : St}
    (h : collectAll c n req = some st) :
    (∀ t, Needed c req t → Done c st t) ∧ Within c (Needed c req) st ∧ Ordered st ∧
    (∀ t ∈ req, t ∈ st.types) := by
  unfold collectAll at h
  have h1 := forEach_all (fun a b => St.le a b) St.le_refl St.le_trans
    (fun t s => ∀ x, Reach c t x → Done c s x)
    (fun t a b hd hab x hx => (hd x hx).mono hab)
    (fun t _ s s' hc => collect_spec c n t s s' hc) h
  refine ⟨?_, ?_, ?_, ?_⟩
  · intro t ht
    obtain ⟨r, hr, hreach⟩ := (needed_iff_reach hok).mp ht
    exact h1.2 r hr t hreach
  · refine forEach_inv (Within c (Needed c req)) ?_ ?_ h
    · intro t ht a b hw hc
      exact collect_within c _ (fun _ _ h hd => .dep h hd)
        (fun t h => .base h (base_isBase _ t)) n t a b (.req ht) hw hc
    · refine ⟨?_, ?_, ?_, fun x hx => .req hx⟩ <;> simp [get]
  · have : Ordered st ∧ ∀ t ∈ req, t ∈ st.types := by
      refine forEach_inv (fun s : St => Ordered s ∧ ∀ t ∈ req, t ∈ s.types) ?_ ?_ h
      · intro t ht a b hw hc
        exact ⟨collect_ordered c n t a b hw.1 (Or.inl (hw.2 t ht)) hc,
          fun x hx => (collect_spec c n t a b hc).1.2.2 x (hw.2 x hx)⟩
      · refine ⟨?_, fun _ h => h⟩
        intro k
        simp [get]
    exact this.1
  · exact fun t ht => h1.1.2.2 t ht

/-- **C27** The types that are built are exactly the needed ones: those requested, those
something needed depends on, and the base types of the converted ones.  There is one task per
needed base type. -/
theorem needed_types_built (c : Conf) (hok : c.Ok) (n : Nat) (req : List Str) (st : St)
    (h : collectAll c n req = some st) :
    (∀ t, t ∈ get st.basetypes (base c.convs t) ↔ Needed c req t) ∧
    (∀ bt t, t ∈ get st.basetypes bt → IsBase c.convs t bt) ∧
    (∀ bt, bt ∈ st.basetypes.map (·.1) ↔ Needed c req bt ∧ base c.convs bt = bt) := by
  obtain ⟨hdone, hw, _, _⟩ := collectAll_spec hok h
  refine ⟨fun t => ⟨fun ht => (hw.1 _ t ht).1, fun ht => (hdone t ht).1⟩, ?_, ?_⟩
  · intro bt t ht
    rw [(hw.1 _ t ht).2]
    exact base_isBase _ _
  · intro bt
    refine ⟨hw.2.1 bt, ?_⟩
    rintro ⟨hn, hb⟩
    have := (hdone bt hn).1
    rw [hb] at this
    apply Classical.byContradiction
    intro hk
    rw [get_nil_of_not_key hk] at this
    simp at this

/-- **C27** If dependencies do not form cycles (each type has a larger rank than what it
depends on or is made from), the collection ends. -/
theorem needed_types_terminates (c : Conf) (rank : Str → Nat)
    (hdep : ∀ t d, d ∈ c.deps t → rank d < rank t)
    (hbase : ∀ t, base c.convs t ≠ t → rank (base c.convs t) < rank t)
    (req : List Str) (n : Nat) (hn : ∀ t ∈ req, rank t < n) :
    ∃ st, collectAll c n req = some st :=
  forEach_some (fun t ht s => collect_total c rank hdep hbase n t (hn t ht) s) _

theorem base_length_lt (convs : List Str) (t : Str) (h : base convs t ≠ t) :
    (base convs t).length < t.length := by
  obtain ⟨⟨cs, _, ht⟩, _⟩ := base_isBase convs t
  cases cs with
  | nil =>
    simp only [List.flatMap_nil, List.append_nil] at ht
    exact absurd ht.symm h
  | cons c cs =>
    have := congrArg List.length ht
    simp only [List.length_append, List.flatMap_cons, List.length_cons] at this
    omega

example : ∃ st, collectAll exConf 20 ["ova".toList, "ext4.gz".toList] = some st := by
  refine needed_types_terminates exConf
    (fun t => 2 * t.length + if clean t = "ova".toList then 1 else 0) ?_ ?_ _ _ ?_
  · intro t d hd
    unfold Conf.deps exConf at hd
    dsimp only at hd
    split at hd
    · rename_i h
      have hl : t.length = 3 := by
        have := congrArg List.length h
        simpa [clean] using this
      rw [if_pos h, List.mem_singleton.mp hd, hl]
      decide
    · simp at hd
  · intro t ht
    have := base_length_lt _ _ ht
    split <;> split <;> omega
  · decide

example : (collectAll exConf 20 ["ova".toList, "ext4.gz".toList]).map
    (fun st => st.basetypes.map (·.1)) =
    some ["ova".toList, "wic".toList, "ext4".toList] := by decide

/-- **C27** Without that assumption the collection does not end: a type that depends on itself
is never finished. -/
theorem needed_types_cycle (n : Nat) :
    collectAll { exConf with typedep := fun _ => ["wic".toList] } n ["wic".toList] = none := by
  have key : ∀ n s, collect { exConf with typedep := fun _ => ["wic".toList] } n
      "wic".toList s = none := by
    intro n
    induction n with
    | zero => intro s; rfl
    | succ n ih =>
      intro s
      unfold collect
      simp only [Conf.deps, forEach, ih, Option.map_none]
  simp only [collectAll, forEach, key]

/-! ## C54 -/

/-- **C54** The task of a base type runs after the tasks of exactly those base types that one
of its types depends on. -/
theorem tasks_after_dependencies (c : Conf) (hok : c.Ok) (n : Nat) (req : List Str) (st : St)
    (h : collectAll c n req = some st) (bt task : Str) :
    task ∈ taskAfter st bt ↔ ∃ t d, Needed c req t ∧ IsBase c.convs t bt ∧ d ∈ c.deps t ∧
      ∃ db, IsBase c.convs d db ∧ task = "do_image_".toList ++ clean db := by
  obtain ⟨hdone, hw, _, _⟩ := collectAll_spec hok h
  unfold taskAfter
  rw [List.mem_map]
  constructor
  · rintro ⟨b, hb, rfl⟩
    obtain ⟨t, d, ht, hd, hk, hbd⟩ := hw.2.2.1 bt b hb
    exact ⟨t, d, ht, by rw [hk]; exact base_isBase _ _, hd, b,
      by rw [hbd]; exact base_isBase _ _, rfl⟩
  · rintro ⟨t, d, ht, hbt, hd, db, hdb, rfl⟩
    refine ⟨db, ?_, rfl⟩
    rw [isBase_eq hok.nodot hbt, isBase_eq hok.nodot hdb]
    exact ((hdone t ht).2 d hd).2

example : (collectAll exConf 20 ["ova.gz".toList]).map (taskAfter · "ova".toList) =
    some ["do_image_wic".toList] := by decide

/-! ## C28, C29 -/

theorem chain_base {cf : Conf} {types : List Str} {bt : Str} {ex top : Str → Prop} {st : Cmds}
    {fs : List Str} (hi : InvE cf types bt ex top st fs) :
    ∀ n x, x.length ≤ n → x ∈ fs → x ≠ bt → ∃ c, .convert bt c ∈ st.steps := by
  intro n
  induction n with
  | zero =>
    intro x hx hmem hne
    rcases hi.src x hmem with rfl | ⟨t, c, rfl, _⟩
    · exact absurd rfl hne
    · simp at hx
  | succ n ih =>
    intro x hx hmem hne
    rcases hi.src x hmem with rfl | ⟨t, c, rfl, hc⟩
    · exact absurd rfl hne
    · by_cases ht : t = bt
      · subst ht; exact ⟨c, hc⟩
      · refine ih t ?_ (hi.made _ _ hc).2.1 ht
        simp only [List.length_append, List.length_cons] at hx; omega

/-- The state before the last lines, for a collected base type. -/
theorem task_inv {c : Conf} (hok : c.Ok) {n : Nat} {req : List Str} {st : St}
    (h : collectAll c n req = some st) {bt : Str} (hbt : Needed c req bt)
    (hb : base c.convs bt = bt) :
    let cm := (get st.basetypes bt).foldl (fun s t => create c st.types t s) ⟨[.build bt], []⟩
    ∃ fs, Inv c st.types bt (fun x => False ∨ x ∈ get st.basetypes bt) cm fs ∧
      (∀ t ∈ get st.basetypes bt, t ∈ fs) ∧ (bt ∈ st.types ∨ bt ∈ cm.rms) := by
  intro cm
  obtain ⟨hdone, hw, hord, _⟩ := collectAll_spec hok h
  obtain ⟨fs, h1, _, h3, _⟩ := foldl_inv hok (types := st.types) (bt := bt)
    (get st.basetypes bt) ⟨[.build bt], []⟩ [bt] (fun _ => False)
    (fun t ht => ((hw.1 _ t ht).2).symm)
    { runs := rfl, bt_mem := by simp, made := by simp, base_eq := by simpa using hb,
      nodup := by simp, norm := by simp, rms_nodup := by simp, rms := by simp,
      acc := by simp, src := by simp, inp := by simp }
  refine ⟨fs, h1, h3, ?_⟩
  by_cases hty : bt ∈ st.types
  · exact Or.inl hty
  · have hmem := (hdone bt hbt).1
    rw [hb] at hmem
    obtain ⟨hd, tl, hl⟩ : ∃ hd tl, get st.basetypes bt = hd :: tl :=
      List.exists_cons_of_ne_nil (List.ne_nil_of_mem hmem)
    have hne : hd ≠ bt := by
      rintro rfl
      exact hty ((hord hd).2.2 (by rw [hl]; rfl))
    obtain ⟨c', hc'⟩ := chain_base h1 _ hd (Nat.le_refl _) (h3 hd (by rw [hl]; simp)) hne
    rcases h1.inp _ _ hc' with h | h | h
    · exact Or.inl h
    · exact Or.inr h
    · exact h.elim

/-- What a task leaves behind. -/
theorem task_files {c : Conf} (hok : c.Ok) {n : Nat} {req : List Str} {st : St}
    (h : collectAll c n req = some st) {bt : Str} (hbt : Needed c req bt)
    (hb : base c.convs bt = bt) :
    ∃ fs, run (taskSteps c st.types bt (get st.basetypes bt)) [] = some fs ∧
      ∀ x, x ∈ fs ↔ x ∈ st.types ∧ base c.convs x = bt ∧
        ¬ (bt ∉ st.types ∧ (get st.basetypes bt).getLast? = some x) := by
  obtain ⟨hdone, hw, hord, _⟩ := collectAll_spec hok h
  obtain ⟨fs, hi, hts, hbr⟩ := task_inv hok h hbt hb
  unfold taskSteps
  dsimp only
  generalize hcm : (get st.basetypes bt).foldl (fun s t => create c st.types t s)
    ⟨[.build bt], []⟩ = cm at hi hbr
  -- the files in terms of the types
  have hfs : ∀ x, x ∈ fs ∧ x ∉ cm.rms ↔ x ∈ st.types ∧ base c.convs x = bt := by
    intro x
    constructor
    · rintro ⟨hx, hr⟩
      refine ⟨?_, hi.base_eq x hx⟩
      rcases hi.acc x hx with rfl | h | h | h | h
      · exact hbr.resolve_right hr
      · exact h
      · exact absurd h hr
      · exact h.elim
      · rcases (hord bt).2.1 x h with h | rfl
        · exact h
        · exact hbr.resolve_right hr
    · rintro ⟨hx, hbx⟩
      have := (hdone x (hw.2.2.2 x hx)).1
      rw [hbx] at this
      exact ⟨hts x this, fun hr => (hi.rms x hr).2 hx⟩
  by_cases hty : bt ∈ st.types
  · rw [if_pos hty]
    obtain ⟨fs', h1, h2⟩ := run_rms cm.rms fs hi.rms_nodup (fun x hx => (hi.rms x hx).1)
    refine ⟨fs', ?_, ?_⟩
    · rw [run_append, hi.runs]; exact h1
    · intro x
      rw [h2, hfs]
      simp [hty]
  · rw [if_neg hty]
    cases hlast : (get st.basetypes bt).getLast? with
    | none =>
      have hmem := (hdone bt hbt).1
      rw [hb, List.getLast?_eq_none_iff.mp hlast] at hmem
      simp at hmem
    | some l =>
      have hl : l ∈ get st.basetypes bt := List.mem_of_getLast? hlast
      dsimp only
      split
      · rename_i hr
        obtain ⟨fs', h1, h2⟩ := run_rms cm.rms fs hi.rms_nodup (fun x hx => (hi.rms x hx).1)
        refine ⟨fs', ?_, ?_⟩
        · rw [run_append, hi.runs]; exact h1
        · intro x
          rw [h2, hfs]
          constructor
          · rintro ⟨ha, hb'⟩
            refine ⟨ha, hb', ?_⟩
            rintro ⟨_, hx⟩
            obtain rfl : l = x := by simpa using hx
            exact (hi.rms l hr).2 ha
          · exact fun hx => ⟨hx.1, hx.2.1⟩
      · rename_i hr
        obtain ⟨fs', h1, h2⟩ := run_rms (cm.rms ++ [l]) fs (by
          rw [List.nodup_append]
          refine ⟨hi.rms_nodup, by simp, ?_⟩
          intro a ha b hb
          rw [List.mem_singleton.mp hb]
          rintro rfl
          exact hr ha) (by
          intro x hx
          rcases List.mem_append.mp hx with hx | hx
          · exact (hi.rms x hx).1
          · rw [List.mem_singleton.mp hx]; exact hts l hl)
        refine ⟨fs', ?_, ?_⟩
        · rw [run_append, hi.runs]; exact h1
        · intro x
          rw [h2, List.mem_append, not_or, ← and_assoc, hfs]
          simp only [List.mem_singleton, Option.some.injEq, hty, not_false_eq_true, true_and,
            and_assoc, eq_comm]

/-- **C28** (partial: for base types that are needed for themselves, and for those with only
one converted type)  After the task of a base type, exactly those of its image files exist that
were requested or that something depends on: no requested image is deleted, and no temporary
image is left.

Missing: base types that are not needed for themselves but have two or more needed conversions.
There one needed image is deleted, see `requested_image_deleted`. -/
theorem requested_images_kept_partial (c : Conf) (hok : c.Ok) (n : Nat) (req : List Str) (st : St)
    (h : collectAll c n req = some st) (bt : Str) (hbt : Needed c req bt)
    (hb : base c.convs bt = bt)
    (hone : bt ∈ st.types ∨ ∀ x y, x ∈ st.types → y ∈ st.types → IsBase c.convs x bt →
      IsBase c.convs y bt → x = y) :
    ∃ fs, run (taskSteps c st.types bt (get st.basetypes bt)) [] = some fs ∧
      ∀ x, x ∈ fs ↔ x ∈ st.types ∧ IsBase c.convs x bt := by
  obtain ⟨hdone, hw, hord, _⟩ := collectAll_spec hok h
  obtain ⟨fs, hrun, hfs⟩ := task_files hok h hbt hb
  refine ⟨fs, hrun, ?_⟩
  intro x
  rw [hfs]
  constructor
  · rintro ⟨h1, h2, _⟩
    exact ⟨h1, by rw [← h2]; exact base_isBase _ _⟩
  · rintro ⟨h1, h2⟩
    have hbx := (isBase_eq hok.nodot h2).symm
    refine ⟨h1, hbx, ?_⟩
    rintro ⟨hnot, hlast⟩
    rcases hone with hone | hone
    · exact hnot hone
    · -- the list is [x, bt]
      obtain ⟨hnd, hall, hhead⟩ := hord bt
      have hmem := (hdone bt hbt).1
      rw [hb] at hmem
      obtain ⟨hd, tl, hl⟩ : ∃ hd tl, get st.basetypes bt = hd :: tl :=
        List.exists_cons_of_ne_nil (List.ne_nil_of_mem hmem)
      have hhd : hd = x := by
        have hm : hd ∈ get st.basetypes bt := by rw [hl]; simp
        rcases hall hd hm with h | h
        · exact hone hd x h h1 (by rw [(hw.1 _ hd hm).2]; exact base_isBase _ _) h2
        · subst h
          exact absurd (hhead (by rw [hl]; rfl)) hnot
      subst hhd
      have hne : hd ≠ bt := by rintro rfl; exact hnot h1
      rw [hl] at hmem hlast hnd
      have htl : bt ∈ tl := by
        rcases List.mem_cons.mp hmem with h | h
        · exact absurd h.symm hne
        · exact h
      obtain ⟨a, tl', rfl⟩ : ∃ a tl', tl = a :: tl' :=
        List.exists_cons_of_ne_nil (List.ne_nil_of_mem htl)
      rw [List.getLast?_cons_cons] at hlast
      rw [List.nodup_cons] at hnd
      exact hnd.1 (List.mem_of_getLast? hlast)

example : (collectAll exConf 20 ["ova".toList, "ext4.gz".toList]).map (fun st =>
    (["ova".toList, "wic".toList, "ext4".toList].map fun bt =>
      run (taskSteps exConf st.types bt (get st.basetypes bt)) [])) =
    some [some ["ova".toList], some ["wic".toList], some ["ext4.gz".toList]] := by
  decide

/-- **C28** is false in general: for `IMAGE_FSTYPES = "ext4.gz ext4.xz"` the image `ext4.xz` is
deleted at the end of the task that creates it. -/
theorem requested_image_deleted :
    ∃ st, collectAll exConf 20 ["ext4.gz".toList, "ext4.xz".toList] = some st ∧
      taskSteps exConf st.types "ext4".toList (get st.basetypes "ext4".toList) =
        [.build "ext4".toList, .convert "ext4".toList "gz".toList,
         .convert "ext4".toList "xz".toList, .rm "ext4".toList, .rm "ext4.xz".toList] := by
  refine ⟨_, rfl, ?_⟩
  decide

/-- **C29** The commands of a task can be executed in their order: every conversion finds its
input, every file that is removed exists; no command occurs twice; every needed type with this
base type is created by one of the commands. -/
theorem conversions_in_order (c : Conf) (hok : c.Ok) (n : Nat) (req : List Str) (st : St)
    (h : collectAll c n req = some st) (bt : Str) (hbt : Needed c req bt)
    (hb : base c.convs bt = bt) :
    (∃ fs, run (taskSteps c st.types bt (get st.basetypes bt)) [] = some fs) ∧
    (taskSteps c st.types bt (get st.basetypes bt)).Nodup ∧
    (∀ t, Needed c req t → IsBase c.convs t bt →
      t = bt ∧ .build bt ∈ taskSteps c st.types bt (get st.basetypes bt) ∨
      ∃ p v, v ∈ c.convs ∧ t = p ++ '.' :: v ∧
        .convert p v ∈ taskSteps c st.types bt (get st.basetypes bt)) := by
  obtain ⟨hdone, hw, hord, _⟩ := collectAll_spec hok h
  obtain ⟨fs, hi, hts, hbr⟩ := task_inv hok h hbt hb
  obtain ⟨fs', hrun, _⟩ := task_files hok h hbt hb
  refine ⟨⟨fs', hrun⟩, ?_, ?_⟩
  · unfold taskSteps
    dsimp only
    rw [List.nodup_append]
    refine ⟨hi.nodup, ?_, ?_⟩
    · refine List.Pairwise.map _ (R := (· ≠ ·)) (by
        intro a b hab heq; exact hab (Step.rm.inj heq)) ?_
      split
      · exact hi.rms_nodup
      · split
        · exact hi.rms_nodup
        · split
          · exact hi.rms_nodup
          · rename_i hr
            show List.Nodup _
            rw [List.nodup_append]
            refine ⟨hi.rms_nodup, by simp, ?_⟩
            intro a ha b hb
            rw [List.mem_singleton.mp hb]
            rintro rfl
            exact hr ha
    · intro a ha b hb heq
      obtain ⟨r, _, hr⟩ := List.mem_map.mp hb
      subst heq
      rw [← hr] at ha
      exact hi.norm _ ha
  · intro t ht hbase
    have hm := (hdone t ht).1
    rw [← isBase_eq hok.nodot hbase] at hm
    have hmf := hts t hm
    rcases hi.src t hmf with h | ⟨p, v, hp, hc⟩
    · left
      refine ⟨h, ?_⟩
      unfold taskSteps
      apply List.mem_append_left
      -- the first command stays
      have hpre : ∀ (cs : List Str) self types t (s : Cmds), (∀ t s, Step.build bt ∈ s.steps →
          Step.build bt ∈ (self t s : Cmds).steps) → Step.build bt ∈ s.steps →
          Step.build bt ∈ (createLoop self types cs t s).steps := by
        intro cs
        induction cs with
        | nil => intro self types t s _ h; exact h
        | cons c cs ih =>
          intro self types t s hself hs
          unfold createLoop
          split
          · dsimp only
            apply ih _ _ _ _ hself
            have h1 := hself (t.take (t.length - (c.length + 1))) s hs
            split <;> split <;> first | exact h1 | exact List.mem_append_left _ h1
          · exact ih _ _ _ _ hself hs
      have hgo : ∀ k t (s : Cmds), Step.build bt ∈ s.steps →
          Step.build bt ∈ (createGo c st.types k t s).steps := by
        intro k
        induction k with
        | zero => intro t s h; exact h
        | succ k ih => intro t s h; exact hpre _ _ _ _ _ ih h
      have hfold : ∀ (ts : List Str) (s : Cmds), Step.build bt ∈ s.steps →
          Step.build bt ∈ (ts.foldl (fun s t => create c st.types t s) s).steps := by
        intro ts
        induction ts with
        | nil => intro s h; exact h
        | cons t ts ih => intro s h; exact ih _ (hgo _ _ _ h)
      exact hfold _ _ (by simp)
    · right
      refine ⟨p, v, (hi.made _ _ hc).1, hp, ?_⟩
      unfold taskSteps
      exact List.mem_append_left _ hc

example : (collectAll exConf 20 ["ext4.xz.gz".toList]).map (fun st =>
    taskSteps exConf st.types "ext4".toList (get st.basetypes "ext4".toList)) =
    some [.build "ext4".toList, .convert "ext4".toList "xz".toList,
      .convert "ext4.xz".toList "gz".toList, .rm "ext4".toList, .rm "ext4.xz".toList] := by
  decide

/-! ## C55 -/

/-- What `recurse` follows. -/
inductive ReachB (c : Conf) : Str → Str → Prop
  | base {t} : ReachB c t (base c.convs t)
  | dep {t d x} : d ∈ c.deps (base c.convs t) → ReachB c d x → ReachB c t x

theorem forEach_acc {α β} {f : α → Option (List β)} : ∀ (l : List α) (acc r : List β),
    forEach (fun a acc => (f a).map (acc ++ ·)) l acc = some r →
    ∀ x, x ∈ r ↔ x ∈ acc ∨ ∃ a ∈ l, ∃ ys, f a = some ys ∧ x ∈ ys := by
  intro l
  induction l with
  | nil => intro acc r h x; cases h; simp
  | cons a l ih =>
    intro acc r h x
    unfold forEach at h
    cases hf : f a with
    | none => simp [hf] at h
    | some ys =>
      rw [hf] at h
      rw [ih _ _ h x, List.mem_append]
      constructor
      · rintro ((h | h) | ⟨b, hb, h⟩)
        · exact Or.inl h
        · exact Or.inr ⟨a, by simp, ys, hf, h⟩
        · exact Or.inr ⟨b, List.mem_cons_of_mem _ hb, h⟩
      · rintro (h | ⟨b, hb, zs, hz, hx⟩)
        · exact Or.inl (Or.inl h)
        · rcases List.mem_cons.mp hb with rfl | hb
          · rw [hf] at hz; cases hz; exact Or.inl (Or.inr hx)
          · exact Or.inr ⟨b, hb, zs, hz, hx⟩

theorem forEach_acc_all {α β} {f : α → Option (List β)} : ∀ (l : List α) (acc r : List β),
    forEach (fun a acc => (f a).map (acc ++ ·)) l acc = some r →
    ∀ a ∈ l, ∃ ys, f a = some ys := by
  intro l
  induction l with
  | nil => intro acc r _ a ha; simp at ha
  | cons a l ih =>
    intro acc r h b hb
    unfold forEach at h
    cases hf : f a with
    | none => simp [hf] at h
    | some ys =>
      rw [hf] at h
      rcases List.mem_cons.mp hb with rfl | hb
      · exact ⟨ys, hf⟩
      · exact ih _ _ h b hb

theorem recurse_spec (c : Conf) : ∀ n t r, recurse c n t = some r →
    ∀ x, x ∈ r ↔ ReachB c t x := by
  intro n
  induction n with
  | zero => intro t r h; simp [recurse] at h
  | succ n ih =>
    intro t r h x
    unfold recurse at h
    dsimp only at h
    rw [forEach_acc _ _ _ h x]
    constructor
    · rintro (h | ⟨d, hd, ys, hy, hx⟩)
      · rw [List.mem_singleton.mp h]; exact .base
      · exact .dep hd ((ih d ys hy x).mp hx)
    · intro hr
      cases hr with
      | base => exact Or.inl (by simp)
      | dep hd hx =>
        obtain ⟨ys, hy⟩ := forEach_acc_all _ _ _ h _ hd
        exact Or.inr ⟨_, hd, ys, hy, (ih _ ys hy x).mpr hx⟩

/-- **C55** (partial: for dependencies that are declared for base types only)
`IMAGE_BASETYPES` lists exactly the base types for which there is a task.

Missing: dependencies declared for a converted type, see `basetypes_incomplete`. -/
theorem basetypes_exact_partial (c : Conf) (hok : c.Ok) (n m : Nat) (req r : List Str) (st : St)
    (hdep : ∀ t, base c.convs t ≠ t → c.deps t = [])
    (h : collectAll c n req = some st) (hr : imageBasetypes c m req = some r) (bt : Str) :
    bt ∈ r ↔ bt ∈ st.basetypes.map (·.1) := by
  rw [(needed_types_built c hok n req st h).2.2 bt, needed_iff_reach hok]
  unfold imageBasetypes at hr
  rw [forEach_acc _ _ _ hr bt]
  have hB : ∀ t x, ReachB c t x → Reach c t x ∧ base c.convs x = x := by
    intro t x hx
    induction hx with
    | base => exact ⟨.base .refl, base_base _ _⟩
    | dep hd _ ih => exact ⟨.base (.dep hd ih.1), ih.2⟩
  have hR : ∀ t x, Reach c t x → base c.convs x = x → ReachB c t x := by
    intro t x hx
    induction hx with
    | @refl t =>
      intro hb
      have := ReachB.base (c := c) (t := t)
      rwa [hb] at this
    | @dep t d x hd _ ih =>
      intro hb
      by_cases ht : base c.convs t = t
      · exact .dep (by rw [ht]; exact hd) (ih hb)
      · rw [hdep t ht] at hd; simp at hd
    | @base t x _ ih =>
      intro hb
      have := ih hb
      cases this with
      | base => rw [base_base]; exact .base
      | dep hd hx => rw [base_base] at hd; exact .dep hd hx
  constructor
  · rintro (h | ⟨t, ht, ys, hy, hx⟩)
    · simp at h
    · have := hB t bt ((recurse_spec c m t ys hy bt).mp hx)
      exact ⟨⟨t, ht, this.1⟩, this.2⟩
  · rintro ⟨⟨t, ht, hx⟩, hb⟩
    obtain ⟨ys, hy⟩ := forEach_acc_all _ _ _ hr t ht
    exact Or.inr ⟨t, ht, ys, hy, (recurse_spec c m t ys hy bt).mpr (hR t bt hx hb)⟩

example : imageBasetypes exConf 5 ["ova.gz".toList] = some ["ova".toList, "wic".toList] := by
  decide

/-- **C55** is false in general: a dependency of a converted type is built but not listed. -/
theorem basetypes_incomplete :
    let c : Conf := { exConf with
      typedep := fun t => if t = "ext4_gz".toList then ["wic".toList] else [] }
    imageBasetypes c 5 ["ext4.gz".toList] = some ["ext4".toList] ∧
    (collectAll c 5 ["ext4.gz".toList]).map (fun st => st.basetypes.map (·.1)) =
      some ["ext4".toList, "wic".toList] := by decide

/-! ## C56 -/

/-- **C56** (partial: for names without `-` and `.`) Different base types have different tasks.

Missing: names that differ only in `-`, `.` and `_`, see `task_names_collide`. -/
theorem task_names_distinct_partial (a b : Str) (ha : '-' ∉ a ∧ '.' ∉ a) (hb : '-' ∉ b ∧ '.' ∉ b)
    (h : "do_image_".toList ++ clean a = "do_image_".toList ++ clean b) : a = b := by
  have key : ∀ t : Str, '-' ∉ t ∧ '.' ∉ t → clean t = t := by
    intro t ⟨h1, h2⟩
    induction t with
    | nil => rfl
    | cons c t ih =>
      simp only [List.mem_cons, not_or] at h1 h2
      have hc : ¬ (c = '-' ∨ c = '.') := by
        rintro (rfl | rfl)
        · exact h1.1 rfl
        · exact h2.1 rfl
      show (if c = '-' ∨ c = '.' then '_' else c) :: clean t = c :: t
      rw [if_neg hc, ih h1.2 h2.2]
  have := List.append_cancel_left h
  rwa [key a ha, key b hb] at this

example : ('-' ∉ "ext4".toList ∧ '.' ∉ "ext4".toList) := by decide

/-- **C56** is false in general: two base types share a task name, so that the task of the
second replaces that of the first. -/
theorem task_names_collide : clean "oci-archive".toList = clean "oci.archive".toList ∧
    "oci-archive".toList ≠ "oci.archive".toList := by decide

end Isar.ImageTypes
