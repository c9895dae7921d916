import Verif.Meta.SsNameModel
/-!
# Properties of the names of archives, and of which are needed
-/

namespace Meta.SsName
open Py

/-! ## The name fits, and the record is beside the archive -/

theorem tail_siginfo (hash task : Str) :
    tail hash task true = tail hash task false ++ ".siginfo".toList := by
  unfold tail extension
  rw [if_pos rfl, if_neg (by decide), List.append_assoc _ ".tar.zst".toList]
  rfl

theorem tail_length (hash task : Str) :
    (tail hash task true).length = (tail hash task false).length + 8 := by
  rw [tail_siginfo, List.length_append]; rfl

theorem limit_siginfo : limit true = limit false + 8 := rfl

theorem too_long_iff (spec hash task : Str) :
    (spec ++ tail hash task true).length > limit true ↔
      (spec ++ tail hash task false).length > limit false := by
  rw [List.length_append, List.length_append, tail_length, limit_siginfo]
  omega

theorem shorten_siginfo (spec hash task : Str) :
    shorten spec hash task true = shorten spec hash task false := by
  unfold shorten
  rw [tail_length, limit_siginfo]
  have e : ∀ a b c d f : Nat, (((limit false + 8 : Nat) : Int) - ((a + 8 : Nat) : Int) - b - c - d - f - 7) =
      ((limit false : Nat) : Int) - (a : Int) - b - c - d - f - 7 := by
    intro a b c d f; omega
  split
  · dsimp only
    rw [e]
  · rfl

theorem place_append (hash fn e : Str) : place hash (fn ++ e) = place hash fn ++ e := by
  unfold place
  rw [List.append_assoc, List.append_assoc, List.append_assoc, List.append_assoc, List.append_assoc,
    List.append_assoc, List.append_assoc]

/-- **C108.**  The signature file of an archive has the name of the archive with `.siginfo` at the end,
also if the name is shortened; and there is no name for one of them only. -/
theorem siginfo_beside (spec hash task : Str) :
    sstatefn spec hash task true = (sstatefn spec hash task false).map (· ++ ".siginfo".toList) := by
  unfold sstatefn
  dsimp only
  by_cases h : (spec ++ tail (hashOr hash) task false).length > limit false
  · rw [if_pos ((too_long_iff _ _ _).2 h), if_pos h, shorten_siginfo]
    cases shorten spec (hashOr hash) task false with
    | error e => rfl
    | ok s =>
      dsimp only
      by_cases h2 : (s ++ tail (hashOr hash) task false).length > limit false
      · rw [if_pos ((too_long_iff _ _ _).2 h2), if_pos h2]; rfl
      · rw [if_neg (fun c => h2 ((too_long_iff _ _ _).1 c)), if_neg h2, tail_siginfo,
          ← List.append_assoc, place_append]
        rfl
  · rw [if_neg (fun c => h ((too_long_iff _ _ _).1 c)), if_neg h, tail_siginfo, ← List.append_assoc,
      place_append]
    rfl

/-- The name is made from a specification, which is the given one or the shortened one. -/
theorem sstatefn_ok {spec hash task p : Str} {siginfo : Bool} (h : sstatefn spec hash task siginfo = .ok p) :
    ∃ s, p = place (hashOr hash) (s ++ tail (hashOr hash) task siginfo) ∧
      (s ++ tail (hashOr hash) task siginfo).length ≤ limit siginfo ∧
      (s = spec ∨ shorten spec (hashOr hash) task siginfo = .ok s) := by
  unfold sstatefn at h
  dsimp only at h
  by_cases h1 : (spec ++ tail (hashOr hash) task siginfo).length > limit siginfo
  · rw [if_pos h1] at h
    cases hs : shorten spec (hashOr hash) task siginfo with
    | error e => rw [hs] at h; cases h
    | ok s =>
      rw [hs] at h
      dsimp only at h
      by_cases h2 : (s ++ tail (hashOr hash) task siginfo).length > limit siginfo
      · rw [if_pos h2] at h; cases h
      · rw [if_neg h2] at h
        exact ⟨s, (Except.ok.inj h).symm, by omega, Or.inr rfl⟩
  · rw [if_neg h1] at h
    exact ⟨spec, (Except.ok.inj h).symm, by omega, Or.inl rfl⟩

/-- **C108.**  The name of an archive and that of its signature file have at most 254 characters, below
two directories with at most two characters each. -/
theorem name_fits (spec hash task p : Str) (h : sstatefn spec hash task false = .ok p) :
    ∃ a b fn, p = a ++ "/".toList ++ b ++ "/".toList ++ fn ∧ a.length ≤ 2 ∧ b.length ≤ 2 ∧
      (fn ++ ".siginfo".toList).length ≤ 254 := by
  obtain ⟨s, e, hl, _⟩ := sstatefn_ok h
  have h2 : limit false = 246 := rfl
  rw [h2] at hl
  refine ⟨_, _, _, e, ?_, ?_, ?_⟩
  · rw [List.length_take]; omega
  · rw [List.length_take]; omega
  · rw [List.length_append]
    show _ + 8 ≤ 254
    omega

theorem upTo_length {s : Str} {n : Int} (h : 0 ≤ n) : (upTo s n).length ≤ n.toNat := by
  unfold upTo
  rw [if_pos h, List.length_take]
  omega

theorem splitOn_join8 (c0 c1 c2 c3 c4 c5 c6 c7 : Str)
    (h : ∀ c, c ∈ [c0, c1, c2, c3, c4, c5, c6, c7] → ':' ∉ c) :
    splitOn ':' (join ":".toList [c0, c1, c2, c3, c4, c5, c6, c7]) = [c0, c1, c2, c3, c4, c5, c6, c7] := by
  have g : ∀ a b : Str, a ++ ":".toList ++ b = a ++ ':' :: b := fun a b => by
    rw [List.append_assoc]; rfl
  simp only [List.mem_cons, List.not_mem_nil, or_false, forall_eq_or_imp, forall_eq] at h
  obtain ⟨h0, h1, h2, h3, h4, h5, h6, h7⟩ := h
  simp only [join, g]
  rw [splitOn_append, splitOn_append, splitOn_append, splitOn_append, splitOn_append, splitOn_append,
    splitOn_append, splitOn_clean ':' c0 h0, splitOn_clean ':' c1 h1, splitOn_clean ':' c2 h2,
    splitOn_clean ':' c3 h3, splitOn_clean ':' c4 h4, splitOn_clean ':' c5 h5, splitOn_clean ':' c6 h6,
    splitOn_clean ':' c7 h7]
  rfl

/-- A specification as in the configuration: `sstate`, recipe, target, version, revision, architecture and
version of the cache. -/
def specOf (c : Fin 7 → Str) : Str :=
  join ":".toList [c 0, c 1, c 2, c 3, c 4, c 5, c 6, []]

/-- **C108.**  There is a name whenever the fields that may not be cut leave room for it; these fields are
in it as they are, and of the others at least the beginning. -/
theorem name_exists (c : Fin 7 → Str) (hash task : Str) (hc : ∀ i, ':' ∉ c i) (hh : hash ≠ [])
    (hl : (c 0).length + (c 1).length + (c 5).length + (c 6).length + 7 + hash.length + 1 + task.length + 8
      ≤ 246) :
    ∃ dir x y z, sstatefn (specOf c) hash task false =
        .ok (dir ++ join ":".toList [c 0, c 1, x, y, z, c 5, c 6, hash ++ "_".toList ++ task ++
          ".tar.zst".toList]) ∧
      x <+: c 2 ∧ y <+: c 3 ∧ z <+: c 4 := by
  have hT : (tail hash task false).length = hash.length + 1 + task.length + 8 := by
    unfold tail extension
    rw [if_neg (by decide), List.length_append, List.length_append, List.length_append]
    rfl
  have hj : ∀ x y z t : Str, join ":".toList [c 0, c 1, x, y, z, c 5, c 6, []] ++ t =
      join ":".toList [c 0, c 1, x, y, z, c 5, c 6, t] := by
    intro x y z t
    simp only [join, List.append_assoc, List.append_nil]
  have hp : ∀ fn, place hash fn = (hash.take 2 ++ "/".toList ++ (hash.drop 2).take 2 ++ "/".toList) ++ fn :=
    fun _ => rfl
  have hT' : tail hash task false = hash ++ "_".toList ++ task ++ ".tar.zst".toList := rfl
  unfold sstatefn
  rw [show hashOr hash = hash from if_neg hh]
  dsimp only
  by_cases h : (specOf c ++ tail hash task false).length > limit false
  · rw [if_pos h]
    have hs : splitOn ':' (specOf c) = [c 0, c 1, c 2, c 3, c 4, c 5, c 6, []] := by
      refine splitOn_join8 _ _ _ _ _ _ _ _ fun d hd => ?_
      simp only [List.mem_cons, List.not_mem_nil, or_false] at hd
      rcases hd with rfl | rfl | rfl | rfl | rfl | rfl | rfl | rfl
      · exact hc 0
      · exact hc 1
      · exact hc 2
      · exact hc 3
      · exact hc 4
      · exact hc 5
      · exact hc 6
      · exact fun h => nomatch h
    unfold shorten
    rw [hs]
    dsimp only
    generalize ha : ((limit false : Int) - (tail hash task false).length - (c 0).length - (c 1).length -
      (c 5).length - (c 6).length - 7) / 3 = avail
    have hlim : limit false = 246 := rfl
    rw [hlim, hT] at ha
    have h0 : 0 ≤ avail := by omega
    have hx := upTo_length (s := c 2) h0
    have hy := upTo_length (s := c 3) h0
    have hz := upTo_length (s := c 4) h0
    have hpre : ∀ s : Str, upTo s avail <+: s := fun s => by
      unfold upTo
      rw [if_pos h0]
      exact List.take_prefix _ _
    rw [if_neg]
    · exact ⟨_, upTo (c 2) avail, upTo (c 3) avail, upTo (c 4) avail, by rw [hp, hj, ← hT'],
        hpre _, hpre _, hpre _⟩
    · rw [hlim, List.length_append, hT]
      have hlen : (join ":".toList [c 0, c 1, upTo (c 2) avail, upTo (c 3) avail, upTo (c 4) avail, c 5,
          c 6, []]).length = (c 0).length + (c 1).length + (upTo (c 2) avail).length +
            (upTo (c 3) avail).length + (upTo (c 4) avail).length + (c 5).length + (c 6).length + 7 := by
        have e : ":".toList.length = 1 := rfl
        simp only [join, List.length_append, e, List.length_nil]
        omega
      rw [hlen]
      omega
  · rw [if_neg h]
    refine ⟨hash.take 2 ++ "/".toList ++ (hash.drop 2).take 2 ++ "/".toList, c 2, c 3, c 4, ?_, List.prefix_rfl, List.prefix_rfl, List.prefix_rfl⟩
    rw [hp, ← hT', ← hj]
    rfl

/-! ## Different tasks have different names -/

/-- The specification ends with a colon. -/
def EndsColon (s : Str) : Prop := ∃ a, s = a ++ [':']

theorem join_snoc_colon (as : List Str) (b : Str) (h : as ≠ []) :
    join [':'] (as ++ [b]) = join [':'] as ++ ':' :: b := by
  induction as with
  | nil => exact absurd rfl h
  | cons a l ih =>
    cases l with
    | nil =>
      show a ++ [':'] ++ b = a ++ ':' :: b
      rw [List.append_assoc]; rfl
    | cons c l =>
      show a ++ [':'] ++ join [':'] ((c :: l) ++ [b]) = a ++ [':'] ++ join [':'] (c :: l) ++ ':' :: b
      rw [ih (fun h => nomatch h), List.append_assoc _ (join [':'] (c :: l))]

theorem join_last (l : List Str) (h : l ≠ []) : join ":".toList (l ++ [[]]) = join ":".toList l ++ [':'] := by
  rw [show ":".toList = [':'] from rfl, join_snoc_colon l [] h]

theorem join_ends {l : List Str} (pre : List Str) (hp : pre ≠ []) (hl : l.getLast? = some []) :
    EndsColon (join ":".toList (pre ++ l)) := by
  obtain ⟨m, e⟩ : ∃ m, l = m ++ [[]] := by
    obtain ⟨m, e⟩ := List.getLast?_eq_some_iff.1 hl
    exact ⟨m, e⟩
  rw [e, ← List.append_assoc]
  refine ⟨_, join_last _ ?_⟩
  cases pre with
  | nil => exact absurd rfl hp
  | cons a l => exact fun h => nomatch h

theorem shorten_ends {spec hash task s : Str} {g : Bool} (h : shorten spec hash task g = .ok s)
    (he : EndsColon spec) : EndsColon s := by
  obtain ⟨a, rfl⟩ := he
  have hsp : splitOn ':' (a ++ [':']) = splitOn ':' a ++ [[]] := splitOn_append ':' a []
  unfold shorten at h
  rw [hsp] at h
  split at h
  · rename_i c0 c1 c2 c3 c4 c5 c6 rest e
    have hlast : (c6 :: rest).getLast? = some [] := by
      have := congrArg List.getLast? e
      rw [List.getLast?_append] at this
      simp only [List.getLast?_cons_cons] at this
      exact this.symm
    dsimp only at h
    rw [← Except.ok.inj h]
    exact join_ends [c0, c1, upTo c2 _, upTo c3 _, upTo c4 _, c5] (fun h => nomatch h) hlast
  · cases h

/-- What comes after the last colon. -/
theorem colon_inj {a a' b b' : Str} (hb : ':' ∉ b) (hb' : ':' ∉ b') (h : a ++ [':'] ++ b = a' ++ [':'] ++ b') :
    a = a' ∧ b = b' := by
  have h1 := congrArg List.reverse h
  rw [List.append_assoc, List.append_assoc, List.reverse_append, List.reverse_append, List.reverse_append,
    List.reverse_append, List.append_assoc, List.append_assoc] at h1
  have hr : ∀ {x : Str}, ':' ∉ x → ∀ y, y ∈ x.reverse → decide (y ≠ ':') = true := fun hx y hy =>
    decide_eq_true fun e => hx (by rw [← e]; exact List.mem_reverse.1 hy)
  have h2 := congrArg (List.takeWhile fun y => decide (y ≠ ':')) h1
  have t1 : ∀ {x : Str} (z : Str), ':' ∉ x →
      (x.reverse ++ ([':'].reverse ++ z)).takeWhile (fun y => decide (y ≠ ':')) = x.reverse :=
    fun z hx => takeWhile_append_stop (hr hx) (by decide)
  rw [t1 _ hb, t1 _ hb'] at h2
  have e1 : b = b' := List.reverse_inj.1 h2
  subst e1
  rw [List.append_assoc, List.append_assoc] at h
  exact ⟨List.append_cancel_right h, rfl⟩

theorem tail_no_colon {hash task : Str} {g : Bool} (hh : ':' ∉ hash) (ht : ':' ∉ task) :
    ':' ∉ tail hash task g := by
  unfold tail extension
  intro h
  rcases List.mem_append.1 h with h | h
  · rcases List.mem_append.1 h with h | h
    · rcases List.mem_append.1 h with h | h
      · exact hh h
      · exact absurd h (by decide)
    · exact ht h
  · cases g with
    | false => exact absurd h (by decide)
    | true => exact absurd h (by decide)

/-- A hash: some characters, no colon. -/
def HashText (n : Nat) (h : Str) : Prop := h ≠ [] ∧ h.length = n ∧ ':' ∉ h

theorem hashOr_eq {n : Nat} {h : Str} (hh : HashText n h) : hashOr h = h := by
  unfold hashOr
  rw [if_neg hh.1]

/-- **C108.**  Archives of different tasks or with different hashes have different names, also if names
are shortened and whatever the specifications are. -/
theorem names_differ (n : Nat) (spec spec' hash hash' task task' p : Str) (he : EndsColon spec)
    (he' : EndsColon spec') (hh : HashText n hash) (hh' : HashText n hash') (ht : ':' ∉ task)
    (ht' : ':' ∉ task') (h : sstatefn spec hash task false = .ok p)
    (h' : sstatefn spec' hash' task' false = .ok p) : hash = hash' ∧ task = task' := by
  obtain ⟨s, e, _, hs⟩ := sstatefn_ok h
  obtain ⟨s', e', _, hs'⟩ := sstatefn_ok h'
  rw [hashOr_eq hh] at e hs
  rw [hashOr_eq hh'] at e' hs'
  have c : EndsColon s := by
    rcases hs with rfl | hs
    · exact he
    · exact shorten_ends hs he
  have c' : EndsColon s' := by
    rcases hs' with rfl | hs'
    · exact he'
    · exact shorten_ends hs' he'
  rw [e] at e'
  unfold place at e'
  have hl : (hash.take 2 ++ "/".toList ++ (hash.drop 2).take 2 ++ "/".toList).length =
      (hash'.take 2 ++ "/".toList ++ (hash'.drop 2).take 2 ++ "/".toList).length := by
    simp only [List.length_append, List.length_take, List.length_drop, hh.2.1, hh'.2.1]
  obtain ⟨_, e2⟩ := List.append_inj e' hl
  obtain ⟨a, rfl⟩ := c
  obtain ⟨a', rfl⟩ := c'
  obtain ⟨_, e3⟩ := colon_inj (tail_no_colon hh.2.2 ht) (tail_no_colon hh'.2.2 ht') e2
  unfold tail at e3
  rw [List.append_assoc, List.append_assoc, List.append_assoc, List.append_assoc] at e3
  obtain ⟨e4, e5⟩ := List.append_inj e3 (hh.2.1.trans hh'.2.1.symm)
  exact ⟨e4, List.append_cancel_right (List.append_cancel_left e5)⟩

/-- The fields of a recipe with a long version. -/
def exFields : Fin 7 → Str := fun i => ["sstate".toList, "p".toList, "amd64-linux".toList,
  List.replicate 250 '1', "r0".toList, "amd64".toList, "12".toList][i]

/-- The hypotheses of `name_exists` are met. -/
example : (∀ i, ':' ∉ exFields i) ∧ (exFields 0).length + (exFields 1).length + (exFields 5).length +
    (exFields 6).length + 7 + "abcd".toList.length + 1 + "dpkg_build".toList.length + 8 ≤ 246 ∧
    specOf exFields = "sstate:p:amd64-linux:".toList ++ List.replicate 250 '1' ++ ":r0:amd64:12:".toList := by
  decide +kernel

/-- A name that is shortened: the hash and the task stay. -/
def longSpec : Str := "sstate:p:amd64-linux:".toList ++ List.replicate 250 '1' ++ ":r0:amd64:12:".toList

example : EndsColon longSpec := ⟨"sstate:p:amd64-linux:".toList ++ List.replicate 250 '1' ++
  ":r0:amd64:12".toList, by decide +kernel⟩

example : HashText 4 "abcd".toList := ⟨by decide, rfl, by decide⟩

example : (sstatefn longSpec "abcd".toList "dpkg_build".toList false).toOption =
    some ("ab/cd/sstate:p:amd64-linux:".toList ++ List.replicate 67 '1' ++
      ":r0:amd64:12:abcd_dpkg_build.tar.zst".toList) := by decide +kernel

/-! ## What is looked for is what is written -/

theorem splitOn_three (a b c : Str) (ha : ' ' ∉ a) (hb : ' ' ∉ b) (hc : ' ' ∉ c) :
    splitOn ' ' (a ++ " ".toList ++ b ++ " ".toList ++ c) = [a, b, c] := by
  have e : a ++ " ".toList ++ b ++ " ".toList ++ c = a ++ ' ' :: (b ++ ' ' :: c) := by
    simp only [List.append_assoc]; rfl
  rw [e, splitOn_append, splitOn_append, splitOn_clean ' ' a ha, splitOn_clean ' ' b hb,
    splitOn_clean ' ' c hc]
  rfl

/-- **C109.**  The archive that is looked for is the one that the task writes.  Missing: tasks named
`fetch`, `unpack`, `patch` and `preconfigure` (`unpack_not_found`). -/
theorem looked_for_written_partial (r : Recipe) (hash task : Str) (h1 : ' ' ∉ r.pkgspec)
    (h2 : ' ' ∉ r.swspec) (h3 : r.swspec ≠ [])
    (ht : task ∉ ["fetch".toList, "unpack".toList, "patch".toList, "preconfigure".toList]) :
    lookedFor r.lsb (hashfn r) hash task = written r hash task := by
  unfold lookedFor hashfn written
  have hf : ' ' ∉ (if r.native then "True".toList else "False".toList) := by
    cases r.native <;> decide
  rw [splitOn_three _ _ _ hf h1 h2]
  dsimp only
  by_cases hp : task = "populate_lic".toList
  · rw [if_pos hp, if_pos ⟨by rw [hp]; decide, h3⟩]
  · rw [if_neg hp, if_neg]
    · cases r.native
      · rw [if_neg (by decide), if_neg (by decide)]
      · rw [if_pos (by decide), if_pos rfl]
    · rintro ⟨hm, _⟩
      unfold sharedTasks at hm
      simp only [List.mem_cons, List.not_mem_nil, or_false, not_or] at hm ht
      rcases hm with h | h | h | h | h
      · exact ht.1 h
      · exact ht.2.1 h
      · exact ht.2.2.1 h
      · exact hp h
      · exact ht.2.2.2 h

/-- A recipe as in Isar. -/
def exRecipe : Recipe where
  pkgspec := "sstate:p:amd64:1:r0:amd64:12:".toList
  swspec := "sstate:p::1:r0::12:".toList
  native := false
  lsb := "universal".toList

/-- The hypotheses are met for the task `dpkg_build`. -/
example : (lookedFor exRecipe.lsb (hashfn exRecipe) "abcd".toList "dpkg_build".toList).toOption =
    some "ab/cd/sstate:p:amd64:1:r0:amd64:12:abcd_dpkg_build.tar.zst".toList := by decide +kernel

/-- **C109** is not true as it stands: an archive of the task `unpack` is never found, because it is
looked for under a name without the architecture, and only `populate_lic` writes under such a name. -/
theorem unpack_not_found :
    (lookedFor exRecipe.lsb (hashfn exRecipe) "abcd".toList "unpack".toList).toOption ≠
      (written exRecipe "abcd".toList "unpack".toList).toOption := by decide +kernel

/-! ## Which tasks are needed -/

/-- Tasks that are wanted for the tasks that depend on them directly only, and do not need what they
depend on (`Direct` tasks). -/
def Direct (name : Str) : Prop :=
  name = "do_populate_lic".toList ∨ name = "do_deploy_source_date_epoch".toList ∨
    name = "do_shared_workdir".toList ∨ name = "do_stash_locale".toList ∨
    name = "do_gcc_stash_builddir".toList ∨ name = "do_create_spdx".toList

theorem direct_iff (name : Str) : name ∈ directTasks ↔ Direct name := by
  unfold directTasks Direct
  simp only [List.mem_cons, List.not_mem_nil, or_false]

/-- Recipes for the machine that builds. -/
def ForBuilder (pn : Str) : Prop :=
  "-native".toList <:+ pn ∨ "-cross".toList <:+ pn ∨ "-cross-".toList <:+: pn ∨ "-crosssdk".toList <:+: pn

theorem nativeCross_iff (pn : Str) : isNativeCross pn = true ↔ ForBuilder pn := by
  unfold isNativeCross ForBuilder
  rw [Bool.or_eq_true, Bool.or_eq_true, Bool.or_eq_true, endsWith_iff, endsWith_iff, isSub_iff, isSub_iff]
  have a : ∀ {p : Str}, (∃ t, pn = t ++ p) ↔ p <:+ pn := fun {p} =>
    ⟨fun ⟨t, h⟩ => ⟨t, h.symm⟩, fun ⟨t, h⟩ => ⟨t, h.symm⟩⟩
  have b : ∀ {p : Str}, (∃ x y, pn = x ++ p ++ y) ↔ p <:+: pn := fun {p} =>
    ⟨fun ⟨x, y, h⟩ => ⟨x, y, h.symm⟩, fun ⟨x, y, h⟩ => ⟨x, y, h.symm⟩⟩
  rw [a, a, b, b]
  constructor
  · rintro (((h | h) | h) | h)
    · exact Or.inl h
    · exact Or.inr (Or.inr (Or.inl h))
    · exact Or.inr (Or.inr (Or.inr h))
    · exact Or.inr (Or.inl h)
  · rintro (h | h | h | h)
    · exact Or.inl (Or.inl (Or.inl h))
    · exact Or.inr h
    · exact Or.inl (Or.inl (Or.inr h))
    · exact Or.inl (Or.inr h)

/-- Tasks for which there are no special rules. -/
def OrdinaryTask (name : Str) : Prop :=
  ¬ Direct name ∧ name ≠ "do_packagedata".toList ∧ name ≠ "do_package".toList ∧
    name ≠ "do_populate_sysroot".toList

/-- Packaging tasks of OpenEmbedded, which Isar does not have. -/
def PackageTask (name : Str) : Prop :=
  name = "do_package_write_deb".toList ∨ name = "do_package_write_ipk".toList ∨
    name = "do_package_write_rpm".toList ∨ name = "do_packagedata".toList ∨ name = "do_package".toList ∨
    name = "do_package_qa".toList

theorem package_iff (name : Str) : (name ∈ packageWrites ∨ name = "do_packagedata".toList ∨
    name = "do_package".toList ∨ name = "do_package_qa".toList) ↔ PackageTask name := by
  unfold packageWrites PackageTask
  simp only [List.mem_cons, List.not_mem_nil, or_false]
  grind

theorem consider_ordinary (ex : Str → Str → Bool) (nn : List Str) (t d : Item) (ho : OrdinaryTask t.name) :
    consider ex nn t d = .skip ↔ d.key = t.key ∨ d.key ∈ nn ∨
      (ForBuilder d.pn ∧ PackageTask d.name) ∨ Direct d.name := by
  obtain ⟨_, _, h3, h4⟩ := ho
  unfold consider
  by_cases c1 : t.key = d.key
  · rw [if_pos c1]; exact ⟨fun _ => Or.inl c1.symm, fun _ => rfl⟩
  rw [if_neg c1]
  by_cases c2 : d.key ∈ nn
  · rw [if_pos c2]; exact ⟨fun _ => Or.inr (Or.inl c2), fun _ => rfl⟩
  rw [if_neg c2, if_neg (fun h => h3 h.1), if_neg (fun h => h4 h.1), if_neg (fun h => h4 h.1)]
  by_cases c3 : ForBuilder d.pn ∧ PackageTask d.name
  · have c3' := c3
    rw [← package_iff, ← nativeCross_iff] at c3'
    rw [if_pos c3']; exact ⟨fun _ => Or.inr (Or.inr (Or.inl c3)), fun _ => rfl⟩
  have c3' := c3
  rw [← package_iff, ← nativeCross_iff] at c3'
  rw [if_neg c3', if_neg (fun h => h.1.elim h3 h4), if_neg (fun h => h4 h.1)]
  rw [← direct_iff]
  by_cases c4 : d.name ∈ directTasks
  · rw [if_pos c4]; exact ⟨fun _ => Or.inr (Or.inr (Or.inr c4)), fun _ => rfl⟩
  rw [if_neg c4]
  refine ⟨fun h => (nomatch h), ?_⟩
  rintro (h | h | h | h)
  · exact absurd h.symm c1
  · exact absurd h c2
  · exact absurd h c3
  · exact absurd h c4

/-- **C110.**  The archive of an ordinary task, such as all tasks of Isar that have archives, is skipped
exactly if every other task that depends on it is not needed itself, or is one of those that never
need what they depend on. -/
theorem skipped_exact (ex : Str → Str → Bool) (nn : List Str) (t : Item) (deps : List Item)
    (ho : OrdinaryTask t.name) :
    depvalid ex nn t deps = true ↔ ∀ d, d ∈ deps → d.key ≠ t.key → d.key ∉ nn →
      (ForBuilder d.pn ∧ PackageTask d.name) ∨ Direct d.name := by
  unfold depvalid
  rw [if_neg (fun h => ho.1 ((direct_iff _).1 h)), if_neg ho.2.1, List.all_eq_true]
  constructor
  · intro h d hd h1 h2
    rcases (consider_ordinary ex nn t d ho).1 (of_decide_eq_true (h d hd)) with h3 | h3 | h3
    · exact absurd h3 h1
    · exact absurd h3 h2
    · exact h3
  · intro h d hd
    refine decide_eq_true ((consider_ordinary ex nn t d ho).2 ?_)
    by_cases h1 : d.key = t.key
    · exact Or.inl h1
    · by_cases h2 : d.key ∈ nn
      · exact Or.inr (Or.inl h2)
      · exact Or.inr (Or.inr (h d hd h1 h2))

/-- The tasks of Isar with archives are ordinary. -/
example : ∀ t, t ∈ ["do_dpkg_build".toList, "do_rootfs_install".toList, "do_copy_boot_files".toList,
    "do_generate_initramfs".toList] → OrdinaryTask t := by
  intro t ht
  unfold OrdinaryTask Direct
  simp only [List.mem_cons, List.not_mem_nil, or_false] at ht
  rcases ht with rfl | rfl | rfl | rfl <;> decide

/-- A package that only an image needs, which is there already, is skipped; otherwise it is not. -/
example : depvalid (fun _ _ => false) ["i".toList] ⟨"p".toList, "p".toList, "do_dpkg_build".toList⟩
      [⟨"p".toList, "p".toList, "do_dpkg_build".toList⟩,
        ⟨"i".toList, "i".toList, "do_rootfs_install".toList⟩] = true ∧
    depvalid (fun _ _ => false) [] ⟨"p".toList, "p".toList, "do_dpkg_build".toList⟩
      [⟨"p".toList, "p".toList, "do_dpkg_build".toList⟩,
        ⟨"i".toList, "i".toList, "do_rootfs_install".toList⟩] = false := by decide +kernel

end Meta.SsName
