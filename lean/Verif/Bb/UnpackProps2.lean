import Verif.Bb.UnpackProps
import Verif.Bb.UrlLemmas2
/-!
# Unpacking sources: compressed files, places, texts of URLs (C204, C205, C206)
-/

namespace Bb.Unpack

open Py

/-! ## Compressed files -/

theorem splitext_render {ds : List Str} {n x : Str} (hn : '/' ∉ n) (hx : '/' ∉ x ∧ '.' ∉ x) :
    splitextRoot (render (ds ++ [n ++ '.' :: x])) =
      if n.any (· ≠ '.') then render (ds ++ [n]) else render (ds ++ [n ++ '.' :: x]) := by
  have hb' : '/' ∉ n ++ '.' :: x := by
    intro h
    rcases List.mem_append.mp h with h' | h'
    · exact hn h'
    · rcases List.mem_cons.1 h' with h | h
      · exact absurd h (by decide)
      · exact hx.1 h
  unfold splitextRoot
  rw [basename_render hb', headPart_render hb']
  have hpre : ((n ++ '.' :: x).reverse.dropWhile (· ≠ '.')).reverse.dropLast = n := by
    have e1 : (n ++ '.' :: x).reverse = x.reverse ++ '.' :: n.reverse := by
      rw [List.reverse_append, List.reverse_cons, List.append_assoc]; rfl
    have e2 : ∀ c ∈ x.reverse, decide (c ≠ '.') = true := fun c hc => by
      rw [decide_eq_true_iff]
      exact fun e => hx.2 (e ▸ List.mem_reverse.1 hc)
    rw [e1, dropWhile_append_stop e2 (by decide), List.reverse_cons, List.reverse_reverse, List.dropLast_concat]
  have hdot : (n ++ '.' :: x).contains '.' = true :=
    List.contains_iff_mem.2 (List.mem_append_right _ List.mem_cons_self)
  dsimp only
  rw [hpre, hdot, Bool.true_and, render_snoc ds n, List.append_assoc]
  rfl

/-- The suffixes of compressed files and the programs. -/
def compressed : List (Str × Str) :=
  [("gz".toList, "gzip".toList), ("Z".toList, "gzip".toList), ("bz2".toList, "bzip2".toList), ("xz".toList, "xz".toList),
   ("lz".toList, "lzip".toList)]

/-- Further ones. -/
def inPlace : List (Str × Str) := [("z".toList, "gzip".toList), ("zst".toList, "zstd".toList)]

theorem compressed_kind : ∀ e ∈ compressed ++ inPlace, ('.' :: e.1, Kind.decompress e.2) ∈ suffixes ∧ '/' ∉ e.1 ∧ '.' ∉ e.1 ∧
    ∀ s ∈ suffixes, endsWith s.1 ('.' :: e.1) = true → s.1 = '.' :: e.1 ∨ s.1 = ".tar".toList ++ '.' :: e.1 := by decide +kernel

theorem compressed_kindOf {ds : List Str} {n : Str} {e : Str × Str} (he : e ∈ compressed ++ inPlace)
    (htar : ∀ t, n ≠ t ++ ".tar".toList) : kindOf (render (ds ++ [n ++ '.' :: e.1])) = some (.decompress e.2) := by
  obtain ⟨h1, h2, h3, h4⟩ := compressed_kind e he
  have er : render (ds ++ [n ++ '.' :: e.1]) = (dirText ds ++ '/' :: n) ++ '.' :: e.1 := by
    rw [render_snoc, List.append_assoc]; rfl
  refine by_suffix.2 ⟨_, h1, ⟨_, er⟩, fun s hs ⟨t, ht⟩ => Classical.byContradiction fun hl => ?_⟩
  obtain ⟨y, hy⟩ := suffix_of_longer (er.symm.trans ht) (by omega)
  rcases h4 s hs (endsWith_iff.2 ⟨y, hy⟩) with h | h
  · rw [h] at hl; exact hl (Nat.le_refl _)
  · rw [er, h, ← List.append_assoc] at ht
    have ht := List.append_cancel_right ht
    rcases List.append_eq_append_iff.1 ht with ⟨x, hx1, hx2⟩ | ⟨x, hx1, hx2⟩
    · cases x with
      | nil => exact absurd (show '/' :: n = ".tar".toList from hx2) (fun h => absurd (List.cons.inj h).1 (by decide))
      | cons c x => exact htar x (List.cons.inj hx2).2
    · have : '/' ∈ ".tar".toList := by rw [hx2]; exact List.mem_append_right _ List.mem_cons_self
      exact absurd this (by decide)

/-- `unpack` is not given, or says yes. -/
def Unpacked (parm : Str → Option Str) : Prop :=
  parm "unpack".toList = none ∨
  ∃ v, parm "unpack".toList = some v ∧ v ∈ ["1".toList, "y".toList, "yes".toList, "true".toList]

theorem unpacked_bool {parm : Str → Option Str} (h : Unpacked parm) : boolParm (parm "unpack".toList) true = .ok true := by
  rcases h with h | ⟨v, h, hm⟩
  · rw [h]; rfl
  · rw [h]
    simp only [List.mem_cons, List.not_mem_nil, or_false] at hm
    rcases hm with rfl | rfl | rfl | rfl <;> rfl

theorem decompress_plan {w : World} {ud : Ud} {root dir tool : Str} (hu : Unpacked ud.parm)
    (hd : unpackDir w.realpath ud root = .ok dir) (hk : kindOf ud.file = some (.decompress tool)) :
    plan w ud root = .ok (dir, some (.decompress tool ud.file (outFile root ud.file))) := by
  unfold plan
  rw [unpacked_bool hu]
  dsimp only
  have hc : command w.listing ud root true = .ok (some (.decompress tool ud.file (outFile root ud.file))) := by
    unfold command
    rw [if_pos rfl, hk]
    rfl
  rw [hc, hd]

theorem outFile_listed {ws ds : List Str} (hw : Names ws) {n : Str} {e : Str × Str} (he : e ∈ compressed) (hn : Clean n)
    (hname : n.any (· ≠ '.') = true) : outFile (render ws) (render (ds ++ [n ++ '.' :: e.1])) = render (ws ++ [n]) := by
  obtain ⟨-, h2, h3, -⟩ := compressed_kind e (List.mem_append_left _ he)
  have hl : ∀ e ∈ compressed, '.' :: e.1 ∈ [".gz".toList, ".bz2".toList, ".Z".toList, ".xz".toList, ".lz".toList] := by
    decide +kernel
  have hs := splitext_render (ds := ds) hn.2.2.2 ⟨h2, h3⟩
  rw [if_pos hname] at hs
  have er : render (ds ++ [n ++ '.' :: e.1]) = render (ds ++ [n]) ++ '.' :: e.1 := by
    rw [render_snoc, render_snoc, List.append_assoc]; rfl
  have hext : ext (render (ds ++ [n ++ '.' :: e.1])) = '.' :: e.1 := by
    unfold ext
    rw [hs, er, List.drop_left]
  unfold outFile
  rw [hext, if_pos (hl e he), hs, basename_render hn.2.2.2, Meta.Wks.join_render hw.2 hw.1 hn.2.2.2]

theorem outFile_inPlace {ws ds : List Str} {n : Str} {e : Str × Str} (he : e ∈ inPlace) (hn : '/' ∉ n) :
    outFile (render ws) (render (ds ++ [n ++ '.' :: e.1])) = render (ds ++ [n ++ '.' :: e.1]) := by
  obtain ⟨-, h2, h3, -⟩ := compressed_kind e (List.mem_append_right _ he)
  have hl : ∀ e ∈ inPlace, '.' :: e.1 ∉ [".gz".toList, ".bz2".toList, ".Z".toList, ".xz".toList, ".lz".toList] := by
    decide +kernel
  have hs := splitext_render (ds := ds) hn ⟨h2, h3⟩
  have er : render (ds ++ [n ++ '.' :: e.1]) = render (ds ++ [n]) ++ '.' :: e.1 := by
    rw [render_snoc, render_snoc, List.append_assoc]; rfl
  unfold outFile
  rw [if_neg]
  unfold ext
  rw [hs]
  split
  · rw [er, List.drop_left]; exact hl e he
  · rw [List.drop_length]; decide

/-- C205: a file with one of these suffixes is decompressed into the work directory, without the suffix; the download and
all other files stay. -/
theorem decompressed_partial {w : World} {ud : Ud} {ws ds : List Str} {n s r : Str} {e : Str × Str} {fs : Fs} (hw : Names ws)
    (hf : ud.file = render (ds ++ [n ++ '.' :: e.1])) (hds : ∀ c ∈ ds, Clean c) (hn : Clean n) (hname : n.any (· ≠ '.') = true)
    (he : e ∈ compressed) (htar : ∀ t, n ≠ t ++ ".tar".toList) (hu : Unpacked ud.parm) (hsub : ud.parm "subdir".toList = none)
    (hs : fs.lookup (ds ++ [n ++ '.' :: e.1]) = some s) (hr : w.plain e.2 s = some r)
    (hfree : ∀ x ∈ fs, x.1 ≠ ws ++ [n] → ¬ ws ++ [n] <+: x.1 ∧ ¬ x.1 <+: ws ++ [n]) :
    ∃ fs', unpackOne w (render ws) fs ud = (fs', true) ∧ fs'.lookup (ws ++ [n]) = some r ∧
      ∀ q, q ≠ ws ++ [n] → fs'.lookup q = fs.lookup q := by
  have hdir : unpackDir w.realpath ud (render ws) = .ok (render ws) := by
    unfold unpackDir; rw [hsub]
  have hp := decompress_plan (w := w) (root := render ws) hu hdir
    (by rw [hf]; exact compressed_kindOf (List.mem_append_left _ he) htar)
  rw [hf, outFile_listed hw he hn hname] at hp
  have hws : ∀ c ∈ ws ++ [n], Clean c := fun c hc => by
    rcases List.mem_append.1 hc with h | h
    · exact hw.2 c h
    · rw [List.mem_singleton.1 h]; exact hn
  have hdn : ∀ c ∈ ds ++ [n ++ '.' :: e.1], Clean c := fun c hc => by
    rcases List.mem_append.1 hc with h | h
    · exact hds c h
    · rw [List.mem_singleton.1 h]
      obtain ⟨-, h2, -, -⟩ := compressed_kind e (List.mem_append_left _ he)
      have hlen := List.length_pos_iff.2 hn.1
      have hl : ∀ e ∈ compressed, 1 ≤ e.1.length := by decide +kernel
      have hle := hl e he
      refine ⟨fun h => ?_, fun h => ?_, fun h => ?_, fun h => ?_⟩
      · exact hn.1 (List.append_eq_nil_iff.1 h).1
      · have := congrArg List.length h; simp [dot] at this; omega
      · have := congrArg List.length h; simp [dotdot] at this; omega
      · rcases List.mem_append.1 h with h | h
        · exact hn.2.2.2 h
        · rcases List.mem_cons.1 h with h | h
          · exact absurd h (by decide)
          · exact h2 h
  have hne : ds ++ [n ++ '.' :: e.1] ≠ ws ++ [n] := fun h => by
    have := List.append_inj_right' h rfl
    have := congrArg List.length (List.cons.inj this).1
    rw [List.length_append, List.length_cons] at this
    omega
  have hway : ¬ inWay fs (ws ++ [n]) = true := fun h => by
    obtain ⟨x, hx, h⟩ := List.any_eq_true.1 h
    rw [Bool.and_eq_true, Bool.or_eq_true, List.isPrefixOf_iff_prefix, List.isPrefixOf_iff_prefix] at h
    have hf := hfree x hx (of_decide_eq_true h.1)
    exact h.2.elim hf.2 hf.1
  have hlk : ((ws ++ [n], []) :: fs).lookup (ds ++ [n ++ '.' :: e.1]) = some s := by
    rw [List.lookup_cons, beq_eq_false_iff_ne.2 hne]
    exact hs
  refine ⟨(ws ++ [n], r) :: fs, ?_, ?_, fun q hq => ?_⟩
  · unfold unpackOne
    rw [hp]
    dsimp only
    unfold run runDecompress
    dsimp only
    rw [normComps_render hws, normComps_render hdn, if_neg hway, hlk]
    dsimp only
    rw [hr]
  · rw [List.lookup_cons, beq_iff_eq.2 rfl]
  · rw [List.lookup_cons, beq_eq_false_iff_ne.2 hq]

/-- C205: the download is lost with `.z` and with `.zst`: it is emptied before the program reads it. -/
theorem download_lost {w : World} {ud : Ud} {ws ds : List Str} {n dir : Str} {e : Str × Str} {fs : Fs}
    (hf : ud.file = render (ds ++ [n ++ '.' :: e.1])) (hds : ∀ c ∈ ds ++ [n ++ '.' :: e.1], Clean c) (hn : '/' ∉ n)
    (he : e ∈ inPlace) (htar : ∀ t, n ≠ t ++ ".tar".toList) (hu : Unpacked ud.parm)
    (hdir : unpackDir w.realpath ud (render ws) = .ok dir) (hfree : inWay fs (ds ++ [n ++ '.' :: e.1]) = false) :
    (unpackOne w (render ws) fs ud).1.lookup (ds ++ [n ++ '.' :: e.1]) = some ((w.plain e.2 []).getD []) := by
  have hp := decompress_plan (w := w) (root := render ws) hu hdir
    (by rw [hf]; exact compressed_kindOf (List.mem_append_right _ he) htar)
  rw [hf, outFile_inPlace he hn] at hp
  have hlk : ∀ v, ((ds ++ [n ++ '.' :: e.1], v) :: fs).lookup (ds ++ [n ++ '.' :: e.1]) = some v := fun v => by
    rw [List.lookup_cons, beq_iff_eq.2 rfl]
  unfold unpackOne
  rw [hp]
  dsimp only
  unfold run runDecompress
  dsimp only
  rw [normComps_render hds, if_neg (by rw [hfree]; exact Bool.false_ne_true), hlk]
  dsimp only
  cases h : w.plain e.2 [] with
  | none => exact hlk _
  | some r => exact hlk _

/-! ## C206: where all goes -/

theorem copied_in {ws ps : List Str} {b c : Str} {ud : Ud} (hw : ∀ c ∈ ws, Clean c) (hne : ws ≠ []) (hp : ∀ x ∈ ps ++ [c], Clean x)
    (hb : Clean b) (hpath : ud.isFile = true → ud.path = join ['/'] (ps ++ [c])) :
    ws <+: normComps (pathJoin (pathJoin (render ws) (copyDir ud)) b) := by
  cases hf : ud.isFile with
  | false =>
    have e : copyDir ud = ['.'] := by unfold copyDir; rw [hf]; rfl
    rw [e, normComps_dot hw hne hb]
    exact List.prefix_append _ _
  | true =>
    have hne2 : ps ++ [c] ≠ [] := fun h => nomatch (List.append_eq_nil_iff.1 h).2
    have hc := hp c (List.mem_append_right _ List.mem_cons_self)
    have e : copyDir ud = if (join ['/'] (ps ++ [c])).contains '/' then beforeSlash (join ['/'] (ps ++ [c])) ++ ['/'] else ['.'] := by
      unfold copyDir
      rw [hf, hpath hf, rstripSlash_join hp hne2, dropSlash_join hp hne2, Bool.true_and]
    rw [e]
    by_cases hps : ps = []
    · subst hps
      have hno : (join ['/'] ([] ++ [c])).contains '/' ≠ true := fun h => hc.2.2.2 (List.contains_iff_mem.1 h)
      rw [if_neg hno, normComps_dot hw hne hb]
      exact List.prefix_append _ _
    · have ej : join ['/'] (ps ++ [c]) = join ['/'] ps ++ '/' :: c := join_snoc ps c hps
      rw [ej, if_pos (List.contains_iff_mem.2 (List.mem_append_right _ List.mem_cons_self)), beforeSlash_split hc.2.2.2,
        normComps_dir hw hne (fun c hc => hp c (List.mem_append_left _ hc)) hps hb, List.append_assoc]
      exact List.prefix_append _ _

/-- A source whose names lead nowhere else. -/
structure Inside (ud : Ud) : Prop where
  /-- The file has a path, and its name does not begin with a dot. -/
  file : ∃ ds b, ud.file = render (ds ++ [b]) ∧ (∀ c ∈ ds ++ [b], Clean c) ∧ b.head? ≠ some '.'
  /-- It is not one that is decompressed in its place. -/
  kept : ∀ e ∈ inPlace, ∀ t, ud.file ≠ t ++ '.' :: e.1
  /-- The path of a local file is relative. -/
  path : ud.isFile = true → ∃ ps, Names ps ∧ ud.path = join ['/'] ps
  /-- So is `subdir`. -/
  sub : ∀ v, ud.parm "subdir".toList = some v → ∃ d, Names d ∧ v = join ['/'] d

theorem put_inside {fs fs' : Fs} {ws dir : List Str} {l : List (List Str × Str)} (h : put fs dir l = some fs') (hd : ws <+: dir)
    {q : List Str} (hq : ¬ ws <+: q) : fs'.lookup q = fs.lookup q :=
  (lookup_put h).2 q fun hp => hq (hd.trans hp)

theorem runArchive_inside {w : World} {fs : Fs} {ws : List Str} {dir : Str} {c : Cmd} (hd : ws <+: normComps dir) {q : List Str}
    (hq : ¬ ws <+: q) : (runArchive w fs dir c).1.lookup q = fs.lookup q := by
  unfold runArchive
  split
  · rfl
  · split
    · rfl
    · split
      · rfl
      · rename_i h
        exact put_inside h hd hq

theorem runCp_inside {fs : Fs} {ws : List Str} {cwd file dir : Str}
    (hd : ws <+: normComps (pathJoin (pathJoin cwd dir) (basename file))) {q : List Str}
    (hq : ¬ ws <+: q) : (runCp fs cwd file dir).1.lookup q = fs.lookup q := by
  unfold runCp
  split
  · rfl
  · split
    · rfl
    · rename_i h
      exact put_inside h hd hq

theorem runDecompress_inside {w : World} {fs : Fs} {ws : List Str} {tool file out : Str} (hd : ws <+: normComps out) {q : List Str}
    (hq : ¬ ws <+: q) : (runDecompress w fs tool file out).1.lookup q = fs.lookup q := by
  have hne : ∀ v, ((normComps out, v) :: fs).lookup q = fs.lookup q := fun v => by
    rw [List.lookup_cons, beq_eq_false_iff_ne.2 (show q ≠ normComps out from fun e => hq (by rw [e]; exact hd))]
  unfold runDecompress
  dsimp only
  split
  · rfl
  · split
    · exact hne _
    · split
      · exact hne _
      · exact hne _

theorem decompress_suffix : ∀ e ∈ suffixes, ∀ t, e.2 = .decompress t →
    ∃ x ∈ compressed ++ inPlace, e.1 = '.' :: x.1 := by
  have h : ∀ e ∈ suffixes, (match e.2 with
      | .decompress _ => (compressed ++ inPlace).any fun x => e.1 = '.' :: x.1
      | _ => true) = true := by decide +kernel
  intro e he t ht
  have := h e he
  rw [ht] at this
  obtain ⟨x, hx, h⟩ := List.any_eq_true.1 this
  exact ⟨x, hx, of_decide_eq_true h⟩

theorem out_inside {ws : List Str} (hw : Names ws) {ud : Ud} (h : Inside ud) {t : Str} (hk : kindOf ud.file = some (.decompress t)) :
    ws <+: normComps (outFile (render ws) ud.file) := by
  obtain ⟨s, hs, ⟨u, hu⟩, -⟩ := by_suffix.1 hk
  obtain ⟨x, hx, e⟩ := decompress_suffix _ hs t rfl
  dsimp only at e
  subst e
  rcases List.mem_append.1 hx with hx | hx
  · obtain ⟨ds, b, hf, hc, hb⟩ := h.file
    have hbc := hc b (List.mem_append_right _ List.mem_cons_self)
    obtain ⟨n, rfl⟩ : ∃ n, b = n ++ '.' :: x.1 := by
      rw [hf, render_snoc] at hu
      rcases List.append_eq_append_iff.1 hu with ⟨y, h1, h2⟩ | ⟨y, h1, h2⟩
      · cases y with
        | nil =>
          have := (List.cons.inj h2).1
          exact absurd this (by decide)
        | cons c y => exact ⟨y, (List.cons.inj h2).2⟩
      · have hm : '/' ∈ '.' :: x.1 := by rw [h2]; exact List.mem_append_right _ List.mem_cons_self
        exact absurd hm (suffix_nodir _ hs)
    have hn0 : n ≠ [] := fun e => by subst e; exact hb rfl
    obtain ⟨c, m, rfl⟩ := List.exists_cons_of_ne_nil hn0
    have hcd : c ≠ '.' := fun e => hb (by rw [e]; rfl)
    have hn : Clean (c :: m) := by
      refine ⟨List.cons_ne_nil _ _, fun e => hcd (List.cons.inj e).1, fun e => hcd (List.cons.inj e).1,
        fun hm => hbc.2.2.2 (List.mem_append_left _ hm)⟩
    rw [hf, outFile_listed hw hx hn (List.any_eq_true.2 ⟨c, List.mem_cons_self, decide_eq_true hcd⟩), normComps_render]
    · exact List.prefix_append _ _
    · intro y hy
      rcases List.mem_append.1 hy with hy | hy
      · exact hw.2 y hy
      · rw [List.mem_singleton.1 hy]; exact hn
  · exact absurd hu (h.kept x hx u)

theorem unpackDir_inside {realpath : Str → Str} {ws : List Str} (hw : Names ws) {ud : Ud} (h : Inside ud) :
    ∃ d, (∀ c ∈ d, Clean c) ∧ unpackDir realpath ud (render ws) = .ok (render (ws ++ d)) := by
  cases hp : ud.parm "subdir".toList with
  | none =>
    refine ⟨[], (fun _ h => nomatch h), ?_⟩
    exact unpackDir_src hw (sub := none) (fun _ h => nomatch h) hp
  | some v =>
    obtain ⟨d, hd, rfl⟩ := h.sub v hp
    refine ⟨d, hd.2, ?_⟩
    exact unpackDir_src hw (sub := some d) (fun x hx => by cases hx; exact hd) hp

theorem one_inside {w : World} {ws : List Str} (hw : Names ws) {fs : Fs} {ud : Ud} (h : Inside ud) {q : List Str} (hq : ¬ ws <+: q) :
    (unpackOne w (render ws) fs ud).1.lookup q = fs.lookup q := by
  obtain ⟨d, hdc, hd⟩ := unpackDir_inside (realpath := w.realpath) hw h
  have hwd : ∀ c ∈ ws ++ d, Clean c := fun c hc => (List.mem_append.1 hc).elim (hw.2 c) (hdc c)
  have hwn : ws ++ d ≠ [] := fun e => hw.1 (List.append_eq_nil_iff.1 e).1
  have hdir : ws <+: normComps (render (ws ++ d)) := by
    rw [normComps_render hwd]; exact List.prefix_append _ _
  have hcp : ∀ {c : Cmd}, copy w.same ud (render (ws ++ d)) = some c →
      (run w fs (render (ws ++ d)) c).1.lookup q = fs.lookup q := by
    intro c hc
    unfold copy at hc
    dsimp only at hc
    split at hc
    · cases hc
      obtain ⟨ds, b, hf, hcl, -⟩ := h.file
      have hb := hcl b (List.mem_append_right _ List.mem_cons_self)
      refine runCp_inside (ws := ws) ?_ hq
      rw [hf, basename_render hb.2.2.2]
      cases hi : ud.isFile with
      | false =>
        exact (List.prefix_append _ _).trans (copied_in hwd hwn (ps := []) (c := b) (fun x hx => by
          rw [List.mem_singleton.1 hx]; exact hb) hb fun e => absurd (hi.symm.trans e) (by decide))
      | true =>
        obtain ⟨ps, hps, he⟩ := h.path hi
        have e := (List.dropLast_concat_getLast hps.1).symm
        exact (List.prefix_append _ _).trans (copied_in hwd hwn (ps := ps.dropLast) (c := ps.getLast hps.1)
          (fun x hx => hps.2 x (e ▸ hx)) hb fun _ => he.trans (congrArg _ e))
    · cases hc
  unfold unpackOne plan
  cases hb : boolParm (ud.parm "unpack".toList) true with
  | error e => rfl
  | ok u =>
    dsimp only
    cases hc : command w.listing ud (render ws) u with
    | error e => rfl
    | ok c =>
      dsimp only
      rw [hd]
      dsimp only
      cases c with
      | none =>
        dsimp only
        cases hcopy : copy w.same ud (render (ws ++ d)) with
        | none => rfl
        | some c => exact hcp hcopy
      | some c =>
        dsimp only
        unfold command at hc
        split at hc
        · split at hc
          · cases hc
          · rename_i k hk
            split at hc
            · rename_i c' hc'
              cases hc
              cases k with
              | tar t => cases hc'; exact runArchive_inside hdir hq
              | decompress t => cases hc'; exact runDecompress_inside (out_inside hw h hk) hq
              | seven => cases hc'; exact runArchive_inside hdir hq
              | zip =>
                revert hc'
                show (match boolParm (ud.parm "dos".toList) false with
                  | .ok d => Except.ok (Cmd.unzip d ud.file)
                  | .error e => .error e) = _ → _
                split
                · intro e; cases e; exact runArchive_inside hdir hq
                · intro e; cases e
              | rpm => cases hc'; exact runArchive_inside hdir hq
              | deb =>
                revert hc'
                show (match dataFile (w.listing ud.file) with
                  | some f => Except.ok (Cmd.deb (ud.parm "striplevel".toList) ud.file f)
                  | none => .error Err.unpack) = _ → _
                split
                · intro e; cases e; exact runArchive_inside hdir hq
                · intro e; cases e
            · cases hc
        · cases hc

/-- C206: whatever the sources are, unpacking changes nothing outside the work directory, neither if all succeeds nor if one
of them fails; in particular the downloads stay. -/
theorem inside_partial {w : World} {ws : List Str} (hw : Names ws) : ∀ {us : List Ud} {fs : Fs}, (∀ u ∈ us, Inside u) →
    ∀ q, ¬ ws <+: q → (unpackAll w (render ws) fs us).1.lookup q = fs.lookup q
  | [], fs, _, q, _ => rfl
  | u :: us, fs, h, q, hq => by
    have h1 := one_inside (w := w) (fs := fs) hw (h u List.mem_cons_self) hq
    unfold unpackAll
    split
    · rename_i fs1 e
      rw [e] at h1
      rw [inside_partial hw (fun v hv => h v (List.mem_cons_of_mem _ hv)) q hq]
      exact h1
    · rename_i fs1 e
      rw [e] at h1
      exact h1

/-! ## C205: packages that are not to be unpacked -/

theorem parms_last {x : Str} {k v : Str} (hx : x = k ++ '=' :: v) (hk : '=' ∉ k) : ∀ {l : List Str} {d p : Dict Str},
    Url.parms (l ++ [x]) d = .ok p → List.lookup k p = some v
  | [], d, p, h => by
    have hne : x ≠ [] := fun e => by rw [hx] at e; exact List.cons_ne_nil _ _ (List.append_eq_nil_iff.1 e).2
    have hin : ¬ '=' ∉ x := fun h => h (hx ▸ List.mem_append_right _ List.mem_cons_self)
    have h' : Url.parms [x] d = .ok p := h
    unfold Url.parms at h'
    rw [if_neg hne, if_neg hin] at h'
    have hs := Url.takeWhile_append '=' k ('=' :: v) hk (.inr ⟨_, rfl⟩)
    rw [hx, hs.1, hs.2] at h'
    cases h'
    show List.lookup k (Dict.set d k v) = _
    rw [Dict.lookup_set, if_pos rfl]
  | s :: l, d, p, h => by
    have h' : Url.parms (s :: (l ++ [x])) d = .ok p := h
    unfold Url.parms at h'
    split at h'
    · exact parms_last hx hk h'
    · split at h'
      · cases h'
      · exact parms_last hx hk h'

theorem lastAt_suffix {t : Str} : ∀ {r a b : Str}, Url.lastAt r = some (a, b) → r = a ++ '@' :: b ∧ ';' ∉ a
  | [], _, _, h => nomatch h
  | c :: s, a, b, h => by
    unfold Url.lastAt at h
    split at h
    · cases h
    · rename_i hc
      split at h
      · rename_i u l e
        cases h
        obtain ⟨h1, h2⟩ := lastAt_suffix (t := t) e
        refine ⟨by rw [h1]; rfl, fun hm => ?_⟩
        rcases List.mem_cons.1 hm with h | h
        · exact hc (.inr h.symm)
        · exact h2 h
      · split at h
        · rename_i h3
          cases h
          exact ⟨by rw [h3.1]; rfl, fun h => nomatch h⟩
        · cases h

theorem splitUser_suffix (r : Str) : ∃ a, r = a ++ (Url.splitUser r).2 ∧ ';' ∉ a := by
  unfold Url.splitUser
  split
  · rename_i u l e
    split
    · exact ⟨[], rfl, fun h => nomatch h⟩
    · obtain ⟨h1, h2⟩ := lastAt_suffix (t := []) e
      refine ⟨u ++ ['@'], by rw [h1, List.append_assoc]; rfl, fun hm => ?_⟩
      rcases List.mem_append.1 hm with h | h
      · exact h2 h
      · exact absurd (List.mem_singleton.1 h) (by decide)
  · exact ⟨[], rfl, fun h => nomatch h⟩

theorem suffix_keep {x a s t y : Str} {c : Char} (h : x ++ c :: t = a ++ y) (ha : c ∉ a) : ∃ x', y = x' ++ c :: t := by
  rcases List.append_eq_append_iff.1 h with ⟨m, h1, h2⟩ | ⟨m, h1, h2⟩
  · cases m with
    | nil => exact ⟨[], h2.symm⟩
    | cons d m =>
      have := (List.cons.inj h2).1
      exact absurd (show c ∈ a by rw [h1, this]; exact List.mem_append_right _ List.mem_cons_self) ha
  · exact ⟨m, h2⟩

/-- A parameter at the end of a URL. -/
theorem last_parm {x k v : Str} {u : Url.Decoded} (hk : '=' ∉ k ∧ ';' ∉ k ∧ ':' ∉ k) (hv : ';' ∉ v ∧ ':' ∉ v)
    (h : Url.decodeurl (x ++ ';' :: (k ++ '=' :: v)) = .ok u) : List.lookup k u.parm = some v := by
  have hpt : ∀ c, c ∈ ';' :: (k ++ '=' :: v) → c ∈ k ∨ c ∈ v ∨ c = ';' ∨ c = '=' := by
    intro c hc
    rcases List.mem_cons.1 hc with h | h
    · exact .inr (.inr (.inl h))
    · rcases List.mem_append.1 h with h | h
      · exact .inl h
      · rcases List.mem_cons.1 h with h | h
        · exact .inr (.inr (.inr h))
        · exact .inr (.inl h)
  have hcol : ':' ∉ ';' :: (k ++ '=' :: v) := fun hm => by
    rcases hpt _ hm with h | h | h | h
    · exact hk.2.2 h
    · exact hv.2 h
    · exact absurd h (by decide)
    · exact absurd h (by decide)
  have hsemi : ';' ∉ k ++ '=' :: v := fun hm => by
    rcases List.mem_append.1 hm with h | h
    · exact hk.2.1 h
    · rcases List.mem_cons.1 h with h | h
      · exact absurd h (by decide)
      · exact hv.1 h
  unfold Url.decodeurl at h
  split at h
  · cases h
  · rename_i r hr
    obtain ⟨y, hy⟩ : ∃ y, r = y ++ ';' :: (k ++ '=' :: v) := by
      have hdrop : ∀ z : Str, (z ++ ';' :: (k ++ '=' :: v)).dropWhile (· ≠ ':') = [] ∨
          ∃ z', (z ++ ';' :: (k ++ '=' :: v)).dropWhile (· ≠ ':') = ':' :: z' ++ ';' :: (k ++ '=' :: v) := by
        intro z
        induction z with
        | nil =>
          left
          have := (Url.takeWhile_append ':' (';' :: (k ++ '=' :: v)) [] hcol (.inl rfl)).2
          rw [List.append_nil] at this
          exact this
        | cons c z ih =>
          by_cases hc : c = ':'
          · subst hc
            exact .inr ⟨z, by rw [List.cons_append, List.dropWhile_cons_of_neg (by decide)]⟩
          · rw [List.cons_append, List.dropWhile_cons, if_pos (decide_eq_true hc)]
            exact ih
      rcases hdrop x with h | ⟨z', h⟩
      · rw [h] at hr; cases hr
      · rw [h] at hr
        unfold Url.afterColon at hr
        split at hr
        · rename_i r' e
          cases hr
          have e : z' ++ ';' :: (k ++ '=' :: v) = '/' :: '/' :: r := (List.cons.inj e).2
          exact suffix_keep (s := []) (a := ['/', '/']) e (by decide)
        · cases hr
    obtain ⟨a, ha, hna⟩ := splitUser_suffix r
    obtain ⟨y', hy'⟩ := suffix_keep (s := []) (hy.symm.trans ha) hna
    dsimp only at h
    split at h
    · cases h
    · rw [hy'] at h
      obtain ⟨m, hm⟩ : ∃ m : List Str, splitOn ';' (((y' ++ ';' :: (k ++ '=' :: v)).dropWhile (· ≠ ';')).drop 1) = m ++ [k ++ '=' :: v] := by
        clear h hy' ha
        induction y' with
        | nil =>
          rw [List.nil_append, List.dropWhile_cons_of_neg (by decide)]
          exact ⟨[], splitOn_clean _ _ hsemi⟩
        | cons c y' ih =>
          by_cases hc : c = ';'
          · subst hc
            rw [List.cons_append, List.dropWhile_cons_of_neg (by decide)]
            show ∃ m, splitOn ';' (y' ++ ';' :: (k ++ '=' :: v)) = _
            rw [splitOn_append, splitOn_clean _ _ hsemi]
            exact ⟨_, rfl⟩
          · rw [List.cons_append, List.dropWhile_cons, if_pos (decide_eq_true hc)]
            exact ih
      rw [hm] at h
      cases hp : Url.parms (m ++ [k ++ '=' :: v]) [] with
      | error e => rw [hp] at h; cases h
      | ok p =>
        rw [hp] at h
        have := parms_last rfl hk.1 hp
        cases hu : Url.userInfo (Url.splitUser r).1 with
        | error e => rw [hu] at h; cases h
        | ok up =>
          rw [hu] at h
          cases h
          exact this

/-- C205: a package that is prebuilt is never unpacked, whatever its URL says. -/
theorem prebuilt_copied {uri : Str} {u : Url.Decoded} (h : Url.decodeurl (ensureUnpackFalse uri) = .ok u) (path : Str) :
    Copied path (fun k => List.lookup k u.parm) := by
  have e : List.lookup "unpack".toList u.parm = some "false".toList := by
    unfold ensureUnpackFalse at h
    by_cases hl : (splitOn ';' uri).filter (fun x => !startsWith x "unpack=".toList) = []
    · rw [hl] at h
      have : Url.decodeurl (join [';'] ([] ++ ["unpack=false".toList])) = .error .malformed := rfl
      rw [this] at h
      cases h
    · have hj : ∀ (l : List Str) (b : Str), l ≠ [] → join [';'] (l ++ [b]) = join [';'] l ++ ';' :: b := by
        intro l
        induction l with
        | nil => exact fun _ h => absurd rfl h
        | cons a l ih =>
          intro b _
          cases l with
          | nil => simp [join]
          | cons c l =>
            have e1 : join [';'] (a :: c :: l) = a ++ ';' :: join [';'] (c :: l) := by simp [join]
            have e2 : join [';'] (a :: c :: l ++ [b]) = a ++ ';' :: join [';'] (c :: l ++ [b]) := by simp [join]
            rw [e1, e2, ih b (List.cons_ne_nil _ _), List.append_assoc]; rfl
      rw [hj _ _ hl] at h
      exact last_parm (k := "unpack".toList) (v := "false".toList) (by decide) (by decide) h
  exact .inl ⟨_, e, by decide⟩

end Bb.Unpack
