import Verif.Bb.UnpackProps2
/-!
# Unpacking sources: texts of URLs, and where it goes wrong (C204, C205, C206)
-/

namespace Bb.Unpack

open Py

/-! ## URLs of local files -/

theorem unquote_plain : ∀ {s : Str}, '%' ∉ s → Url.unquote s = s
  | [], _ => by unfold Url.unquote; rfl
  | c :: s, h => by
    unfold Url.unquote
    rw [if_neg fun e => h (by rw [e]; exact List.mem_cons_self), unquote_plain fun hm => h (List.mem_cons_of_mem _ hm)]

theorem untilScheme_append {t : Str} : ∀ {p : Str}, ':' ∉ p → untilScheme (p ++ t) = p ++ untilScheme t
  | [], _ => rfl
  | c :: p, h => by
    rw [List.cons_append, untilScheme, if_neg, untilScheme_append fun hm => h (List.mem_cons_of_mem _ hm)]
    · rfl
    · intro hs
      obtain ⟨u, hu⟩ := startsWith_iff.1 hs
      exact h (by rw [(List.cons.inj hu).1]; exact List.mem_cons_self)

/-- The text of a path without characters that have a meaning in a URL. -/
def Plain (p : Str) : Prop := p ≠ [] ∧ '%' ∉ p ∧ ':' ∉ p ∧ ';' ∉ p

theorem decodedUrl_plain {p : Str} {d : Dict Str} (hp : Plain p) : decodedUrl ("file://".toList ++ p ++ Url.showParms d) = p := by
  have e : Url.afterColon (("file://".toList ++ p ++ Url.showParms d).dropWhile (· ≠ ':')) = some (p ++ Url.showParms d) := by
    rw [List.append_assoc]; rfl
  unfold decodedUrl
  rw [e]
  dsimp only
  rw [untilScheme_append hp.2.2.1]
  have : untilScheme (Url.showParms d) = [] ∨ ∃ t, untilScheme (Url.showParms d) = ';' :: t := by
    rcases Url.showParms_shape d with h | ⟨t, h⟩
    · rw [h]; exact .inl rfl
    · rw [h, untilScheme, if_neg (fun hs => by
        obtain ⟨u, hu⟩ := startsWith_iff.1 hs
        exact absurd (List.cons.inj hu).1 (by decide))]
      exact .inr ⟨_, rfl⟩
  rw [(Url.takeWhile_append ';' p _ hp.2.2.2 this).1, unquote_plain hp.2.1]

/-- C204: the URL of a local file without an `@` is taken as it is written. -/
theorem url_ud {fs : Fs} {filespath : List Str} {p : Str} {d : Dict Str} (hp : Plain p) (hat : '@' ∉ p) (hd : Url.ParmOk d) :
    urlUd fs filespath ("file://".toList ++ p ++ Url.showParms d) = some (localUd fs filespath p fun k => List.lookup k d) := by
  have hs : Url.splitUser (p ++ Url.showParms d) = (none, p ++ Url.showParms d) :=
    Url.splitUser_none _ (Url.lastAt_none p _ hat ((Url.showParms_shape d).imp id fun ⟨t, h⟩ => ⟨_, t, h, .inr rfl⟩))
  have hdec := Url.decode_parts "file".toList p none d (p ++ Url.showParms d) (by decide) hp.2.2.2 hp.1 hd hs ([], []) rfl
  have ht : "file".toList ++ "://".toList ++ (p ++ Url.showParms d) = "file://".toList ++ p ++ Url.showParms d := by
    rw [List.append_assoc "file://".toList]; rfl
  have hh : Url.hostPath "file".toList p = ([], p) := by
    unfold Url.hostPath; rw [if_pos (by decide)]
  rw [ht, hh] at hdec
  unfold urlUd localUd
  rw [hdec, decodedUrl_plain hp]
  dsimp only
  rw [unquote_plain hp.2.1]

/-- C204: with an `@` in its first directory a file is found, but what is before the `@` is left out of the place where it
is copied to. -/
theorem at_sign {fs : Fs} {filespath : List Str} {a p : Str} {d : Dict Str} (hp : Plain p) (ha : Plain a) (hs : '/' ∉ a)
    (hat : '@' ∉ p) (hd : Url.ParmOk d) :
    urlUd fs filespath ("file://".toList ++ (a ++ '@' :: p) ++ Url.showParms d) =
      some { file := localPath fs filespath (a ++ '@' :: p), isFile := true, path := p, parm := fun k => List.lookup k d } := by
  have hap : Plain (a ++ '@' :: p) := by
    refine ⟨fun h => ha.1 (List.append_eq_nil_iff.1 h).1, fun h => ?_, fun h => ?_, fun h => ?_⟩ <;>
      rcases List.mem_append.1 h with h | h
    · exact ha.2.1 h
    · exact (List.mem_cons.1 h).elim (by decide) hp.2.1
    · exact ha.2.2.1 h
    · exact (List.mem_cons.1 h).elim (by decide) hp.2.2.1
    · exact ha.2.2.2 h
    · exact (List.mem_cons.1 h).elim (by decide) hp.2.2.2
  have hl : Url.lastAt (p ++ Url.showParms d) = none :=
    Url.lastAt_none p _ hat ((Url.showParms_shape d).imp id fun ⟨t, h⟩ => ⟨_, t, h, .inr rfl⟩)
  have hsu : Url.splitUser (a ++ '@' :: (p ++ Url.showParms d)) = (some a, p ++ Url.showParms d) := by
    unfold Url.splitUser
    rw [Url.lastAt_some a _ ⟨hs, ha.2.2.2⟩ ⟨fun h => hp.1 (List.append_eq_nil_iff.1 h).1, ?_⟩ hl]
    · dsimp only
      rw [if_neg ha.1]
    · obtain ⟨c, t, rfl⟩ := List.exists_cons_of_ne_nil hp.1
      intro e
      exact hp.2.2.2 (by rw [show c = ';' from Option.some.inj e]; exact List.mem_cons_self)
  have hu : Url.userInfo (some a) = .ok (a, []) := by
    have := Url.userInfo_shown a [] ha.2.2.1 ha.1
    rw [if_neg (by decide), List.append_nil] at this
    exact this
  have hdec := Url.decode_parts "file".toList p (some a) d (a ++ '@' :: (p ++ Url.showParms d)) (by decide) hp.2.2.2 hp.1 hd hsu _ hu
  have ht : "file".toList ++ "://".toList ++ (a ++ '@' :: (p ++ Url.showParms d)) = "file://".toList ++ (a ++ '@' :: p) ++ Url.showParms d := by
    rw [List.append_assoc "file://".toList, List.append_assoc a]; rfl
  have hh : Url.hostPath "file".toList p = ([], p) := by
    unfold Url.hostPath; rw [if_pos (by decide)]
  rw [ht, hh] at hdec
  unfold urlUd
  rw [hdec, decodedUrl_plain hap]
  dsimp only
  rw [unquote_plain hp.2.1]

/-! ## A small world -/

def noParm : Str → Option Str := fun _ => none

/-- Nothing is the same file, programs put a letter in front. -/
def world : World :=
  { listing := fun _ => [], realpath := id, same := fun _ _ => false, plain := fun _ s => some ('p' :: s),
    files := fun _ s => some [(["a".toList], s)] }

def files : Fs :=
  [(["l".toList, "d".toList, "new".toList], "1".toList), (["l".toList, "x".toList], "2".toList),
   (["x".toList], "3".toList), (["l".toList, "g@h".toList, "c".toList], "4".toList),
   (["dl".toList, "f.gz".toList], "5".toList), (["dl".toList, "f.zst".toList], "6".toList)]

def root : List Str := ["w".toList, "work".toList]

/-- A directory, and a file with `subdir`. -/
def dSrc : Src := { path := ["d".toList], subdir := none, parm := noParm }
def xSrc : Src := { path := ["x".toList], subdir := some ["s".toList], parm := fun k => if k = "subdir".toList then some "s".toList else none }

theorem copied_of {path : Str} {parm : Str → Option Str} (h1 : parm "unpack".toList = none)
    (h2 : (suffixes.any fun e => endsWith path e.1) = false) : Copied path parm :=
  .inr ⟨h1, fun e he t h => by
    rw [List.any_eq_false] at h2
    exact h2 e he (endsWith_iff.2 ⟨t, h⟩)⟩

theorem dSrc_ok : dSrc.Ok where
  names := by unfold Names; decide
  sub := fun _ h => nomatch h
  parm := rfl
  copied := copied_of rfl (by decide +kernel)

theorem xSrc_ok : xSrc.Ok where
  names := by unfold Names; decide
  sub := fun d h => by cases h; unfold Names; decide
  parm := rfl
  copied := copied_of rfl (by decide +kernel)

/-- A case of `local_partial` and `local_succeeds`. -/
example : (∀ s ∈ [dSrc, xSrc], s.Ok) ∧ Apart root [["l".toList]] [dSrc, xSrc] ∧ Disjoint root [dSrc, xSrc] ∧
    (∀ e ∈ files, ¬ root <+: e.1 ∧ ¬ e.1 <+: root) ∧
    (unpackLocal world (render root) ([["l".toList]].map render) files (urls [dSrc, xSrc])).2 = true ∧
    (unpackLocal world (render root) ([["l".toList]].map render) files (urls [dSrc, xSrc])).1.lookup (root ++ ["d".toList, "new".toList]) =
      some "1".toList ∧
    (unpackLocal world (render root) ([["l".toList]].map render) files (urls [dSrc, xSrc])).1.lookup (root ++ ["s".toList, "x".toList]) =
      some "2".toList := by
  refine ⟨fun s hs => ?_, ?_, ?_, ?_, by decide +kernel, by decide +kernel, by decide +kernel⟩
  · simp only [List.mem_cons, List.not_mem_nil, or_false] at hs
    rcases hs with rfl | rfl
    · exact dSrc_ok
    · exact xSrc_ok
  · unfold Apart; decide +kernel
  · unfold Disjoint; decide +kernel
  · decide +kernel

/-- C204: a file that is no longer in a directory stays in the work directory when it is unpacked again. -/
theorem stale_file : ∃ (fs : Fs) (s : Src), s.Ok ∧
    (unpackLocal world (render root) ["/l".toList] fs (urls [s])).2 = true ∧
    fs.lookup ["l".toList, "d".toList, "old".toList] = none ∧
    (unpackLocal world (render root) ["/l".toList] fs (urls [s])).1.lookup (root ++ ["d".toList, "old".toList]) = some "0".toList :=
  ⟨(root ++ ["d".toList, "old".toList], "0".toList) :: files, dSrc, dSrc_ok, by decide +kernel, by decide +kernel, by decide +kernel⟩

/-- C204: so `file://g@h/c` is copied to `h/c`, not to `g@h/c`. -/
theorem at_misplaced : ∃ ud, urlUd files ["/l".toList] "file://g@h/c".toList = some ud ∧
    (unpackOne world (render root) files ud).2 = true ∧
    (unpackOne world (render root) files ud).1.lookup (root ++ ["h".toList, "c".toList]) = some "4".toList ∧
    (unpackOne world (render root) files ud).1.lookup (root ++ ["g@h".toList, "c".toList]) = none :=
  ⟨_, at_sign (a := "g".toList) (p := "h/c".toList) (d := []) (by unfold Plain; decide) (by unfold Plain; decide) (by decide)
      (by decide) ⟨by decide, (by intros; contradiction), (by intros; contradiction)⟩,
    by decide +kernel, by decide +kernel, by decide +kernel⟩

/-- A download. -/
def download (file : Str) (parm : Str → Option Str) : Ud := { file := file, isFile := false, path := "/".toList, parm := parm }

def subdir (s : Str) : Str → Option Str := fun k => if k = "subdir".toList then some s else none

/-- A case of `decompressed_partial`. -/
example : (unpackOne world (render root) files (download "/dl/f.gz".toList noParm)).1.lookup (root ++ ["f".toList]) = some "p5".toList ∧
    ("gz".toList, "gzip".toList) ∈ compressed ∧ Names root ∧ Clean "f".toList ∧ Unpacked noParm ∧
    files.lookup ["dl".toList, "f.gz".toList] = some "5".toList ∧
    (∀ t, "f".toList ≠ t ++ ".tar".toList) ∧
    ∀ x ∈ files, x.1 ≠ root ++ ["f".toList] → ¬ root ++ ["f".toList] <+: x.1 ∧ ¬ x.1 <+: root ++ ["f".toList] :=
  ⟨by decide +kernel, by decide, (by unfold Names; decide), by decide, .inl rfl, by decide +kernel, (fun t h => by
    have := congrArg List.length h
    rw [List.length_append] at this
    have e1 : "f".toList.length = 1 := rfl
    have e2 : ".tar".toList.length = 4 := rfl
    omega), by decide +kernel⟩

/-- A case of `download_lost`: the content was `6`. -/
example : (unpackOne world (render root) files (download "/dl/f.zst".toList noParm)).1.lookup ["dl".toList, "f.zst".toList] =
    some "p".toList := by decide +kernel

/-- C205: `subdir` is not regarded for a compressed file. -/
theorem subdir_ignored :
    (unpackOne world (render root) files (download "/dl/f.gz".toList (subdir "s".toList))).2 = true ∧
    (unpackOne world (render root) files (download "/dl/f.gz".toList (subdir "s".toList))).1.lookup (root ++ ["s".toList, "f".toList]) = none ∧
    (unpackOne world (render root) files (download "/dl/f.gz".toList (subdir "s".toList))).1.lookup (root ++ ["f".toList]) =
      some "p5".toList := by
  refine ⟨by decide +kernel, by decide +kernel, by decide +kernel⟩

/-- A case of `prebuilt_copied`. -/
example : ensureUnpackFalse "file://a.deb;unpack=1;x=y".toList = "file://a.deb;x=y;unpack=false".toList := by decide +kernel

/-- A case of `inside_partial`. -/
example : Inside (download "/dl/f.gz".toList (subdir "s".toList)) where
  file := ⟨["dl".toList], "f.gz".toList, rfl, by decide, by decide⟩
  kept := fun e he t h => by
    have : ∀ e ∈ inPlace, endsWith "/dl/f.gz".toList ('.' :: e.1) = false := by decide +kernel
    have := this e he
    exact absurd (this.symm.trans (endsWith_iff.2 ⟨t, h⟩)) Bool.false_ne_true
  path := fun h => nomatch h
  sub := fun v h => ⟨["s".toList], by unfold Names; decide, by
    have h : some "s".toList = some v := h
    cases h; rfl⟩

/-- C206: an absolute `subdir` may be beside the work directory, if its name begins like that one. -/
theorem beside_root :
    (unpackOne world (render root) files (download "/l/x".toList (subdir "/w/work-other".toList))).2 = true ∧
    (unpackOne world (render root) files (download "/l/x".toList (subdir "/w/work-other".toList))).1.lookup
      ["w".toList, "work-other".toList, "x".toList] = some "2".toList := by
  refine ⟨by decide +kernel, by decide +kernel⟩

/-- C206: a relative `subdir` may lead anywhere. -/
theorem above_root :
    (unpackOne world (render root) files (download "/l/x".toList (subdir "../..".toList))).2 = true ∧
    (unpackOne world (render root) files (download "/l/x".toList (subdir "../..".toList))).1.lookup ["x".toList] = some "2".toList ∧
    files.lookup ["x".toList] = some "3".toList := by
  refine ⟨by decide +kernel, by decide +kernel, by decide +kernel⟩

/-- C206: so may the path of a local file. -/
theorem dotdot_path :
    (unpackOne world (render root) files (localUd files ["/l/d".toList] "../x".toList noParm)).2 = true ∧
    (unpackOne world (render root) files (localUd files ["/l/d".toList] "../x".toList noParm)).1.lookup ["w".toList, "x".toList] =
      some "2".toList := by
  refine ⟨by decide +kernel, by decide +kernel⟩

/-- C206: an absolute `subdir` that is elsewhere is refused. -/
theorem elsewhere_refused {w : World} {ws : Str} {fs : Fs} {ud : Ud} {s : Str} (hs : ud.parm "subdir".toList = some s)
    (ha : isabs s = true) (hn : ∀ t, w.realpath s ≠ w.realpath ws ++ t) : unpackOne w ws fs ud = (fs, false) := by
  have hd : unpackDir w.realpath ud ws = .error .unpack := by
    unfold unpackDir
    rw [hs]
    dsimp only
    rw [if_pos ha, if_neg]
    intro h
    obtain ⟨t, ht⟩ := startsWith_iff.1 h
    exact hn t ht
  unfold unpackOne plan
  cases boolParm (ud.parm "unpack".toList) true with
  | error e => rfl
  | ok u =>
    dsimp only
    cases command w.listing ud ws u with
    | error e => rfl
    | ok c =>
      dsimp only
      rw [hd]

end Bb.Unpack
