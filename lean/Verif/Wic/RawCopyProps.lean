import Verif.Wic.RawCopyModel
import Verif.Wic.FilemapProps

/-!
C259: a partition that is copied from a file has the content of the file.
-/

namespace Isar.Wic.RawCopy

open Isar.Wic.Filemap
open Py

namespace Spec

/-- The content that a partition is to have, before the first bytes are left out: the file, or what is in the archive; none if the file is not there
or the archive cannot be unpacked. -/
def content (e : Env) (p : Part) : Option File :=
  match e.deploy p.file with
  | none => none
  | some f => if p.unpack then (if (e.run p.ext f).2 then some (e.run p.ext f).1 else none) else some f

end Spec

theorem put_same (w : Dir) (n : Str) (f : File) : put w n f n = some f := by simp [put]

theorem put_other (w : Dir) {n m : Str} (f : File) (h : m ≠ n) : put w n f m = w m := by simp [put, h]

/-! ## Names -/

theorem digits_split : ∀ (a b : Str) {x y : Str}, (∀ c ∈ x, c ≠ '.') → (∀ c ∈ y, c ≠ '.') → a ++ '.' :: x = b ++ '.' :: y → a = b ∧ x = y
  | [], [], x, y, _, _, h => by simp at h; exact ⟨rfl, h⟩
  | [], c :: b, x, y, hx, _, h => by
    simp only [List.nil_append, List.cons_append, List.cons.injEq] at h
    exact absurd rfl (hx '.' (by rw [h.2]; simp))
  | c :: a, [], x, y, _, hy, h => by
    simp only [List.nil_append, List.cons_append, List.cons.injEq] at h
    exact absurd rfl (hy '.' (by rw [← h.2]; simp))
  | c :: a, d :: b, x, y, hx, hy, h => by
    simp only [List.cons_append, List.cons.injEq] at h
    obtain ⟨e1, e2⟩ := digits_split a b hx hy h.2
    exact ⟨by rw [h.1, e1], e2⟩

/-- Files of partitions have the same name only if they are copied from the same file for lines of the same number. -/
theorem dst_inj (p q : Part) (h : p.dst = q.dst) : p.file = q.file ∧ p.lineno = q.lineno := by
  have no : ∀ n, ∀ c ∈ dec n, c ≠ '.' := by
    intro n c hc e
    have := dec_digits hc
    subst e
    simp [Char.isDigit] at this
  obtain ⟨a, b⟩ := digits_split _ _ (no _) (no _) h
  exact ⟨a, dec_injective b⟩

/-! ## One partition -/

theorem source_frame {e : Env} {w w1 : Dir} {p : Part} {src : File} (h : source e w p = some (w1, src)) (n : Str)
    (hn : p.unpack = true → n ≠ p.stem) : w1 n = w n := by
  unfold source at h
  split at h
  · next hu =>
    split at h
    · split at h
      · simp only [Option.some.injEq, Prod.mk.injEq] at h
        rw [← h.1, put_other _ _ (hn hu)]
      · simp only [Option.some.injEq, Prod.mk.injEq] at h
        rw [← h.1, put_other _ _ (hn hu)]
    · simp at h
  · split at h
    · simp at h
    · simp only [Option.some.injEq, Prod.mk.injEq] at h
      rw [← h.1]

theorem source_content {e : Env} {w w1 : Dir} {p : Part} {src : File} (h : source e w p = some (w1, src)) (hne : src ≠ [])
    (hok : p.unpack = true → ∀ f, e.deploy p.file = some f → (e.run p.ext f).2 = true) : Spec.content e p = some src := by
  unfold source at h
  unfold Spec.content
  by_cases hu : p.unpack = true
  · rw [if_pos hu] at h
    split at h
    · rcases hd : e.deploy p.file with _ | f
      · rw [hd] at h
        simp only [Option.some.injEq, Prod.mk.injEq] at h
        exact absurd h.2.symm hne
      · rw [hd] at h
        simp only [Option.some.injEq, Prod.mk.injEq] at h
        simp [hu, hok hu f hd, h.2]
    · simp at h
  · rw [if_neg hu] at h
    rcases hd : e.deploy p.file with _ | f
    · simp [hd] at h
    · rw [hd] at h
      simp only [Option.some.injEq, Prod.mk.injEq] at h
      simp [hu, h.2]

theorem prepare_frame {e : Env} {w w1 : Dir} {p : Part} {r : Prepared} (h : prepare e w p = some (w1, r)) (n : Str) (hd : n ≠ p.dst)
    (hn : p.unpack = true → n ≠ p.stem) : w1 n = w n := by
  unfold prepare at h
  rcases hs : source e w p with _ | ⟨w0, src⟩
  · simp [hs] at h
  · rw [hs] at h
    dsimp only at h
    split at h
    · simp at h
    · split at h
      · simp at h
      · split at h
        · simp at h
        · simp only [Option.some.injEq, Prod.mk.injEq] at h
          rw [← h.1, put_other _ _ hd]
          exact source_frame hs n hn

theorem prepare_new {e : Env} {w w1 : Dir} {p : Part} {r : Prepared} (hbs : 0 < e.bs) (hv : ∀ f, ValidMap f e.bs (e.ranges f))
    (h : prepare e w p = some (w1, r)) (hw : w p.dst = none) (hn : p.unpack = true → p.dst ≠ p.stem)
    (hok : p.unpack = true → ∀ f, e.deploy p.file = some f → (e.run p.ext f).2 = true) :
    ∃ c, Spec.content e p = some c ∧ p.skip ≤ c.length ∧ w1 p.dst = some (c.drop p.skip) ∧ r.file = p.dst ∧
      p.size ≤ r.size ∧ c.length - p.skip ≤ 1024 * r.size ∧ (r.size = p.size ∨ 1024 * r.size < c.length - p.skip + 1024) := by
  unfold prepare at h
  rcases hs : source e w p with _ | ⟨w0, src⟩
  · simp [hs] at h
  · rw [hs] at h
    dsimp only at h
    have hw0 : w0 p.dst = none := by rw [source_frame hs _ hn]; exact hw
    split at h
    · simp at h
    · next hne =>
      split at h
      · simp at h
      · next hsk =>
        have hk : p.skip ≤ src.length := by
          apply Nat.le_of_not_lt
          intro hlt
          exact hsk ⟨by simp [hw0], hlt⟩
        rw [hw0, sparse_copy_new src e.bs p.skip 0 _ hbs (hv src) hk] at h
        simp only [List.replicate_zero, List.nil_append, Option.some.injEq, Prod.mk.injEq] at h
        obtain ⟨h1, h2⟩ := h
        refine ⟨src, source_content hs hne hok, hk, by rw [← h1, put_same], by rw [← h2], ?_⟩
        rw [← h2]
        simp only [List.length_drop]
        split <;> omega

/-! ## C259 -/

theorem all_frame {e : Env} : ∀ {ps : List Part} {w w' : Dir} {rs : List Prepared}, prepareAll e w ps = some (w', rs) → ∀ (n : Str),
    (∀ p ∈ ps, n ≠ p.dst ∧ (p.unpack = true → n ≠ p.stem)) → w' n = w n
  | [], w, w', rs, h, n, _ => by
    simp only [prepareAll, Option.some.injEq, Prod.mk.injEq] at h
    rw [h.1]
  | p :: ps, w, w', rs, h, n, hn => by
    unfold prepareAll at h
    rcases hp : prepare e w p with _ | ⟨w1, r⟩
    · simp [hp] at h
    · rw [hp] at h
      dsimp only at h
      rcases ha : prepareAll e w1 ps with _ | ⟨w2, rs'⟩
      · simp [ha] at h
      · simp only [ha, Option.some.injEq, Prod.mk.injEq] at h
        rw [← h.1, all_frame ha n fun q hq => hn q (by simp [hq])]
        have := hn p (by simp)
        exact prepare_frame hp n this.1 this.2

/-- Each partition has, when all are prepared, the content of its own file without the bytes that are to be left out, and a size that holds it and is
not greater than needed or asked for.  The hypotheses: no two lines have the same number and the same file, names of unpacked files are not those of
copies, the work directory is fresh, and no program for unpacking fails. -/
theorem raw_right_partial (e : Env) (ps : List Part) (w w' : Dir) (rs : List Prepared) (hbs : 0 < e.bs)
    (hv : ∀ f, ValidMap f e.bs (e.ranges f)) (h : prepareAll e w ps = some (w', rs))
    (hd : (ps.map fun p => (p.file, p.lineno)).Nodup) (hw : ∀ p ∈ ps, w p.dst = none)
    (hs : ∀ p ∈ ps, ∀ q ∈ ps, q.unpack = true → p.dst ≠ q.stem)
    (hok : ∀ p ∈ ps, p.unpack = true → ∀ f, e.deploy p.file = some f → (e.run p.ext f).2 = true) :
    rs.map (·.file) = ps.map (·.dst) ∧ ∀ x ∈ ps.zip rs, ∃ c, Spec.content e x.1 = some c ∧ x.1.skip ≤ c.length ∧
      w' x.2.file = some (c.drop x.1.skip) ∧ x.1.size ≤ x.2.size ∧ c.length - x.1.skip ≤ 1024 * x.2.size ∧
      (x.2.size = x.1.size ∨ 1024 * x.2.size < c.length - x.1.skip + 1024) := by
  induction ps generalizing w rs with
  | nil =>
    simp only [prepareAll, Option.some.injEq, Prod.mk.injEq] at h
    rw [← h.2]
    simp
  | cons p ps ih =>
    unfold prepareAll at h
    rcases hp : prepare e w p with _ | ⟨w1, r⟩
    · simp [hp] at h
    · rw [hp] at h
      dsimp only at h
      rcases ha : prepareAll e w1 ps with _ | ⟨w2, rs'⟩
      · simp [ha] at h
      · simp only [ha, Option.some.injEq, Prod.mk.injEq] at h
        obtain ⟨rfl, rfl⟩ := h
        rw [List.map_cons, List.nodup_cons] at hd
        have ne : ∀ q ∈ ps, q.dst ≠ p.dst := by
          intro q hq e'
          obtain ⟨a, b⟩ := dst_inj q p e'
          exact hd.1 (List.mem_map.mpr ⟨q, hq, by rw [a, b]⟩)
        obtain ⟨c, h1, h2, h3, h4, h5, h6, h7⟩ := prepare_new hbs hv hp (hw p (by simp)) (hs p (by simp) p (by simp)) (hok p (by simp))
        obtain ⟨i1, i2⟩ := ih w1 rs' ha hd.2
          (by
            intro q hq
            rw [prepare_frame hp _ (ne q hq) (hs q (by simp [hq]) p (by simp))]
            exact hw q (by simp [hq]))
          (fun q hq q' hq' => hs q (by simp [hq]) q' (by simp [hq']))
          (fun q hq => hok q (by simp [hq]))
        refine ⟨by rw [List.map_cons, List.map_cons, h4, i1], ?_⟩
        intro x hx
        rw [List.zip_cons_cons, List.mem_cons] at hx
        rcases hx with rfl | hx
        · refine ⟨c, h1, h2, ?_, h5, h6, h7⟩
          dsimp only
          rw [h4, all_frame ha p.dst fun q hq => ⟨Ne.symm (ne q hq), hs p (by simp) q (by simp [hq])⟩]
          exact h3
        · exact i2 x hx

/-! ### What is false -/

/-- a directory with an archive and a file, and a program that finds the archive damaged after two bytes -/
def env : Env where
  deploy n := if n = "a.gz".toList then some [9, 9, 9] else if n = "b".toList then some [1, 2, 3, 4] else none
  run _ _ := ([5, 6], false)
  bs := 1
  ranges f := nobmapRanges 0 (blocksCnt 1 f.length)

/-- What can be seen of a run: names and sizes of the files of partitions, and their content. -/
def view (e : Env) (ps : List Part) : Option (List (Str × Nat × Option File)) :=
  (prepareAll e (fun _ => none) ps).map fun x => x.2.map fun r => (r.file, r.size, x.1 r.file)

/-- An archive that is damaged gives a partition with a part of its content, and no error. -/
theorem damaged_archive : view env [⟨"a".toList, ".gz".toList, true, 0, 3, 0⟩] = some [("a.gz.3".toList, 1, some [5, 6])] ∧
    Spec.content env ⟨"a".toList, ".gz".toList, true, 0, 3, 0⟩ = none := by decide +kernel

/-- Two lines of the same number in different files, one of which includes the other: the first partition gets the content of the second, followed by
the rest of the first. -/
theorem same_line : view env [⟨"b".toList, [], false, 0, 3, 0⟩, ⟨"b".toList, [], false, 2, 3, 0⟩] =
    some [("b.3".toList, 1, some [3, 4, 3, 4]), ("b.3".toList, 1, some [3, 4, 3, 4])] := by decide +kernel

/-! ## Examples -/

/-- two partitions from one file, in two lines -/
example : view env [⟨"b".toList, [], false, 0, 3, 0⟩, ⟨"b".toList, [], false, 2, 4, 7⟩] =
    some [("b.3".toList, 1, some [1, 2, 3, 4]), ("b.4".toList, 7, some [3, 4])] := by decide +kernel

example : ∀ f, ValidMap f env.bs (env.ranges f) := fun f => (nobmap_map_valid f 1 (by decide)).2

/-- an archive with a good program; the name of what is unpacked is not that of the copy -/
example : view { env with run := fun _ _ => ([5, 6], true) } [⟨"a".toList, ".gz".toList, true, 1, 3, 0⟩] =
      some [("a.gz.3".toList, 1, some [6])] ∧
    (⟨"a".toList, ".gz".toList, true, 1, 3, 0⟩ : Part).dst ≠ "a".toList := by decide +kernel

end Isar.Wic.RawCopy
