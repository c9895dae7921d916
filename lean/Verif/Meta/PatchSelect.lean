import Verif.Meta.PatchModel
/-!
# Which patches are applied
-/

namespace Meta.Patch
open Py

namespace Spec

/-- A name without its ending: it has a character that is not a dot. -/
def Stem (r : Str) : Prop := ∃ c, c ∈ r ∧ c ≠ '.'

/-- The name of a patch: it ends in `.patch` or `.diff`, or in this and the ending of a compressed file. -/
def PatchName (b : Str) : Prop :=
  ∃ r e z, b = r ++ e ++ z ∧ Stem r ∧ (e = ".patch".toList ∨ e = ".diff".toList) ∧
    (z = [] ∨ z = ".gz".toList ∨ z = ".bz2".toList ∨ z = ".xz".toList ∨ z = ".Z".toList)

/-- A limit on something, if it is given. -/
def Limit (parm : Dict Str) (k : String) (ok : Str → Prop) : Prop := ∀ v, parm.lookup k.toList = some v → ok v

/-- Is a patch meant for this date, revision and version?  Dates and revisions are compared as strings. -/
def Wanted (cmp : Str → Str → Str → Option Bool) (env : Env) (parm : Dict Str) : Prop :=
  Limit parm "maxdate" (fun v => ∃ d, env.date = some d ∧ Bb.Version.strLt v d = false) ∧
  Limit parm "mindate" (fun v => ∃ d, env.date = some d ∧ Bb.Version.strLt d v = false) ∧
  (env.rev ≠ [] → Limit parm "minrev" (fun v => Bb.Version.strLt env.rev v = false)) ∧
  (env.rev ≠ [] → Limit parm "maxrev" (fun v => Bb.Version.strLt v env.rev = false)) ∧
  (env.rev ≠ [] → Limit parm "rev" (fun v => ∃ a b, env.rev = a ++ v ++ b)) ∧
  (env.rev ≠ [] → Limit parm "notrev" (fun v => ¬ ∃ a b, env.rev = a ++ v ++ b)) ∧
  Limit parm "maxver" (fun v => cmp env.pv v ">".toList = some false) ∧
  Limit parm "minver" (fun v => cmp env.pv v "<".toList = some false)

/-- Is an item of `SRC_URI` a patch? -/
def IsPatch (u : Url) : Prop :=
  u.isDir = false ∧ match u.parm.lookup "apply".toList with
    | some a => a.map Char.toLower ∈ ["yes".toList, "y".toList, "true".toList, "t".toList, "1".toList]
    | none => PatchName (basename u.path)

end Spec
open Spec

/-! ## Endings -/

theorem basename_name {b : Str} (h : '/' ∉ b) : basename b = b ∧ headPart b = [] := by
  have h1 : ∀ x ∈ b.reverse, decide (x ≠ '/') = true := not_slash_rev h
  have h2 : ∀ l : Str, (∀ x ∈ l, decide (x ≠ '/') = true) → l.takeWhile (· ≠ '/') = l ∧ l.dropWhile (· ≠ '/') = [] := by
    intro l
    induction l with
    | nil => intro _; exact ⟨rfl, rfl⟩
    | cons c l ih =>
      intro hl
      have hc := hl c List.mem_cons_self
      have ih := ih fun x hx => hl x (List.mem_cons_of_mem _ hx)
      rw [List.takeWhile_cons, List.dropWhile_cons, if_pos hc, if_pos hc, ih.1]
      exact ⟨rfl, ih.2⟩
  unfold basename headPart
  rw [(h2 _ h1).1, (h2 _ h1).2, List.reverse_reverse]
  exact ⟨rfl, rfl⟩

theorem basename_noslash (s : Str) : '/' ∉ basename s := by
  unfold basename
  intro h
  have h := List.mem_reverse.1 h
  have key : ∀ l : Str, '/' ∉ l.takeWhile (· ≠ '/') := by
    intro l
    induction l with
    | nil => exact nofun
    | cons c l ih =>
      rw [List.takeWhile_cons]
      split
      · rename_i hc
        intro h
        rcases List.mem_cons.1 h with h | h
        · exact of_decide_eq_true hc h.symm
        · exact ih h
      · exact nofun
  exact key _ h

theorem any_stem {r : Str} : r.any (· ≠ '.') = true ↔ Stem r := by
  rw [List.any_eq_true]
  exact ⟨fun ⟨c, h, hc⟩ => ⟨c, h, of_decide_eq_true hc⟩, fun ⟨c, h, hc⟩ => ⟨c, h, decide_eq_true hc⟩⟩

/-- The last dot. -/
theorem last_dot {b : Str} (h : '.' ∈ b) : ∃ r x, b = r ++ '.' :: x ∧ '.' ∉ x := by
  obtain ⟨a, c, e, hn⟩ := List.eq_append_cons_of_mem (List.mem_reverse.2 h)
  refine ⟨c.reverse, a.reverse, ?_, fun h => hn (List.mem_reverse.1 h)⟩
  rw [← List.reverse_reverse b, e, List.reverse_append, List.reverse_cons, List.append_assoc]
  rfl

theorem splitext_dot {r x : Str} (hs : '/' ∉ r ++ '.' :: x) (hx : '.' ∉ x) :
    splitextRoot (r ++ '.' :: x) = if r.any (· ≠ '.') then r else r ++ '.' :: x := by
  unfold splitextRoot
  rw [(basename_name hs).1, (basename_name hs).2]
  have hpre : ((r ++ '.' :: x).reverse.dropWhile (· ≠ '.')).reverse.dropLast = r := by
    have e1 : (r ++ '.' :: x).reverse = x.reverse ++ '.' :: r.reverse := by
      rw [List.reverse_append, List.reverse_cons, List.append_assoc]; rfl
    have e2 : ∀ c ∈ x.reverse, decide (c ≠ '.') = true := fun c hc =>
      decide_eq_true (show ¬ c = '.' from fun e => hx (e ▸ List.mem_reverse.1 hc))
    have e3 : decide ('.' ≠ '.') = false := rfl
    rw [e1, dropWhile_append_stop e2 e3, List.reverse_cons,
      List.reverse_reverse, List.dropLast_concat]
  have hdot : (r ++ '.' :: x).contains '.' = true := by
    rw [List.contains_iff_mem]
    exact List.mem_append_right _ List.mem_cons_self
  dsimp only
  rw [hpre, hdot, Bool.true_and, List.nil_append]

theorem splitext_none {b : Str} (h : '.' ∉ b) : splitextRoot b = b ∨ '/' ∈ b := by
  by_cases hs : '/' ∈ b
  · exact Or.inr hs
  · left
    unfold splitextRoot
    rw [(basename_name hs).1]
    dsimp only
    rw [if_neg]
    intro hc
    rw [Bool.and_eq_true, List.contains_iff_mem] at hc
    exact h hc.1

theorem ext_iff {b e : Str} (hb : '/' ∉ b) (he : e ≠ []) : ext b = e ↔ ∃ r x, b = r ++ e ∧ e = '.' :: x ∧ '.' ∉ x ∧ Stem r ∧ splitextRoot b = r := by
  constructor
  · intro h
    by_cases hd : '.' ∈ b
    · obtain ⟨r, x, rfl, hx⟩ := last_dot hd
      have hs := splitext_dot hb hx
      unfold ext at h
      by_cases ha : r.any (· ≠ '.') = true
      · rw [if_pos ha] at hs
        rw [hs, List.drop_left] at h
        exact ⟨r, x, by rw [← h], h.symm, hx, any_stem.1 ha, hs⟩
      · rw [if_neg ha] at hs
        rw [hs, List.drop_length] at h
        exact absurd h.symm he
    · have hs := (splitext_none hd).resolve_right hb
      unfold ext at h
      rw [hs, List.drop_length] at h
      exact absurd h.symm he
  · rintro ⟨r, x, rfl, rfl, hx, hst, hs⟩
    unfold ext
    rw [hs, List.drop_left]

theorem ext_stem {r x : Str} (hb : '/' ∉ r ++ '.' :: x) (hx : '.' ∉ x) (hr : Stem r) : ext (r ++ '.' :: x) = '.' :: x ∧ splitextRoot (r ++ '.' :: x) = r := by
  have hs := splitext_dot hb hx
  rw [if_pos (any_stem.2 hr)] at hs
  exact ⟨by unfold ext; rw [hs, List.drop_left], hs⟩

theorem stem_append {r e : Str} (h : Stem r) : Stem (r ++ e) := by
  obtain ⟨c, h1, h2⟩ := h
  exact ⟨c, List.mem_append_left _ h1, h2⟩

/-- The test of the code is that for the name of a patch. -/
theorem patchName_iff {b : Str} (hb : '/' ∉ b) :
    PatchName b ↔ (let e := if compressed b then ext (splitextRoot b) else ext b; e = ".diff".toList ∨ e = ".patch".toList) := by
  dsimp only
  constructor
  · rintro ⟨r, e, z, rfl, hr, he, hz⟩
    have he' : ∃ x, e = '.' :: x ∧ '.' ∉ x ∧ '/' ∉ x := by
      rcases he with rfl | rfl
      · exact ⟨"patch".toList, rfl, by decide, by decide⟩
      · exact ⟨"diff".toList, rfl, by decide, by decide⟩
    obtain ⟨x, hx, hx1, hx2⟩ := he'
    have hre : '/' ∉ r ++ e := fun h => hb (List.mem_append_left _ h)
    have h1 : ext (r ++ e) = e := by
      rw [hx] at hre ⊢
      exact (ext_stem hre hx1 hr).1
    have hgoal : (e = ".diff".toList ∨ e = ".patch".toList) := he.symm
    by_cases hz0 : z = []
    · subst hz0
      rw [List.append_nil]
      have hc : compressed (r ++ e) = false := by
        unfold compressed
        rw [h1]
        rcases he with rfl | rfl <;> decide
      rw [hc, if_neg nofun, h1]
      exact hgoal
    · have hz' : ∃ y, z = '.' :: y ∧ '.' ∉ y := by
        rcases hz with h | rfl | rfl | rfl | rfl
        · exact absurd h hz0
        · exact ⟨"gz".toList, rfl, by decide⟩
        · exact ⟨"bz2".toList, rfl, by decide⟩
        · exact ⟨"xz".toList, rfl, by decide⟩
        · exact ⟨"Z".toList, rfl, by decide⟩
      obtain ⟨y, hy, hy1⟩ := hz'
      have h2 : ext (r ++ e ++ z) = z ∧ splitextRoot (r ++ e ++ z) = r ++ e := by
        rw [hy] at hb ⊢
        exact ext_stem hb hy1 (stem_append hr)
      have hc : compressed (r ++ e ++ z) = true := by
        unfold compressed
        rw [h2.1]
        rcases hz with h | rfl | rfl | rfl | rfl
        · exact absurd h hz0
        all_goals decide
      rw [hc, if_pos rfl, h2.2, h1]
      exact hgoal
  · intro h
    cases hc : compressed b with
    | false =>
      rw [hc, if_neg nofun] at h
      rcases h with h | h
      · obtain ⟨r, x, h1, -, -, h4, -⟩ := (ext_iff hb (by decide)).1 h
        exact ⟨r, _, [], by rw [List.append_nil]; exact h1, h4, Or.inr rfl, Or.inl rfl⟩
      · obtain ⟨r, x, h1, -, -, h4, -⟩ := (ext_iff hb (by decide)).1 h
        exact ⟨r, _, [], by rw [List.append_nil]; exact h1, h4, Or.inl rfl, Or.inl rfl⟩
    | true =>
      rw [hc, if_pos rfl] at h
      unfold compressed at hc
      have hz := of_decide_eq_true hc
      have hz' : ext b = ".gz".toList ∨ ext b = ".bz2".toList ∨ ext b = ".xz".toList ∨ ext b = ".Z".toList := by
        rcases List.mem_cons.1 hz with hz | hz
        · exact Or.inl hz
        rcases List.mem_cons.1 hz with hz | hz
        · exact Or.inr (Or.inl hz)
        rcases List.mem_cons.1 hz with hz | hz
        · exact Or.inr (Or.inr (Or.inl hz))
        · exact Or.inr (Or.inr (Or.inr (List.mem_singleton.1 hz)))
      have hne : ext b ≠ [] := by
        rcases hz' with e | e | e | e <;> rw [e] <;> decide
      obtain ⟨r, x, h1, -, -, -, h5⟩ := (ext_iff hb hne).1 rfl
      rw [h5] at h
      have hr : '/' ∉ r := fun hm => hb (h1 ▸ List.mem_append_left _ hm)
      rcases h with h | h
      · obtain ⟨r', x', g1, -, -, g4, -⟩ := (ext_iff hr (by decide)).1 h
        exact ⟨r', _, ext b, by rw [← g1]; exact h1, g4, Or.inr rfl, Or.inr hz'⟩
      · obtain ⟨r', x', g1, -, -, g4, -⟩ := (ext_iff hr (by decide)).1 h
        exact ⟨r', _, ext b, by rw [← g1]; exact h1, g4, Or.inl rfl, Or.inr hz'⟩

/-! ## What is wanted -/

theorem has_false {parm : Dict Str} {k : String} {p : Str → Bool} {ok : Str → Prop} (h : ∀ v, p v = false ↔ ok v) :
    has parm k.toList p = false ↔ Limit parm k ok := by
  unfold has Limit
  cases hl : parm.lookup k.toList with
  | none => exact ⟨fun _ v hv => (nomatch hv), fun _ => rfl⟩
  | some v =>
    dsimp only
    rw [h]
    exact ⟨fun hv w hw => by injection hw with hw; exact hw ▸ hv, fun hv => hv v rfl⟩

theorem revGuard {rev : Str} {b : Bool} {ok : Prop} (h : b = false ↔ ok) : ¬ (rev ≠ [] ∧ b = true) ↔ (rev ≠ [] → ok) := by
  rw [← h]
  cases b
  · exact ⟨fun _ _ => rfl, fun _ h => nomatch h.2⟩
  · exact ⟨fun hn hr => absurd ⟨hr, rfl⟩ hn, fun hn h => nomatch hn h.1⟩

theorem notSub {v s : Str} : (!isSub v s) = false ↔ ∃ a b, s = a ++ v ++ b := by
  rw [Bool.not_eq_false', isSub_iff]

theorem isSub_false {v s : Str} : isSub v s = false ↔ ¬ ∃ a b, s = a ++ v ++ b := by
  rw [Bool.eq_false_iff, Ne, isSub_iff]

/-- C148: a patch is applied if and only if it is meant for this date, revision and version. -/
theorem wanted_iff {cmp : Str → Str → Str → Option Bool} {env : Env} {parm : Dict Str} : shouldApply cmp env parm = some true ↔ Wanted cmp env parm := by
  unfold shouldApply Wanted
  dsimp only
  have h3 := revGuard (rev := env.rev) (has_false (parm := parm) (k := "minrev") (p := fun v => Bb.Version.strLt env.rev v) fun v => Iff.rfl)
  have h4 := revGuard (rev := env.rev) (has_false (parm := parm) (k := "maxrev") (p := fun v => Bb.Version.strLt v env.rev) fun v => Iff.rfl)
  have h5 := revGuard (rev := env.rev) (has_false (parm := parm) (k := "rev") (p := fun v => !isSub v env.rev) fun v => notSub)
  have h6 := revGuard (rev := env.rev) (has_false (parm := parm) (k := "notrev") (p := fun v => isSub v env.rev) fun v => isSub_false)
  -- dates
  have hdates : datesOk env (parm.lookup "maxdate".toList) (parm.lookup "mindate".toList) = some true ↔
      Limit parm "maxdate" (fun v => ∃ d, env.date = some d ∧ Bb.Version.strLt v d = false) ∧
      Limit parm "mindate" (fun v => ∃ d, env.date = some d ∧ Bb.Version.strLt d v = false) := by
    unfold Limit
    generalize parm.lookup "maxdate".toList = mx
    generalize parm.lookup "mindate".toList = mn
    unfold datesOk
    cases env.date with
    | none =>
      cases mx with
      | none =>
        cases mn with
        | none => exact ⟨fun _ => ⟨fun v hv => (nomatch hv), fun v hv => (nomatch hv)⟩, fun _ => rfl⟩
        | some n =>
          rw [if_neg fun h => nomatch h.2]
          exact ⟨fun h => (nomatch h), fun h => by obtain ⟨d, hd, -⟩ := h.2 n rfl; cases hd⟩
      | some x =>
        rw [if_neg fun h => nomatch h.1]
        exact ⟨fun h => (nomatch h), fun h => by obtain ⟨d, hd, -⟩ := h.1 x rfl; cases hd⟩
    | some d =>
      have e1 : (if mx = none ∧ mn = none then some true else
          (if mx.any (fun v => Bb.Version.strLt v d) = true then some false else some (!mn.any (fun v => Bb.Version.strLt d v)))) = some true ↔
          mx.any (fun v => Bb.Version.strLt v d) = false ∧ mn.any (fun v => Bb.Version.strLt d v) = false := by
        split
        · rename_i h
          rw [h.1, h.2]
          exact ⟨fun _ => ⟨rfl, rfl⟩, fun _ => rfl⟩
        · cases mx.any (fun v => Bb.Version.strLt v d) <;> cases mn.any (fun v => Bb.Version.strLt d v) <;> simp
      have e2 : ∀ (o : Option Str) (f : Str → Bool), o.any f = false ↔ ∀ v, o = some v → f v = false := by
        intro o f
        cases o with
        | none => exact ⟨fun _ v hv => (nomatch hv), fun _ => rfl⟩
        | some v =>
          rw [Option.any_some]
          exact ⟨fun h w hw => by injection hw with hw; exact hw ▸ h, fun h => h v rfl⟩
      refine e1.trans ?_
      rw [e2, e2]
      constructor
      · rintro ⟨h1, h2⟩
        exact ⟨fun v hv => ⟨d, rfl, h1 v hv⟩, fun v hv => ⟨d, rfl, h2 v hv⟩⟩
      · rintro ⟨h1, h2⟩
        refine ⟨fun v hv => ?_, fun v hv => ?_⟩
        · obtain ⟨d', e, h⟩ := h1 v hv
          injection e with e
          exact e ▸ h
        · obtain ⟨d', e, h⟩ := h2 v hv
          injection e with e
          exact e ▸ h
  generalize datesOk env (parm.lookup "maxdate".toList) (parm.lookup "mindate".toList) = dates at hdates ⊢
  cases dates with
  | none =>
    dsimp only
    refine ⟨fun h => (nomatch h), fun h => ?_⟩
    have := hdates.2 ⟨h.1, h.2.1⟩
    cases this
  | some b =>
    cases b with
    | false =>
      dsimp only
      refine ⟨fun h => (by injection h with h; cases h), fun h => ?_⟩
      have := hdates.2 ⟨h.1, h.2.1⟩
      injection this with this
      cases this
    | true =>
      obtain ⟨hx, hn⟩ := hdates.1 rfl
      dsimp only
      have no : ∀ {Q : Prop}, ¬ Q → ((some false : Option Bool) = some true ↔ Q) :=
        fun hq => ⟨fun h => (by injection h with h; cases h), fun h => absurd h hq⟩
      split
      · rename_i hc
        exact no fun hw => h3.2 hw.2.2.1 hc
      · rename_i hc3
        split
        · rename_i hc
          exact no fun hw => h4.2 hw.2.2.2.1 hc
        · rename_i hc4
          split
          · rename_i hc
            exact no fun hw => h5.2 hw.2.2.2.2.1 hc
          · rename_i hc5
            split
            · rename_i hc
              exact no fun hw => h6.2 hw.2.2.2.2.2.1 hc
            · rename_i hc6
              have hmin : (match parm.lookup "minver".toList with
                  | none => some true
                  | some v => (cmp env.pv v "<".toList).map (!·)) = some true ↔ Limit parm "minver" (fun v => cmp env.pv v "<".toList = some false) := by
                unfold Limit
                cases hl : parm.lookup "minver".toList with
                | none => exact ⟨fun _ v hv => (nomatch hv), fun _ => rfl⟩
                | some v =>
                  dsimp only
                  constructor
                  · intro h w hw
                    injection hw with hw
                    subst hw
                    cases hcmp : cmp env.pv v "<".toList with
                    | none => rw [hcmp] at h; cases h
                    | some b =>
                      rw [hcmp] at h
                      injection h with h
                      cases b
                      · rfl
                      · cases h
                  · intro h
                    rw [h v rfl]; rfl
              unfold Limit at hx hn ⊢
              cases hl : parm.lookup "maxver".toList with
              | none =>
                dsimp only
                exact ⟨fun h => ⟨hx, hn, h3.1 hc3, h4.1 hc4, h5.1 hc5, h6.1 hc6, fun v hv => (nomatch hv), hmin.1 h⟩,
                  fun h => hmin.2 h.2.2.2.2.2.2.2⟩
              | some v =>
                dsimp only
                cases hcmp : cmp env.pv v ">".toList with
                | none =>
                  dsimp only
                  refine ⟨fun h => (nomatch h), fun h => ?_⟩
                  have := h.2.2.2.2.2.2.1 v rfl
                  rw [hcmp] at this
                  cases this
                | some b =>
                  cases b with
                  | true =>
                    dsimp only
                    refine no fun h => ?_
                    have := h.2.2.2.2.2.2.1 v rfl
                    rw [hcmp] at this
                    injection this with this
                    cases this
                  | false =>
                    dsimp only
                    exact ⟨fun h => ⟨hx, hn, h3.1 hc3, h4.1 hc4, h5.1 hc5, h6.1 hc6,
                      fun w hw => by injection hw with hw; exact hw ▸ hcmp, hmin.1 h⟩, fun h => hmin.2 h.2.2.2.2.2.2.2⟩

/-- C148: an item of `SRC_URI` is applied if and only if it is a patch and meant for this date, revision and version. -/
theorem applied_iff {cmp : Str → Str → Str → Option Bool} {env : Env} {workdir : Str} {u : Url} :
    (∃ p, patchOf cmp env workdir u = some (some p)) ↔ IsPatch u ∧ Wanted cmp env u.parm := by
  have hpath : (∃ x, patchPath workdir u = some (some x)) ↔ IsPatch u := by
    unfold patchPath IsPatch
    cases hd : u.isDir with
    | true => exact ⟨fun ⟨_, h⟩ => (by rw [if_pos rfl] at h; injection h with h; cases h), fun h => (nomatch h.1)⟩
    | false =>
      rw [if_neg nofun]
      dsimp only
      cases hl : u.parm.lookup "apply".toList with
      | some a =>
        dsimp only
        unfold boolean
        dsimp only
        by_cases ha : a.map Char.toLower ∈ ["yes".toList, "y".toList, "true".toList, "t".toList, "1".toList]
        · rw [if_pos ha]
          exact ⟨fun _ => ⟨rfl, ha⟩, fun _ => ⟨_, rfl⟩⟩
        · rw [if_neg ha]
          refine ⟨?_, fun h => absurd h.2 ha⟩
          rintro ⟨x, h⟩
          exfalso
          split at h
          · cases h
          · rename_i hb
            split at hb
            · injection hb with hb; cases hb
            · cases hb
          · injection h with h; cases h
      | none =>
        dsimp only
        rw [patchName_iff (basename_noslash u.path)]
        dsimp only
        generalize (if compressed (basename u.path) = true then ext (splitextRoot (basename u.path)) else ext (basename u.path)) = e
        by_cases h : e = ".diff".toList ∨ e = ".patch".toList
        · rw [if_pos h]; exact ⟨fun _ => ⟨rfl, h⟩, fun _ => ⟨_, rfl⟩⟩
        · rw [if_neg h]; exact ⟨fun ⟨_, h⟩ => (by injection h with h; cases h), fun h' => absurd h'.2 h⟩
  rw [← hpath, ← wanted_iff]
  unfold patchOf
  cases hp : patchPath workdir u with
  | none => exact ⟨fun ⟨_, h⟩ => (nomatch h), fun ⟨⟨_, h⟩, _⟩ => (nomatch h)⟩
  | some o =>
    cases o with
    | none => exact ⟨fun ⟨_, h⟩ => (by injection h with h; cases h), fun ⟨⟨_, h⟩, _⟩ => (by injection h with h; cases h)⟩
    | some x =>
      dsimp only
      cases shouldApply cmp env u.parm with
      | none => exact ⟨fun ⟨_, h⟩ => (nomatch h), fun ⟨_, h⟩ => (nomatch h)⟩
      | some b =>
        cases b with
        | false => exact ⟨fun ⟨_, h⟩ => (by injection h with h; cases h), fun ⟨_, h⟩ => (by injection h with h; cases h)⟩
        | true => exact ⟨fun _ => ⟨⟨x, rfl⟩, rfl⟩, fun _ => ⟨_, rfl⟩⟩

/-- C148: the patches are in the order of `SRC_URI`, none is left out and none is twice. -/
theorem order_kept {cmp : Str → Str → Str → Option Bool} {env : Env} {workdir : Str} : ∀ {us : List Url} {ps : List Patch},
    srcPatches cmp env workdir us = some ps ↔ ∃ os : List (Option Patch), us.map (patchOf cmp env workdir) = os.map some ∧ ps = os.filterMap id
  | [], ps => by
    constructor
    · intro h
      injection h with h
      exact ⟨[], rfl, h.symm⟩
    · rintro ⟨os, h1, h2⟩
      have : os = [] := List.map_eq_nil_iff.1 h1.symm
      rw [h2, this]; rfl
  | u :: us, ps => by
    unfold srcPatches
    constructor
    · intro h
      cases ho : patchOf cmp env workdir u with
      | none => rw [ho] at h; cases h
      | some o =>
        rw [ho] at h
        dsimp only at h
        cases hr : srcPatches cmp env workdir us with
        | none => rw [hr] at h; cases h
        | some qs =>
          rw [hr] at h
          dsimp only at h
          injection h with h
          obtain ⟨os, h1, h2⟩ := order_kept.1 hr
          refine ⟨o :: os, by rw [List.map_cons, List.map_cons, ho, h1], ?_⟩
          rw [← h, h2]
          cases o <;> rfl
    · rintro ⟨os, h1, h2⟩
      cases os with
      | nil => cases h1
      | cons o os =>
        rw [List.map_cons, List.map_cons] at h1
        injection h1 with h1 h3
        rw [h1, order_kept.2 ⟨os, h3, rfl⟩, h2]
        cases o <;> rfl

def cmpNone : Str → Str → Str → Option Bool := fun _ _ _ => some false

example : srcPatches cmpNone ⟨none, "abc1".toList, "1.0".toList⟩ "/w".toList
    [⟨"/d/a.tar.gz".toList, false, []⟩, ⟨"/d/x.patch".toList, false, [("striplevel".toList, "2".toList)]⟩,
     ⟨"/d/y.diff.gz".toList, false, [("rev".toList, "bc".toList)]⟩, ⟨"/d/z.patch".toList, false, [("apply".toList, "No".toList)]⟩] =
    some [⟨"/d/x.patch".toList, "x.patch".toList, "2".toList, none⟩, ⟨"/w/y.diff".toList, "y.diff".toList, "1".toList, none⟩] := by
  decide +kernel

/-- Beside C148: a date for a patch when there is no date of the sources is an exception. -/
theorem no_date : shouldApply cmpNone ⟨none, [], []⟩ [("maxdate".toList, "20200101".toList)] = none := by decide +kernel

end Meta.Patch
