import Verif.Bb.FetchLemmas4
/-!
# What a fetch can change

A property of the world that every single operation keeps is kept by `Fetch.download`, at every point
where it may be killed.
-/

namespace Bb.Fetch
open Py

/-- A property that the operations on the paths `S` and the requests `C` keep. -/
structure Closed (env : Env) (S C : Str → Prop) (I : World → Prop) : Prop where
  step : ∀ w s n, I w → I { w with script := s, now := n }
  stamp : ∀ w p v, S p → I w → I { w with stamps := upd w.stamps p v }
  gone : ∀ w p, S p → I w → I { w with files := upd w.files p none }
  move : ∀ w p c f, S p → w.files p = some f → I w →
    I { w with files := upd w.files p none, bad := (p, c, f) :: w.bad }
  link : ∀ w p t, S p → S t → I w → I { w with files := upd w.files p (w.files t) }
  tmp : ∀ w p v, S p → I w → I { w with tmps := upd w.tmps p v }
  put : ∀ w p f k url part, S p → env.answer k url = .done part f → I w →
    I { w with files := upd w.files p (some f), tmps := upd w.tmps p none }
  contact : ∀ w url, C url → I w → I { w with contacts := url :: w.contacts }

/-- The property holds after the computation, whatever its result. -/
def Kept {α : Type} (I : World → Prop) (m : M α) : Prop := ∀ w, I w → I (m w).2

section rules
variable {α β : Type} {I : World → Prop}

theorem kept_pure (a : α) : Kept I (pure a : M α) := fun _ h => h

theorem kept_raise (e : Exc) : Kept I (raise e : M α) := fun _ h => h

theorem kept_bind {m : M α} {f : α → M β} (h : Kept I m) (hf : ∀ a, Kept I (f a)) :
    Kept I (m >>= f) := by
  intro w hw
  rw [bind_def]
  have := h w hw
  cases hm : m w with
  | mk r w1 =>
    rw [hm] at this
    cases r with
    | ok a => exact hf a w1 this
    | error e => exact this

theorem kept_catch {m : M α} {h : Exc → M α} (hm : Kept I m) (hh : ∀ e, Kept I (h e)) :
    Kept I (M.catch m h) := by
  intro w hw
  unfold M.catch
  have := hm w hw
  cases hm' : m w with
  | mk r w1 =>
    rw [hm'] at this
    cases r with
    | ok a => exact this
    | error e => exact hh e w1 this

theorem kept_ite {c : Prop} [Decidable c] {m n : M α} (h : Kept I m) (h' : Kept I n) :
    Kept I (if c then m else n) := by
  by_cases hc : c
  · rw [if_pos hc]; exact h
  · rw [if_neg hc]; exact h'

theorem kept_look {f : World → M α} (h : ∀ w0, Kept I (f w0)) : Kept I (look >>= f) :=
  fun w hw => h w w hw

theorem kept_change {f : World → World} (h : ∀ w, I w → I (f w)) : Kept I (change f) :=
  fun w hw => h w hw

theorem kept_onlyIf {c : Prop} [Decidable c] {m : M Unit} (h : Kept I m) : Kept I (onlyIf c m) :=
  kept_ite h (kept_pure ())

theorem kept_tri {m : M α} (h : Kept I m) : Tri I m (fun _ w => I w) (fun _ w => I w) :=
  fun w hw => ⟨fun a w' e => by have := h w hw; rw [e] at this; exact this,
    fun x w' e => by have := h w hw; rw [e] at this; exact this⟩

theorem tri_kept {m : M α} {P : World → Prop} (h : Tri P m (fun _ w => I w) (fun _ w => I w)) {w : World}
    (hp : P w) : I (m w).2 := by
  cases hm : m w with
  | mk r w1 =>
    cases r with
    | ok a => exact (h w hp).1 a w1 hm
    | error e => exact (h w hp).2 e w1 hm

end rules

section
variable {env : Env} {S C : Str → Prop} {I : World → Prop}

/-- The clock and the script may change. -/
def Steps (I : World → Prop) : Prop := ∀ w s n, I w → I { w with script := s, now := n }

theorem kept_step (h : Steps I) : Kept I step := by
  intro w hw
  unfold step
  cases hs : w.script with
  | nil => exact hw
  | cons x r =>
    cases x with
    | ok t => exact h w r _ hw
    | fault b => exact h w r w.now hw
    | crash => exact h w r w.now hw

theorem kept_io (h : Steps I) : Kept I io := by
  refine kept_bind (kept_step h) fun r => ?_
  cases r with
  | none => exact kept_pure _
  | some b => exact kept_raise _

theorem kept_readFile (h : Steps I) (at' : World → Option File) : Kept I (readFile at') := by
  refine kept_bind (kept_io h) fun _ => kept_look fun w => ?_
  cases at' w with
  | none => exact kept_raise _
  | some f => exact kept_pure _

theorem kept_computeSums (h : Steps I) (pre : Sums) (at' : World → Option File) (l : List Alg) :
    Kept I (computeSums env pre at' l) := by
  induction l with
  | nil => exact kept_pure _
  | cons a l ih =>
    refine kept_bind ?_ fun s => kept_bind ih fun r => kept_pure _
    unfold sumOf
    cases pre.lookup a with
    | some s => exact kept_pure _
    | none => exact kept_bind (kept_readFile h at') fun d => kept_pure _

theorem kept_raiseBad (s : Sums) (b : Option Str) : Kept I (raiseBad s b) := by
  cases b with
  | none => exact kept_pure _
  | some x => exact kept_ite (kept_raise _) (kept_pure _)

theorem kept_verifyChecksum (h : Steps I) (u : Ud) (pre : Sums) (at' : World → Option File)
    (fatal : Bool) : Kept I (verifyChecksum env u pre at' fatal) := by
  unfold verifyChecksum
  refine kept_ite (kept_pure _) (kept_bind (kept_computeSums h pre at' algs) fun s => ?_)
  exact kept_ite (kept_ite (kept_raise _) (kept_ite (kept_pure _) (kept_raiseBad _ _)))
    (kept_raiseBad _ _)

variable (hc : Closed env S C I)
include hc

theorem kept_removeStamp {p : Str} (hp : S p) : Kept I (removeStamp env p) := by
  refine kept_look fun w => kept_ite (kept_bind (kept_io hc.step) fun _ => kept_change ?_) (kept_pure _)
  exact fun w h => hc.stamp w p none hp h

theorem kept_removeFile {p : Str} (hp : S p) : Kept I (removeFile env p) := by
  refine kept_look fun w => kept_ite (kept_bind (kept_io hc.step) fun _ => kept_change ?_) (kept_pure _)
  exact fun w h => hc.gone w p hp h

theorem kept_renameBad {p : Str} (hp : S p) (c : Str) : Kept I (renameBad p c) := by
  refine kept_look fun w => kept_ite (kept_bind (kept_step hc.step) fun r => ?_) (kept_pure _)
  cases r with
  | some b => exact kept_pure _
  | none =>
    refine kept_change fun w h => ?_
    unfold moveAway
    cases hf : w.files p with
    | none => exact h
    | some f => exact hc.move w p c f hp hf h

theorem kept_writeStamp {p : Str} (hp : S p) (s : Sums) : Kept I (writeStamp p s) := by
  refine kept_bind (kept_io hc.step) fun _ => kept_bind (kept_change ?_) fun _ =>
    kept_bind (kept_io hc.step) fun _ => kept_change ?_
  · exact fun w h => hc.stamp w p _ hp h
  · exact fun w h => hc.stamp w p _ hp h

theorem kept_touch {p : Str} (hp : S p) : Kept I (touch p) := by
  refine kept_bind (kept_step hc.step) fun r => ?_
  cases r with
  | some b => exact kept_pure _
  | none => exact kept_change fun w h => hc.stamp w p _ hp h

theorem kept_verifyDonestamp {u : Ud} (hp : S u.path) (o : Option Ud) :
    Kept I (verifyDonestamp env u o) := by
  unfold verifyDonestamp
  refine kept_ite (kept_pure _) (kept_look fun w => kept_ite ?_ (kept_catch ?_ fun e => ?_))
  · exact kept_bind (kept_removeStamp hc hp) fun _ => kept_pure _
  · exact kept_bind (kept_verifyChecksum hc.step _ _ _ _) fun s =>
      kept_bind (kept_onlyIf (kept_writeStamp hc hp s)) fun _ => kept_pure _
  · cases e with
    | checksum c =>
      exact kept_bind (kept_renameBad hc hp c) fun _ => kept_bind (kept_removeStamp hc hp) fun _ =>
        kept_pure _
    | crash => exact kept_raise _
    | io b => exact kept_raise _
    | noChecksum => exact kept_raise _
    | network => exact kept_raise _
    | fetch => exact kept_raise _

theorem kept_updateStamp {u : Ud} (hp : S u.path) : Kept I (updateStamp env u) := by
  unfold updateStamp
  refine kept_ite (kept_pure _) (kept_look fun w => kept_ite (kept_touch hc hp)
    (kept_catch ?_ fun e => ?_))
  · exact kept_bind (kept_verifyChecksum hc.step _ _ _ _) fun s => kept_writeStamp hc hp s
  · cases e with
    | checksum c =>
      exact kept_bind (kept_renameBad hc hp c) fun _ => kept_bind (kept_removeStamp hc hp) fun _ =>
        kept_raise _
    | crash => exact kept_raise _
    | io b => exact kept_raise _
    | noChecksum => exact kept_raise _
    | network => exact kept_raise _
    | fetch => exact kept_raise _

/-- `wget` wrote a whole file, or no file. -/
def Whole (env : Env) (I : World → Prop) (p : Str) (w : World) : Prop :=
  I w ∧ ∀ f, w.tmps p = some f → ∃ k url part, env.answer k url = .done part f

omit hc in
theorem steps_whole (hs : Steps I) (p : Str) : Steps (Whole env I p) :=
  fun w s n h => ⟨hs w s n h.1, h.2⟩

theorem tri_transfer_whole {u : Ud} (hp : S u.path) (hu : C u.url) :
    Tri I (transfer env u) (fun _ w => Whole env I u.path w) (fun _ w => I w) := by
  unfold transfer
  refine tri_look fun w1 h1 => ?_
  refine tri_bind (R := fun _ w => I w) (tri_change fun w h => by
    rw [h]; exact hc.contact w1 u.url hu h1) ?_
  intro _
  cases ha : env.answer w1.contacts.length u.url with
  | fail part =>
    exact tri_bind (R := fun _ w => I w) (tri_change fun w h => hc.tmp w u.path part hp h)
      fun _ => tri_raise fun w h => h
  | nothing =>
    refine tri_change fun w h => ⟨hc.tmp w u.path none hp h, fun f hf => ?_⟩
    dsimp only at hf
    rw [upd_self] at hf
    cases hf
  | done part all =>
    refine tri_bind (R := fun _ w => I w) (tri_change fun w h => hc.tmp w u.path _ hp h) fun _ => ?_
    refine tri_bind (R := fun _ w => I w) (kept_tri (kept_io hc.step)) fun _ => ?_
    refine tri_change fun w h => ⟨hc.tmp w u.path _ hp h, fun f hf => ?_⟩
    dsimp only at hf
    rw [upd_self] at hf
    cases hf
    exact ⟨_, _, part, ha⟩

theorem kept_wget {u : Ud} (nn : Bool) (hp : S u.path)
    (hu : nn = false → env.trusted u.url = true → C u.url) : Kept I (wget env nn u) := by
  unfold wget
  by_cases hn : nn = true
  · rw [if_pos hn]; exact kept_raise _
  · rw [if_neg hn]
    have hn' : nn = false := by
      cases nn with
      | true => exact absurd rfl hn
      | false => rfl
    by_cases ht : (!env.trusted u.url) = true
    · rw [if_pos ht]; exact kept_raise _
    · rw [if_neg ht]
      have ht' : env.trusted u.url = true := by
        cases h : env.trusted u.url with
        | true => rfl
        | false => rw [h] at ht; exact absurd rfl ht
      intro w hw
      refine tri_kept (P := I) ?_ hw
      refine tri_bind (tri_transfer_whole hc hp (hu hn' ht')) fun _ => ?_
      refine tri_bind (R := fun _ w => Whole env I u.path w) ?_ fun _ => ?_
      · exact tri_conseq (kept_tri (kept_verifyChecksum (steps_whole hc.step u.path) _ _ _ _))
          (fun _ h => h) (fun _ _ h => h) (fun _ _ h => h.1)
      · refine tri_bind (R := fun _ w => I w) ?_ fun _ => ?_
        · unfold rename
          refine tri_bind (R := fun _ w => Whole env I u.path w) ?_ fun _ => ?_
          · exact tri_conseq (kept_tri (kept_io (steps_whole hc.step u.path)))
              (fun _ h => h) (fun _ _ h => h) (fun _ _ h => h.1)
          · refine tri_look fun w1 h1 => ?_
            cases htm : w1.tmps u.path with
            | none => exact tri_raise fun w h => by rw [h]; exact h1.1
            | some f =>
              obtain ⟨k, url, part, ha⟩ := h1.2 f htm
              exact tri_change fun w h => by
                rw [h]
                exact hc.put w1 u.path f k url part hp ha h1.1
        · refine tri_look fun w1 h1 => ?_
          cases w1.files u.path with
          | none => exact tri_raise fun w h => by rw [h]; exact h1
          | some f =>
            dsimp only
            refine tri_ite (fun _ => ?_) (fun _ => tri_pure fun w h => by rw [h]; exact h1)
            refine tri_pre (P' := I) (kept_tri ?_) fun w h => by rw [h]; exact h1
            exact kept_bind (kept_io hc.step) fun _ => kept_bind (kept_change fun w h =>
              hc.gone w u.path hp h) fun _ => kept_raise _

theorem kept_method {u : Ud} (nn : Bool) (hp : S u.path)
    (hu : nn = false → env.trusted u.url = true → C u.url) : Kept I (method env nn u) := by
  unfold method
  exact kept_ite (kept_look fun w => kept_ite (kept_raise _) (kept_pure _)) (kept_wget hc nn hp hu)

theorem kept_clean {u : Ud} (hp : S u.path) : Kept I (clean env u) :=
  kept_ite (kept_pure _) (kept_removeFile hc hp)

theorem kept_tryMirror {o u : Ud} (nn : Bool) (ho : S o.path) (hp : S u.path)
    (hu : nn = false → env.trusted u.url = true → C u.url) : Kept I (tryMirror env nn o u) := by
  unfold tryMirror
  refine kept_catch ?_ fun e => ?_
  · refine kept_bind (kept_verifyDonestamp hc hp _) fun v => kept_look fun w =>
      kept_bind (kept_onlyIf (kept_method hc nn hp hu)) fun _ => kept_look fun w => ?_
    refine kept_ite (kept_pure _) (kept_ite (kept_pure _) ?_)
    refine kept_bind ?_ fun _ => kept_bind (kept_updateStamp hc ho) fun _ => kept_pure _
    exact kept_look fun w => kept_ite (kept_bind (kept_io hc.step) fun _ =>
      kept_change fun w h => hc.link w o.path u.path ho hp h) (kept_pure _)
  · cases e with
    | checksum c =>
      exact kept_bind (kept_renameBad hc hp c) fun _ => kept_bind (kept_clean hc hp) fun _ => kept_pure _
    | crash => exact kept_raise _
    | io b =>
      cases b with
      | true => exact kept_pure _
      | false => exact kept_raise _
    | noChecksum => exact kept_raise _
    | network => exact kept_raise _
    | fetch => exact kept_bind (kept_clean hc hp) fun _ => kept_pure _

theorem kept_tryMirrors {o : Ud} (nn : Bool) (ho : S o.path) (l : List Ud)
    (hl : ∀ u, u ∈ l → S u.path ∧ (nn = false → env.trusted u.url = true → C u.url)) :
    Kept I (tryMirrors env nn o l) := by
  induction l with
  | nil => exact kept_pure _
  | cons u l ih =>
    refine kept_bind (kept_tryMirror hc nn ho (hl u List.mem_cons_self).1
      (hl u List.mem_cons_self).2) fun r => ?_
    exact kept_ite (kept_pure _) (ih fun x hx => hl x (List.mem_cons_of_mem _ hx))

theorem kept_fetchOne {u : Ud} (hp : S u.path)
    (hpre : ∀ m, m ∈ env.premirrors u → S m.path ∧
      (env.noNetwork = false → env.trusted m.url = true → C m.url))
    (hmir : ∀ m, m ∈ env.mirrors u → S m.path ∧
      ((env.noNetwork || env.premirrorOnly) = false → env.trusted m.url = true → C m.url))
    (hup : (env.noNetwork || env.premirrorOnly) = false → env.trusted u.url = true → C u.url) :
    Kept I (fetchOne env u) := by
  have hal : ∀ nn l, (∀ m, m ∈ l → S m.path ∧ (nn = false → env.trusted m.url = true → C m.url)) →
      ∀ m, m ∈ allowed env nn l → S m.path ∧ (nn = false → env.trusted m.url = true → C m.url) := by
    intro nn l h m hm
    unfold allowed at hm
    obtain ⟨x, hx, rfl⟩ := List.mem_map.1 hm
    exact h x (List.mem_filter.1 hx).1
  have hlast : ∀ v, Kept I (lastTry env (env.noNetwork || env.premirrorOnly) u v) := fun v =>
    kept_bind (kept_onlyIf (kept_clean hc hp)) fun _ =>
      kept_tryMirrors hc _ hp _ (hal _ _ hmir)
  unfold fetchOne
  refine kept_bind ?_ fun d => kept_bind ?_ fun v => kept_look fun w => kept_bind ?_ fun d' =>
    kept_look fun w => kept_ite (kept_raise _) (kept_updateStamp hc hp)
  · unfold firstTry
    refine kept_bind (kept_verifyDonestamp hc hp _) fun v => kept_look fun w =>
      kept_ite (kept_pure _) (kept_bind (kept_tryMirrors hc _ hp _ (hal _ _ hpre)) fun d =>
        kept_ite (kept_catch (kept_bind (kept_updateStamp hc hp) fun _ => kept_pure _) fun e => ?_)
          (kept_pure _))
    cases e with
    | checksum c => exact kept_pure _
    | crash => exact kept_raise _
    | io b => exact kept_raise _
    | noChecksum => exact kept_raise _
    | network => exact kept_raise _
    | fetch => exact kept_raise _
  · exact kept_ite (kept_verifyDonestamp hc hp _) (kept_pure _)
  · refine kept_ite (kept_catch ?_ fun e => ?_) (kept_pure _)
    · exact kept_bind (kept_onlyIf (kept_raise _)) fun _ => kept_bind (kept_method hc _ hp hup) fun _ =>
        kept_bind (kept_updateStamp hc hp) fun _ => kept_pure _
    · cases e with
      | checksum c => exact kept_bind (kept_renameBad hc hp c) fun _ => hlast _
      | crash => exact kept_raise _
      | io b => exact kept_raise _
      | noChecksum => exact kept_raise _
      | network => exact kept_raise _
      | fetch => exact hlast _

end

end Bb.Fetch
