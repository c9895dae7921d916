import Verif.Bb.CowLemmas
/-!
# Properties of copy-on-write dictionaries

C38: writing to a copy never changes the original, and each copy shows its own changes on top of
what its parent shows.
-/

namespace Bb.Cow
open Py Spec

variable {I M : Type}

/-! ### The original -/

theorem mro_run {h : Heap I M} (w : WF h) (op : Op I M) (n : Nat) (hn : n < h.nodes.length)
    (hk : ∀ k, op.key = some k → ¬ endsWith k MUTABLE = true) :
    (op.run h).mro n = h.mro n ∧ n < (op.run h).nodes.length := by
  have fr : ∀ {c h'}, Frame c h h' → h'.mro n = h.mro n ∧ n < h'.nodes.length :=
    fun f => ⟨f.mro n hn, Nat.lt_of_lt_of_le hn f.len⟩
  cases op with
  | copy c =>
    show (h.copy c).mro n = _ ∧ n < (h.copy c).nodes.length
    rw [mro_copy, if_neg (by omega), len_copy]
    exact ⟨rfl, by omega⟩
  | set c k v =>
    cases v with
    | imm i => exact fr (frame_setattr h c k _)
    | empty => exact fr (frame_setattr h c k _)
    | obj m => exact fr (frame_setNew w c _ m)
  | del c k => exact fr (frame_setattr h c k _)
  | read c k => exact fr (frame_read w c k)
  | update c k f => exact fr (frame_update w c k (hk k rfl) f)
  | revert c k =>
    show ((h.revertitem c k).getD h).mro n = _ ∧ n < ((h.revertitem c k).getD h).nodes.length
    cases e : h.revertitem c k with
    | none => exact ⟨rfl, hn⟩
    | some h' => exact fr (frame_delattr c _ e)

theorem view_run {h : Heap I M} (w : WF h) (op : Op I M) (n : Nat) (hn : n < h.nodes.length)
    (hk : ∀ k, op.key = some k → ¬ endsWith k MUTABLE = true)
    (ht : ∀ c, op.target = some c → c ∉ h.mro n) (k : Str) :
    view (op.run h) n k = view h n k := by
  have w' := wf_run w op
  cases op with
  | copy c =>
    have hc : h.nodes.length ∉ h.mro n := fun x => Nat.lt_irrefl _ (w.below n _ x)
    refine frame_view w w' h.nodes.length n ⟨fun m hm => ?_, ?_, fun m a _ => slot_copy h c m a,
      fun _ _ _ _ _ => rfl⟩ hn hc k
    · exact (mro_copy h c m).trans (if_neg (by omega))
    · exact (len_copy h c).symm ▸ Nat.le_succ _
  | set c k' v =>
    cases v with
    | imm i => exact frame_view w w' c n (frame_setattr h c k' _) hn (ht c rfl) k
    | empty => exact frame_view w w' c n (frame_setattr h c k' _) hn (ht c rfl) k
    | obj m => exact frame_view w w' c n (frame_setNew w c _ m) hn (ht c rfl) k
  | del c k' => exact frame_view w w' c n (frame_setattr h c k' _) hn (ht c rfl) k
  | read c k' => exact frame_view w w' c n (frame_read w c k') hn (ht c rfl) k
  | update c k' f => exact frame_view w w' c n (frame_update w c k' (hk k' rfl) f) hn (ht c rfl) k
  | revert c k' =>
    show view ((h.revertitem c k').getD h) n k = _
    cases e : h.revertitem c k' with
    | none => rfl
    | some h' =>
      exact frame_view w (wf_delattr w c _ e) c n (frame_delattr c _ e) hn (ht c rfl) k

/-- C38.  Start from any history, and take any dictionary.  After any further operations on other
dictionaries, none of them one that this one was copied from, it shows for every key what it showed
before.  The other dictionaries may be copies of it, copies of copies, or unrelated.  Keys do not
end with `__mutable__`. -/
theorem original_unchanged (pre ops : List (Op I M)) (n : Nat)
    (hn : n < (runAll (base : Heap I M) pre).nodes.length)
    (hk : ∀ op ∈ ops, ∀ k, op.key = some k → ¬ endsWith k MUTABLE = true)
    (ht : ∀ op ∈ ops, ∀ c, op.target = some c → c ∉ (runAll (base : Heap I M) pre).mro n)
    (k : Str) :
    view (runAll (runAll base pre) ops) n k = view (runAll base pre) n k := by
  have w := wf_runAll (wf_base (I := I) (M := M)) pre
  revert w hn ht
  generalize runAll (base : Heap I M) pre = h
  intro hn ht w
  induction ops generalizing h with
  | nil => rfl
  | cons op ops ih =>
    have hm := mro_run w op n hn (hk op List.mem_cons_self)
    show view (runAll (op.run h) ops) n k = _
    rw [ih (fun o ho => hk o (List.mem_cons_of_mem _ ho)) (op.run h) hm.2
      (fun o ho c e => hm.1 ▸ ht o (List.mem_cons_of_mem _ ho) c e) (wf_run w op)]
    exact view_run w op n hn (hk op List.mem_cons_self) (ht op List.mem_cons_self) k

/-- A dictionary with a list in it, and a copy of the copy of it. -/
def exPre : List (Op Nat (List Nat)) :=
  [.copy 0, .set 1 "a".toList (.obj [1]), .set 1 "b".toList (.imm 7), .copy 1, .copy 2]

/-- The list is changed in the last copy. -/
def exOps : List (Op Nat (List Nat)) :=
  [.update 3 "a".toList (· ++ [2]), .set 2 "b".toList (.imm 8), .del 3 "b".toList]

/-- What is shown for `a` and `b` by all dictionaries. -/
def exView (h : Heap Nat (List Nat)) : List (Option (Seen Nat (List Nat))) :=
  [view h 1 "a".toList, view h 2 "a".toList, view h 3 "a".toList,
    view h 1 "b".toList, view h 2 "b".toList, view h 3 "b".toList]

example : exView (runAll base exPre) = [some (.obj [1]), some (.obj [1]), some (.obj [1]),
    some (.imm 7), some (.imm 7), some (.imm 7)] := by decide +kernel
example : exView (runAll (runAll base exPre) exOps) = [some (.obj [1]), some (.obj [1]),
    some (.obj [1, 2]), some (.imm 7), some (.imm 8), none] := by decide +kernel
example : (∀ op ∈ exOps, ∀ k, op.key = some k → ¬ endsWith k MUTABLE = true) ∧
    (∀ op ∈ exOps, ∀ c, op.target = some c → c ∉ (runAll base exPre).mro 1) := by
  refine ⟨fun op ho k e => ?_, fun op ho c e => ?_⟩
  · rcases List.mem_cons.1 ho with rfl | ho
    · cases e; decide +kernel
    rcases List.mem_cons.1 ho with rfl | ho
    · cases e; decide +kernel
    rcases List.mem_cons.1 ho with rfl | ho
    · cases e; decide +kernel
    cases ho
  · rcases List.mem_cons.1 ho with rfl | ho
    · cases e; decide +kernel
    rcases List.mem_cons.1 ho with rfl | ho
    · cases e; decide +kernel
    rcases List.mem_cons.1 ho with rfl | ho
    · cases e; decide +kernel
    cases ho

/-- C38.  A new copy shows for every key what its parent shows. -/
theorem copy_shows_parent (pre : List (Op I M)) (n : Nat) (k : Str) :
    view ((runAll base pre).copy n) (runAll (base : Heap I M) pre).nodes.length k =
      view (runAll base pre) n k := by
  have w := wf_runAll (wf_base (I := I) (M := M)) pre
  revert w
  generalize runAll (base : Heap I M) pre = h
  intro w
  have hg : ∀ a, (h.copy n).getattr h.nodes.length a = h.getattr n a := by
    intro a
    unfold Heap.getattr
    rw [mro_copy, if_pos rfl, find_cons, slot_copy, slot_none (by omega),
      find_congr (h := h) (h' := h.copy n) fun m _ => slot_copy h n m a]
    rfl
  rw [view_eq w, view_eq (wf_copy w n), hg, hg]
  cases (h.getattr n k).or (h.getattr n (k ++ MUTABLE)) with
  | none => rfl
  | some v => cases v <;> rfl

/-- The condition on the keys is needed: for a key that ends with `__mutable__` a copy gives the
object of the original, and a change through the copy changes the original. -/
theorem mutable_name_leaks : ∃ (pre : List (Op Nat (List Nat))) (f : List Nat → List Nat),
    let h := runAll base pre
    (2 ∉ h.mro 1) ∧ view h 1 "a".toList = some (.obj [1]) ∧
      view (h.update 2 ("a".toList ++ MUTABLE) f) 1 "a".toList = some (.obj [1, 2]) :=
  ⟨[.copy 0, .set 1 "a".toList (.obj [1]), .copy 1], (· ++ [2]), by decide +kernel⟩

/-! ### Every history -/

/-- The name of the attribute for a key. -/
def name (plain : Str → Bool) (k : Str) : Str := if plain k then k else k ++ MUTABLE

/-- The name of the attribute that the key does not use. -/
def other (plain : Str → Bool) (k : Str) : Str := if plain k then k ++ MUTABLE else k

theorem good_ne {k k' : Str} (hk : Good k) : k' ++ MUTABLE ≠ k :=
  fun e => hk.1 (e ▸ endsWith_mut k')

theorem name_inj {plain : Str → Bool} {k k' : Str} (hk : Good k) (hk' : Good k')
    (e : name plain k' = name plain k) : k' = k := by
  unfold name at e
  cases h1 : plain k <;> cases h2 : plain k' <;> rw [h1, h2] at e
  · exact List.append_cancel_right e
  · exact absurd (show k' = k ++ MUTABLE from e).symm (good_ne hk')
  · exact absurd (show k' ++ MUTABLE = k from e) (good_ne hk)
  · exact e

theorem other_ne {plain : Str → Bool} {k k' : Str} (hk : Good k) (hk' : Good k') :
    other plain k' ≠ name plain k := by
  unfold name other
  cases h1 : plain k <;> cases h2 : plain k' <;> intro e
  · exact good_ne hk' e.symm
  · have := List.append_cancel_right (show k' ++ MUTABLE = k ++ MUTABLE from e)
    rw [this, h1] at h2
    cases h2
  · have : k' = k := e
    rw [this, h1] at h2
    cases h2
  · exact good_ne hk e

theorem reserved_not_mutable : ∀ a ∈ reserved, ¬ endsWith a MUTABLE = true := by decide +kernel

/-- The heap stands for the tree. -/
structure Rep (plain : Str → Bool) (h : Heap I M) (t : Tree I M) : Prop where
  size : t.size = h.nodes.length
  line : ∀ n, t.line n = h.mro n
  free : ∀ n k, Good k → h.slot n (other plain k) = none
  change : ∀ n k, Good k → t.change n k = (h.slot n (name plain k)).map (see h)
  kind : ∀ n k v, Good k → h.slot n (name plain k) = some v →
    if plain k then (∀ l, v ≠ .ref l) else ∃ l, v = .ref l

theorem find_free {plain : Str → Bool} {h : Heap I M} {t : Tree I M} (r : Rep plain h t)
    (ns : List Nat) {k : Str} (hk : Good k) : h.find ns (other plain k) = none := by
  induction ns with
  | nil => rfl
  | cons n ns ih => rw [find_cons, r.free n k hk, ih]; rfl

theorem getattr_good {h : Heap I M} (n : Nat) {k : Str} (hk : Good k) :
    h.getattr n k = h.find (h.mro n) k := by
  unfold Heap.getattr
  rw [if_neg hk.2.1]
  cases h.find (h.mro n) k <;> rfl

theorem getattr_mut {h : Heap I M} (n : Nat) (k : Str) :
    h.getattr n (k ++ MUTABLE) = h.find (h.mro n) (k ++ MUTABLE) := by
  unfold Heap.getattr
  rw [if_neg fun x => reserved_not_mutable _ x (endsWith_mut k)]
  cases h.find (h.mro n) (k ++ MUTABLE) <;> rfl

theorem tree_find {plain : Str → Bool} {h : Heap I M} {t : Tree I M} (r : Rep plain h t)
    (ns : List Nat) {k : Str} (hk : Good k) :
    ns.findSome? (fun m => t.change m k) = (h.find ns (name plain k)).map (see h) := by
  induction ns with
  | nil => rfl
  | cons n ns ih =>
    rw [List.findSome?_cons, find_cons, r.change n k hk]
    cases h.slot n (name plain k) with
    | some v => rfl
    | none => exact ih

theorem tree_view {plain : Str → Bool} {h : Heap I M} {t : Tree I M} (r : Rep plain h t)
    (n : Nat) {k : Str} (hk : Good k) :
    t.view n k = (h.find (h.mro n) (name plain k)).bind (see h) := by
  unfold Tree.view
  rw [r.line, tree_find r _ hk]
  cases h.find (h.mro n) (name plain k) <;> rfl

theorem view_find {plain : Str → Bool} {h : Heap I M} {t : Tree I M} (w : WF h)
    (r : Rep plain h t) (n : Nat) {k : Str} (hk : Good k) :
    view h n k = (h.find (h.mro n) (name plain k)).bind (see h) := by
  rw [view_eq w, getattr_good n hk, getattr_mut]
  have hf := find_free r (h.mro n) hk
  unfold other at hf
  unfold name
  cases hp : plain k with
  | true =>
    rw [hp] at hf
    rw [show h.find (h.mro n) (k ++ MUTABLE) = none from hf]
    show Option.bind (Option.or (h.find (h.mro n) k) none) (see h) = (h.find (h.mro n) k).bind (see h)
    cases h.find (h.mro n) k <;> rfl
  | false =>
    rw [hp] at hf
    rw [show h.find (h.mro n) k = none from hf]
    rfl

/-- One attribute is changed, and the tree with it. -/
theorem rep_put {plain : Str → Bool} {h h' : Heap I M} {t : Tree I M} (r : Rep plain h t)
    (n : Nat) {k : Str} (hk : Good k) (x : Option (Val I)) (c : Option (Option (Seen I M)))
    (hm : ∀ m, h'.mro m = h.mro m) (hl : h'.nodes.length = h.nodes.length)
    (hs : ∀ m b, h'.slot m b =
      if m = n ∧ b = name plain k ∧ n < h.nodes.length then x else h.slot m b)
    (hv : ∀ m b v, ¬ (m = n ∧ b = name plain k) → h.slot m b = some v → see h' v = see h v)
    (hc : n < h.nodes.length → c = x.map (see h'))
    (hx : ∀ v, x = some v → if plain k then (∀ l, v ≠ .ref l) else ∃ l, v = .ref l) :
    Rep plain h' (t.put n k c) := by
  refine ⟨r.size.trans hl.symm, fun m => (r.line m).trans (hm m).symm, fun m k' hk' => ?_,
    fun m k' hk' => ?_, fun m k' v hk' e => ?_⟩
  · rw [hs, if_neg fun e => other_ne hk hk' e.2.1]
    exact r.free m k' hk'
  · show (if m = n ∧ k' = k ∧ n < t.size then c else t.change m k') = _
    rw [hs, r.size]
    by_cases e : m = n ∧ k' = k ∧ n < h.nodes.length
    · obtain ⟨rfl, rfl, e⟩ := e
      rw [if_pos ⟨rfl, rfl, e⟩, if_pos ⟨rfl, rfl, e⟩]
      exact hc e
    · rw [if_neg e, if_neg fun y => e ⟨y.1, name_inj hk hk' y.2.1, y.2.2⟩, r.change m k' hk']
      cases hsl : h.slot m (name plain k') with
      | none => rfl
      | some v =>
        show some (see h v) = some (see h' v)
        have : ¬ (m = n ∧ name plain k' = name plain k) := by
          rintro ⟨rfl, y⟩
          have hkk := name_inj hk hk' y
          refine e ⟨rfl, hkk, ?_⟩
          rcases Nat.lt_or_ge m h.nodes.length with hn | hn
          · exact hn
          · rw [slot_none (by omega)] at hsl; cases hsl
        rw [hv m _ v this hsl]
  · rw [hs] at e
    by_cases y : m = n ∧ name plain k' = name plain k ∧ n < h.nodes.length
    · rw [if_pos y] at e
      have := name_inj hk hk' y.2.1
      subst this
      exact hx v e
    · rw [if_neg y] at e
      exact r.kind m k' v hk' e

theorem rep_setattr {plain : Str → Bool} {h : Heap I M} {t : Tree I M} (r : Rep plain h t)
    (n : Nat) {k : Str} (hk : Good k) (hp : plain k = true) (v : Val I) (hv : ∀ l, v ≠ .ref l)
    (s : Option (Seen I M)) (hs : see h v = s) :
    Rep plain (h.setattr n k v) (t.put n k (some s)) := by
  have hn : name plain k = k := by unfold name; rw [hp]; rfl
  refine rep_put r n hk (some v) _ (fun m => mro_setattr h n k v m) (len_setattr h n k v)
    (fun m b => by rw [slot_setattr, hn]) (fun m b w _ _ => by cases w <;> rfl) (fun _ => ?_)
    (fun w e => by cases e; rw [if_pos hp]; exact hv)
  rw [← hs]
  cases v <;> rfl

theorem see_append {h h' : Heap I M} {c : M} (ho : h'.objs = h.objs ++ [c]) (w : WF h) {m : Nat}
    {b : Str} {v : Val I} (hv : h.slot m b = some v) : see h' v = see h v := by
  cases v with
  | ref l =>
    show (h'.objs[l]?).map _ = (h.objs[l]?).map _
    rw [ho, List.getElem?_append_left (w.refs _ _ _ hv).2]
  | _ => rfl

theorem see_last {h h' : Heap I M} {c : M} (ho : h'.objs = h.objs ++ [c]) :
    see h' (.ref h.objs.length) = some (.obj c) := by
  show (h'.objs[h.objs.length]?).map _ = _
  rw [ho, List.getElem?_append_right (Nat.le_refl _), Nat.sub_self]
  rfl

theorem rep_setNew {plain : Str → Bool} {h : Heap I M} {t : Tree I M} (w : WF h)
    (r : Rep plain h t) (n : Nat) {k : Str} (hk : Good k) (hp : plain k = false) (c : M) :
    Rep plain (h.setNew n (k ++ MUTABLE) c) (t.put n k (some (some (.obj c)))) := by
  have hn : name plain k = k ++ MUTABLE := by unfold name; rw [hp]; rfl
  refine rep_put r n hk (some (.ref h.objs.length)) _ (fun m => mro_setNew h n _ c m)
    (len_setNew h n _ c) (fun m b => by rw [slot_setNew, hn])
    (fun m b v _ e => see_append (objs_setNew h n _ c) w e) (fun _ => ?_)
    (fun v e => by cases e; rw [hp]; exact ⟨_, rfl⟩)
  rw [Option.map_some, see_last (objs_setNew h n _ c)]

/-- Putting what is there. -/
theorem rep_same {plain : Str → Bool} {h : Heap I M} {t : Tree I M} (r : Rep plain h t)
    (n : Nat) {k : Str} (hk : Good k) (c : Option (Option (Seen I M)))
    (hc : c = (h.slot n (name plain k)).map (see h)) : Rep plain h (t.put n k c) := by
  refine rep_put r n hk (h.slot n (name plain k)) c (fun _ => rfl) rfl (fun m b => ?_)
    (fun _ _ _ _ _ => rfl) (fun _ => hc) (fun v e => r.kind n k v hk e)
  by_cases e : m = n ∧ b = name plain k ∧ n < h.nodes.length
  · rw [if_pos e, e.1, e.2.1]
  · rw [if_neg e]

theorem rep_copy {plain : Str → Bool} {h : Heap I M} {t : Tree I M} (r : Rep plain h t) (n : Nat) :
    Rep plain (h.copy n) (Op.spec plain t (.copy n)) := by
  have hsl : ∀ a, h.slot h.nodes.length a = none := fun a => slot_none (by omega) a
  have hsee : ∀ v, see (h.copy n) v = see h v := fun v => by cases v <;> rfl
  refine ⟨?_, fun m => ?_, fun m k hk => ?_, fun m k hk => ?_, fun m k v hk e => ?_⟩
  · rw [len_copy, ← r.size]; rfl
  · show (if m = t.size then t.size :: t.line n else t.line m) = _
    rw [mro_copy, r.size, r.line, r.line]
  · rw [slot_copy]; exact r.free m k hk
  · show (if m = t.size then none else t.change m k) = _
    rw [slot_copy, r.size]
    by_cases e : m = h.nodes.length
    · rw [if_pos e, e, hsl]; rfl
    · rw [if_neg e, r.change m k hk]
      cases h.slot m (name plain k) with
      | none => rfl
      | some v => show some (see h v) = some (see (h.copy n) v); rw [hsee]
  · rw [slot_copy] at e; exact r.kind m k v hk e

theorem rep_revert {plain : Str → Bool} {h : Heap I M} {t : Tree I M} (r : Rep plain h t) (n : Nat)
    {k : Str} (hk : Good k) : Rep plain ((h.revertitem n k).getD h) (t.put n k none) := by
  cases hs : h.slot n (name plain k) with
  | none =>
    have hboth : h.slot n k = none ∧ h.slot n (k ++ MUTABLE) = none := by
      have := r.free n k hk
      unfold other at this
      unfold name at hs
      cases hp : plain k <;> rw [hp] at this hs
      · exact ⟨this, hs⟩
      · exact ⟨hs, this⟩
    have : h.revertitem n k = none := by
      unfold Heap.revertitem
      rw [show (h.own n).lookup k = none from hboth.1]
      show h.delattr n (k ++ MUTABLE) = none
      unfold Heap.delattr
      rw [show (h.own n).lookup (k ++ MUTABLE) = none from hboth.2]
      rfl
    rw [this]
    exact rep_same r n hk none (by rw [hs]; rfl)
  | some v =>
    have hr : h.revertitem n k = h.delattr n (name plain k) := by
      unfold Heap.revertitem
      have hf := r.free n k hk
      unfold other at hf
      unfold name at hs ⊢
      cases hp : plain k <;> rw [hp] at hf hs
      · rw [show (h.own n).lookup k = none from hf]; rfl
      · rw [show (h.own n).lookup k = some v from hs]; rfl
    obtain ⟨h', e⟩ : ∃ h', h.delattr n (name plain k) = some h' := by
      unfold Heap.delattr
      rw [show (h.own n).lookup (name plain k) = some v from hs]
      exact ⟨_, rfl⟩
    rw [hr, e, Option.getD_some]
    obtain ⟨h1, h2, h3⟩ := delattr_rest h h' n _ e
    have hsee : ∀ v, see h' v = see h v := by
      intro v
      cases v with
      | ref l => show (h'.objs[l]?).map _ = _; rw [h2]; rfl
      | _ => rfl
    refine rep_put r n hk none none h1 h3 (fun m b => ?_) (fun _ _ v _ _ => hsee v) (fun _ => rfl)
      (fun v e => by cases e)
    rw [slot_delattr h h' n _ e]
    by_cases y : m = n ∧ b = name plain k
    · rw [if_pos y]
      by_cases hn : n < h.nodes.length
      · rw [if_pos ⟨y.1, y.2, hn⟩]
      · rw [if_neg fun z => hn z.2.2, y.1, slot_none hn]
    · rw [if_neg y, if_neg fun z => y ⟨z.1, z.2.1⟩]

/-- What reading with the right to change does. -/
theorem rep_read {plain : Str → Bool} {h : Heap I M} {t : Tree I M} (w : WF h)
    (r : Rep plain h t) (n : Nat) {k : Str} (hk : Good k) :
    Rep plain (h.getitem n k false).1 (Op.spec plain t (.read n k)) ∧
    (plain k = true → ∀ l, (h.getitem n k false).2 ≠ some (.ref l)) ∧
    (plain k = false → t.view n k = none → (h.getitem n k false).2 = none) ∧
    (plain k = false → ∀ s, t.view n k = some s → ∃ l c, s = .obj c ∧
      (h.getitem n k false).2 = some (.ref l) ∧ (h.getitem n k false).1.objs[l]? = some c) := by
  have hf := find_free r (h.mro n) hk
  have hv := tree_view r n hk
  cases hp : plain k with
  | true =>
    have hspec : Op.spec plain t (.read n k) = t := by
      show (if plain k = false ∧ (t.view n k).isSome then _ else t) = t
      rw [if_neg (by rw [hp]; simp)]
    have hg : h.getattr n (k ++ MUTABLE) = none := by
      rw [getattr_mut]
      unfold other at hf
      rw [hp] at hf
      exact hf
    rw [hspec]
    refine ⟨?_, fun _ l => ?_, fun x => (by cases x), fun x => (by cases x)⟩
    · rcases getitem_rw w n k with ⟨v, _, e⟩ | ⟨_, _, e⟩ | ⟨v, _, e, _⟩ | ⟨l, hl, _, e, _⟩ |
        ⟨v, _, _, e, _⟩
      · rw [e]; exact r
      · rw [e]; exact r
      · rw [hg] at e; cases e
      · rw [hg] at e; cases e
      · rw [hg] at e; cases e
    · rcases getitem_rw w n k with ⟨v, h1, e⟩ | ⟨_, _, e⟩ | ⟨v, _, e, _⟩ | ⟨l, hl, _, e, _⟩ |
        ⟨v, _, _, e, _⟩
      · rw [e]
        cases v with
        | ref l' =>
          obtain ⟨m, _, hm⟩ := getattr_ref h1
          exact absurd (w.refs _ _ _ hm).1 hk.1
        | _ => intro x; cases x
      · rw [e]; intro x; cases x
      · rw [hg] at e; cases e
      · rw [hg] at e; cases e
      · rw [hg] at e; cases e
  | false =>
    have hname : name plain k = k ++ MUTABLE := by unfold name; rw [hp]; rfl
    have hg1 : h.getattr n k = none := by
      rw [getattr_good n hk]
      unfold other at hf
      rw [hp] at hf
      exact hf
    have hg2 := getattr_mut (h := h) n k
    rw [hname, ← hg2] at hv
    have hspec : ∀ s, t.view n k = some s → Op.spec plain t (.read n k) = t.put n k (some (some s)) := by
      intro s e
      show (if plain k = false ∧ (t.view n k).isSome then t.put n k (some (t.view n k)) else t) = _
      rw [if_pos ⟨hp, by rw [e]; rfl⟩, e]
    have hspec0 : t.view n k = none → Op.spec plain t (.read n k) = t := by
      intro e
      show (if plain k = false ∧ (t.view n k).isSome then _ else t) = t
      rw [if_neg (by rw [e]; simp)]
    rcases getitem_rw w n k with ⟨v, e, _⟩ | ⟨_, e2, e⟩ | ⟨v, _, e2, hs, e⟩ |
      ⟨l, hl, _, e2, hs, e⟩ | ⟨v, hnr, _, e2, _⟩
    · rw [hg1] at e; cases e
    · rw [e2] at hv
      rw [e]
      refine ⟨by rw [hspec0 hv]; exact r, fun x => (by cases x), fun _ _ => rfl, fun _ s x => ?_⟩
      rw [hv] at x; cases x
    · have hkind := r.kind n k v hk (by rw [hname]; exact hs)
      rw [hp] at hkind
      obtain ⟨l, rfl⟩ := hkind
      rw [e2] at hv
      have hl := (w.refs _ _ _ hs).2
      have hview : t.view n k = some (.obj h.objs[l]) := by
        rw [hv]
        show (h.objs[l]?).map _ = _
        rw [List.getElem?_eq_getElem hl]
        rfl
      rw [e]
      refine ⟨?_, fun x => (by cases x), fun _ x => ?_, fun _ s x => ?_⟩
      · rw [hspec _ hview]
        refine rep_same r n hk _ ?_
        rw [hname, hs, ← hview, hv]
        rfl
      · rw [hview] at x; cases x
      · rw [hview] at x
        cases x
        exact ⟨l, h.objs[l], rfl, rfl, List.getElem?_eq_getElem hl⟩
    · rw [e2] at hv
      have hview : t.view n k = some (.obj h.objs[l]) := by
        rw [hv]
        show (h.objs[l]?).map _ = _
        rw [List.getElem?_eq_getElem hl]
        rfl
      rw [e]
      refine ⟨?_, fun x => (by cases x), fun _ x => ?_, fun _ s x => ?_⟩
      · rw [hspec _ hview]
        exact rep_setNew w r n hk hp _
      · rw [hview] at x; cases x
      · rw [hview] at x
        cases x
        refine ⟨h.objs.length, h.objs[l], rfl, rfl, ?_⟩
        show (h.objs ++ [h.objs[l]])[h.objs.length]? = _
        rw [List.getElem?_append_right (Nat.le_refl _), Nat.sub_self]
        rfl
    · obtain ⟨m, _, hm⟩ := find_slot (hg2 ▸ e2)
      have := r.kind m k v hk (by rw [hname]; exact hm)
      rw [hp] at this
      obtain ⟨l, rfl⟩ := this
      exact absurd rfl (hnr l)

theorem put_put (t : Tree I M) (n : Nat) (k : Str) (c c' : Option (Option (Seen I M))) :
    (t.put n k c).put n k c' = t.put n k c' := by
  unfold Tree.put
  congr 1
  funext n' k'
  dsimp only
  by_cases e : n' = n ∧ k' = k ∧ n < t.size
  · rw [if_pos e, if_pos e]
  · rw [if_neg e, if_neg e, if_neg e]

theorem rep_update {plain : Str → Bool} {h : Heap I M} {t : Tree I M} (w : WF h)
    (r : Rep plain h t) (n : Nat) {k : Str} (hk : Good k) (f : M → M) :
    Rep plain (h.update n k f) (Op.spec plain t (.update n k f)) := by
  obtain ⟨r1, h1, h2, h3⟩ := rep_read w r n hk
  cases hp : plain k with
  | true =>
    have hspec : Op.spec plain t (.update n k f) = Op.spec plain t (.read n k) := by
      show (if plain k = false ∧ _ then _ else t) = (if plain k = false ∧ _ then _ else t)
      rw [if_neg (by rw [hp]; simp), if_neg (by rw [hp]; simp)]
    rcases update_eq h n k f with ⟨l, hl, e⟩ | ⟨_, e⟩
    · exact absurd hl (h1 hp l)
    · rw [e, hspec]; exact r1
  | false =>
    cases hv : t.view n k with
    | none =>
      have hspec : Op.spec plain t (.update n k f) = Op.spec plain t (.read n k) := by
        show (if _ ∧ (t.view n k).isSome = true then _ else t) =
          (if _ ∧ (t.view n k).isSome = true then _ else t)
        rw [if_neg (by rw [hv]; simp), if_neg (by rw [hv]; simp)]
      rcases update_eq h n k f with ⟨l, hl, e⟩ | ⟨_, e⟩
      · rw [h2 hp hv] at hl; cases hl
      · rw [e, hspec]; exact r1
    | some s =>
      obtain ⟨l, c, rfl, hl, ho⟩ := h3 hp s hv
      have hspec1 : Op.spec plain t (.read n k) = t.put n k (some (some (.obj c))) := by
        show (if _ ∧ (t.view n k).isSome = true then t.put n k (some (t.view n k)) else t) = _
        rw [if_pos ⟨hp, by rw [hv]; rfl⟩, hv]
      have hspec : Op.spec plain t (.update n k f) =
          (Op.spec plain t (.read n k)).put n k (some (some (.obj (f c)))) := by
        rw [hspec1, put_put]
        show (if _ ∧ (t.view n k).isSome = true then _ else t) = _
        rw [if_pos ⟨hp, by rw [hv]; rfl⟩, hv]
        rfl
      have hn : n < h.nodes.length := by
        rcases Nat.lt_or_ge n h.nodes.length with hn | hn
        · exact hn
        · exact absurd hl (read_missing w n k l (by omega))
      have hown := read_owned w n k hk.1 l hl hn
      have w1 := wf_read w n k
      rcases update_eq h n k f with ⟨l', hl', e⟩ | ⟨hne, _⟩
      · have : l' = l := by rw [hl] at hl'; cases hl'; rfl
        subst this
        rw [e, hspec]
        have hname : name plain k = k ++ MUTABLE := by unfold name; rw [hp]; rfl
        refine rep_put r1 n hk (some (.ref l')) _ (fun _ => rfl) rfl (fun m b => ?_)
          (fun m b v hmb hs => ?_) (fun _ => ?_) (fun v e => by cases e; rw [hp]; exact ⟨_, rfl⟩)
        · show (h.getitem n k false).1.slot m b = _
          by_cases y : m = n ∧ b = name plain k ∧ n < (h.getitem n k false).1.nodes.length
          · rw [if_pos y, y.1, y.2.1, hname]; exact hown
          · rw [if_neg y]
        · cases v with
          | ref l2 =>
            have hne : l' ≠ l2 := by
              rintro rfl
              obtain ⟨rfl, rfl⟩ := w1.inj _ _ _ _ _ hs hown
              exact hmb ⟨rfl, hname.symm⟩
            show (((h.getitem n k false).1.objs.modify l' f)[l2]?).map _ = _
            rw [getElem?_touch _ _ _ _ hne]
            rfl
          | _ => rfl
        · show some (some (Seen.obj (f c))) =
            some ((((h.getitem n k false).1.objs.modify l' f)[l']?).map Seen.obj)
          rw [List.getElem?_modify, ho]
          simp
      · exact absurd hl (hne l)

theorem rep_run {plain : Str → Bool} {h : Heap I M} {t : Tree I M} (w : WF h) (r : Rep plain h t)
    (op : Op I M) (ok : op.Ok plain) : Rep plain (op.run h) (op.spec plain t) := by
  cases op with
  | copy n => exact rep_copy r n
  | set n k v =>
    cases v with
    | imm i => exact rep_setattr r n ok.1 ok.2 _ (fun l x => (by cases x)) _ rfl
    | empty => exact rep_setattr r n ok.1 ok.2 _ (fun l x => (by cases x)) _ rfl
    | obj m => exact rep_setNew w r n ok.1 ok.2 m
  | del n k => exact rep_setattr r n ok.1 ok.2 _ (fun l x => (by cases x)) _ rfl
  | read n k => exact (rep_read w r n ok).1
  | update n k f => exact rep_update w r n ok f
  | revert n k => exact rep_revert r n ok

theorem rep_base (plain : Str → Bool) : Rep plain (base : Heap I M) Tree.base := by
  have hs : ∀ n a, (base : Heap I M).slot n a = none := by
    intro n a
    cases n with
    | zero => rfl
    | succ n => exact slot_none (show ¬ n + 1 < 1 by omega) a
  refine ⟨rfl, fun n => ?_, fun n k _ => hs _ _, fun n k _ => by rw [hs]; rfl,
    fun n k v _ e => by rw [hs] at e; cases e⟩
  cases n with
  | zero => rfl
  | succ n => rw [mro_none (show ¬ n + 1 < 1 by omega)]; rfl

/-- C38, for every history: if each key is used for immutable values only or for mutable values
only (and then never deleted), every dictionary shows at every time the nearest change among itself
and those it was copied from.  The full claim, for keys of any use, is false: see
`set_mutable_lost` and the theorems after it. -/
theorem nearest_change_partial (plain : Str → Bool) (ops : List (Op I M))
    (ok : ∀ op ∈ ops, op.Ok plain) (n : Nat) (k : Str) (hk : Good k) :
    view (runAll base ops) n k = (specAll plain Tree.base ops).view n k := by
  have : ∀ (h : Heap I M) (t : Tree I M), WF h → Rep plain h t →
      view (runAll h ops) n k = (specAll plain t ops).view n k := by
    induction ops with
    | nil => intro h t w r; exact (view_find w r n hk).trans (tree_view r n hk).symm
    | cons op ops ih =>
      intro h t w r
      exact ih (fun o ho => ok o (List.mem_cons_of_mem _ ho)) _ _ (wf_run w op)
        (rep_run w r op (ok op List.mem_cons_self))
  exact this _ _ wf_base (rep_base plain)

/-- The values in the history of the example are of both kinds, and the conditions hold. -/
example : let ops : List (Op Nat (List Nat)) := [.copy 0, .set 1 "a".toList (.obj [1]),
      .set 1 "b".toList (.imm 7), .copy 1, .update 2 "a".toList (· ++ [2]), .del 2 "b".toList,
      .set 1 "b".toList (.imm 9), .copy 2, .revert 2 "b".toList]
    let h := runAll base ops
    (view h 1 "a".toList, view h 3 "a".toList, view h 1 "b".toList, view h 3 "b".toList)
      = (some (.obj [1]), some (.obj [1, 2]), some (.imm 9), some (.imm 9)) := by decide +kernel
example : Good "a".toList ∧ Good "b".toList := by decide +kernel

/-- A mere read with the right to change makes the value the copy's own: a change made to the
original before the read is seen in the copy, one made after it is not. -/
theorem read_detaches : ∃ pre : List (Op Nat (List Nat)),
    let h := runAll base pre
    view (h.update 1 "a".toList (· ++ [2])) 2 "a".toList = some (.obj [1, 2]) ∧
    view ((h.getitem 2 "a".toList false).1.update 1 "a".toList (· ++ [2])) 2 "a".toList =
      some (.obj [1]) :=
  ⟨[.copy 0, .set 1 "a".toList (.obj [1]), .copy 1], by decide +kernel⟩

/-! ### Keys of both kinds -/

/-- An immutable value that is set is shown, whatever was there. -/
theorem set_immutable_shown (pre : List (Op I M)) (n : Nat) (k : Str) (i : I)
    (hn : n < (runAll (base : Heap I M) pre).nodes.length) :
    view ((runAll base pre).setitem n k (.imm i)) n k = some (.imm i) := by
  have w := wf_runAll (wf_base (I := I) (M := M)) pre
  revert w hn
  generalize runAll (base : Heap I M) pre = h
  intro hn w
  have w' : WF (h.setattr n k (.imm i)) := wf_setattr w n k _ fun l x => (by cases x)
  show view (h.setattr n k (.imm i)) n k = _
  rw [view_eq w', getattr_own w' (by rw [slot_setattr, if_pos ⟨rfl, rfl, hn⟩])]
  rfl

/-- A deleted key is not shown, whatever was there. -/
theorem deleted_not_shown (pre : List (Op I M)) (n : Nat) (k : Str)
    (hn : n < (runAll (base : Heap I M) pre).nodes.length) :
    (runAll base pre |>.delitem n k).hasKey n k = false := by
  have w := wf_runAll (wf_base (I := I) (M := M)) pre
  revert w hn
  generalize runAll (base : Heap I M) pre = h
  intro hn w
  have w' : WF (h.setattr n k .marker) := wf_setattr w n k _ fun l x => (by cases x)
  show (h.setattr n k .marker).hasKey n k = false
  unfold Heap.hasKey
  rw [getitem_ro w', getattr_own w' (by rw [slot_setattr, if_pos ⟨rfl, rfl, hn⟩])]
  rfl

/-- A mutable value that is set is shown if nothing immutable was ever set or deleted for this key
here or in the dictionaries this one was copied from. -/
theorem set_mutable_shown_partial (pre : List (Op I M)) (n : Nat) (k : Str) (m : M)
    (hn : n < (runAll (base : Heap I M) pre).nodes.length)
    (hk : (runAll (base : Heap I M) pre).getattr n k = none) :
    view ((runAll base pre).setitem n k (.obj m)) n k = some (.obj m) := by
  have w := wf_runAll (wf_base (I := I) (M := M)) pre
  revert w hn hk
  generalize runAll (base : Heap I M) pre = h
  intro hn hk w
  have w' := wf_setNew w n (k ++ MUTABLE) m (endsWith_mut k)
  show view (h.setNew n (k ++ MUTABLE) m) n k = _
  have hne : k ≠ k ++ MUTABLE := by
    intro e
    have := congrArg List.length e
    rw [List.length_append] at this
    have : MUTABLE.length = 11 := rfl
    omega
  have hg : (h.setNew n (k ++ MUTABLE) m).getattr n k = none := by
    rw [← hk]
    unfold Heap.getattr
    rw [mro_setNew, find_congr (h := h) (h' := h.setNew n (k ++ MUTABLE) m) fun x _ => by
      rw [slot_setNew, if_neg fun y => hne y.2.1]]
  rw [view_eq w', hg, getattr_own w' (by rw [slot_setNew, if_pos ⟨rfl, rfl, hn⟩])]
  exact see_last (objs_setNew h n _ m)

/-- The condition is needed: a mutable value set over an immutable one is lost, and the old value
is shown. -/
theorem set_mutable_lost : ∃ pre : List (Op Nat (List Nat)),
    view ((runAll base pre).setitem 1 "a".toList (.obj [2])) 1 "a".toList = some (.imm 1) :=
  ⟨[.copy 0, .set 1 "a".toList (.imm 1)], by decide +kernel⟩

/-- A key that was deleted and is then set to a mutable value is still missing. -/
theorem set_after_delete_lost : ∃ pre : List (Op Nat (List Nat)),
    ((runAll base pre).setitem 1 "a".toList (.obj [2])).hasKey 1 "a".toList = false :=
  ⟨[.copy 0, .set 1 "a".toList (.obj [1]), .del 1 "a".toList], by decide +kernel⟩

/-- An immutable value set in the original hides a mutable value that the copy has of its own. -/
theorem original_hides_own : ∃ pre : List (Op Nat (List Nat)),
    view (runAll base pre) 2 "a".toList = some (.obj [2]) ∧
    view ((runAll base pre).setitem 1 "a".toList (.imm 1)) 2 "a".toList = some (.imm 1) :=
  ⟨[.copy 0, .copy 1, .set 2 "a".toList (.obj [2])], by decide +kernel⟩

/-- A value that is the empty tuple looks deleted. -/
theorem empty_tuple_missing : ((base : Heap Nat (List Nat)).setitem 0 "a".toList .empty).hasKey 0
    "a".toList = false := by decide +kernel

/-- The names of the methods are keys of every dictionary, also of the empty one, and a mutable
value set for such a key is not shown. -/
theorem method_names_are_keys : ∀ k ∈ reserved,
    (base : Heap Nat (List Nat)).hasKey 0 k = true ∧
    view ((base : Heap Nat (List Nat)).setitem 0 k (.obj [1])) 0 k = some .method := by
  decide +kernel

/-! ### Iterating -/

theorem keys_of_lookup {α : Type} (l : List (Str × α)) (a : Str) :
    a ∈ l.map (·.1) ↔ (l.lookup a).isSome := by
  induction l with
  | nil => simp
  | cons e l ih =>
    obtain ⟨x, v⟩ := e
    rw [List.map_cons, List.mem_cons, List.lookup_cons]
    by_cases h : a = x
    · subst h; simp
    · have : (a == x) = false := by simpa using h
      rw [this, ← ih]
      exact ⟨fun y => y.resolve_left h, .inr⟩

theorem mem_dir {h : Heap I M} {n : Nat} {a : Str} :
    a ∈ h.dir n ↔ (∃ v, h.find (h.mro n) a = some v) ∧ ¬ startsWith a ['_', '_'] = true := by
  unfold Heap.dir
  rw [List.mem_eraseDups, List.mem_filter, List.mem_flatMap]
  refine and_congr ⟨?_, ?_⟩ (by simp)
  · rintro ⟨m, hm, ha⟩
    rw [keys_of_lookup] at ha
    revert hm
    generalize h.mro n = ns
    intro hm
    induction ns with
    | nil => cases hm
    | cons x ns ih =>
      rw [find_cons]
      cases hs : h.slot x a with
      | some v => exact ⟨v, rfl⟩
      | none =>
        rcases List.mem_cons.1 hm with rfl | hm
        · rw [show (h.own m).lookup a = none from hs] at ha; cases ha
        · exact ih hm
  · rintro ⟨v, e⟩
    obtain ⟨m, hm, hs⟩ := find_slot e
    exact ⟨m, hm, (keys_of_lookup _ _).2 (by rw [show (h.own m).lookup a = some v from hs]; rfl)⟩

theorem strip_mut (k : Str) : stripMutable (k ++ MUTABLE) = k := by
  unfold stripMutable
  rw [if_pos (endsWith_mut k), List.length_append, Nat.add_sub_cancel, List.take_left]

theorem strip_good {k : Str} (hk : ¬ endsWith k MUTABLE = true) : stripMutable k = k := by
  unfold stripMutable
  rw [if_neg hk]

theorem starts_append {k : Str} (h : ¬ startsWith k ['_', '_'] = true) (hk : k ≠ [])
    (h1 : k ≠ ['_']) : ¬ startsWith (k ++ MUTABLE) ['_', '_'] = true := by
  intro e
  obtain ⟨t, ht⟩ := startsWith_iff.1 e
  match k, h, hk, h1 with
  | [], _, hk, _ => exact hk rfl
  | [a], _, _, h1 =>
    injection ht with h2 _
    exact h1 (by rw [h2])
  | a :: b :: r, h, _, _ =>
    injection ht with h2 h3
    injection h3 with h3 _
    exact h (startsWith_iff.2 ⟨r, by rw [h2, h3]; rfl⟩)

/-- Iterating over the items gives exactly the keys that are shown, with their values: for every
history and every good key (not the empty one and not a single underscore, whose names for mutable
values start with two underscores). -/
theorem items_exact (pre : List (Op I M)) (n : Nat) (k : Str) (hk : Good k) (h0 : k ≠ [])
    (h1 : k ≠ ['_']) (v : Val I) :
    (k, v) ∈ (runAll base pre).iteritems n ↔ ((runAll (base : Heap I M) pre).getitem n k true).2 = some v := by
  have w := wf_runAll (wf_base (I := I) (M := M)) pre
  revert w
  generalize runAll (base : Heap I M) pre = h
  intro w
  unfold Heap.iteritems
  rw [List.mem_filterMap]
  constructor
  · rintro ⟨k', _, e⟩
    cases hg : (h.getitem n k' true).2 with
    | none => rw [hg] at e; cases e
    | some v' =>
      rw [hg] at e
      cases e
      exact hg
  · intro e
    refine ⟨k, ?_, by rw [e]; rfl⟩
    rw [getitem_ro w, getattr_good n hk, getattr_mut] at e
    unfold Heap.iterkeys
    rw [List.mem_map]
    cases hf : h.find (h.mro n) k with
    | some v' => exact ⟨k, mem_dir.2 ⟨⟨v', hf⟩, hk.2.2⟩, strip_good hk.1⟩
    | none =>
      rw [hf] at e
      cases hf2 : h.find (h.mro n) (k ++ MUTABLE) with
      | none => rw [hf2] at e; cases e
      | some v' =>
        exact ⟨k ++ MUTABLE, mem_dir.2 ⟨⟨v', hf2⟩, starts_append hk.2.2 h0 h1⟩, strip_mut k⟩

/-- Iterating over the keys gives deleted keys too. -/
theorem deleted_key_iterated : ∃ pre : List (Op Nat (List Nat)),
    (runAll base pre).hasKey 1 "a".toList = false ∧
    "a".toList ∈ (runAll base pre).iterkeys 1 ∧ (runAll base pre).iteritems 1 = [] :=
  ⟨[.copy 0, .set 1 "a".toList (.imm 1), .del 1 "a".toList], by decide +kernel⟩

/-- A key that was used for both kinds of values is given twice. -/
theorem key_iterated_twice : ∃ pre : List (Op Nat (List Nat)),
    (runAll base pre).iterkeys 1 = ["a".toList, "a".toList] ∧
    (runAll base pre).iteritems 1 = [("a".toList, .imm 1), ("a".toList, .imm 1)] :=
  ⟨[.copy 0, .set 1 "a".toList (.obj [1]), .set 1 "a".toList (.imm 1)], by decide +kernel⟩

example : (runAll (I := Nat) (M := List Nat) base [.copy 0, .set 1 "a".toList (.obj [1]), .copy 1,
    .set 2 "b".toList (.imm 3)]).iteritems 2 = [("b".toList, .imm 3), ("a".toList, .ref 0)] := by
  decide +kernel

end Bb.Cow
