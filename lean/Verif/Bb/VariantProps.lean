import Verif.Bb.VariantModel
/-!
# Each variant is made of the recipe
-/

namespace Bb.Variant
open Py

section
variable {D : Type}

theorem mem_keys : ∀ {ws : List Str} {w : Str}, w ∈ keys ws ↔ w ∈ ws
  | [], _ => Iff.rfl
  | x :: ws, w => by
    unfold keys
    rw [List.mem_cons, List.mem_cons, List.mem_filter, mem_keys]
    constructor
    · rintro (h | h)
      · exact Or.inl h
      · exact Or.inr h.1
    · rintro (h | h)
      · exact Or.inl h
      · by_cases e : w = x
        · exact Or.inl e
        · exact Or.inr ⟨h, decide_eq_true e⟩

theorem lookup_map {f : Str → D} {v : Str} : ∀ {ws : List Str}, (ws.map fun n => (n, f n)).lookup v = if v ∈ ws then some (f v) else none
  | [] => rfl
  | w :: ws => by
    rw [List.map_cons, List.lookup_cons]
    by_cases e : v = w
    · subst e
      rw [if_pos List.mem_cons_self, beq_self_eq_true]
    · have : (v == w) = false := beq_eq_false_iff_ne.2 e
      rw [this, lookup_map]
      by_cases h : v ∈ ws
      · rw [if_pos h, if_pos (List.mem_cons_of_mem _ h)]
      · rw [if_neg h, if_neg fun hm => (List.mem_cons.1 hm).elim e h]

/-- C153: the variants are those of `BBCLASSEXTEND`, and each is what the recipe is when it inherits the class, before
anything was finalized for another one: with the name of the class behind its name, or with the argument of the class. -/
theorem variant_is {o : Ops D} {d : D} {v : Str} (hv : v ≠ []) :
    (multiFinalize o none d).lookup v =
      if v ∈ words (o.get "BBCLASSEXTEND".toList (o.finalize [] d)) then
        some (o.finalize v (extend o (o.get "PN".toList (o.finalize [] d)) v
          (o.set "BBCLASSEXTEND".toList (o.get "BBCLASSEXTEND".toList (o.finalize [] d)) d)))
      else none := by
  unfold multiFinalize
  dsimp only
  have : (v == ([] : Str)) = false := beq_eq_false_iff_ne.2 hv
  rw [List.lookup_cons, this]
  dsimp only
  rw [lookup_map]
  have hm : v ∈ (keys (words (o.get "BBCLASSEXTEND".toList (o.finalize [] d)))).filter (chosen none) ↔
      v ∈ words (o.get "BBCLASSEXTEND".toList (o.finalize [] d)) := by
    rw [List.mem_filter, mem_keys]
    exact ⟨fun h => h.1, fun h => ⟨h, rfl⟩⟩
  by_cases h : v ∈ words (o.get "BBCLASSEXTEND".toList (o.finalize [] d))
  · rw [if_pos h, if_pos (hm.2 h)]
  · rw [if_neg h, if_neg fun x => h (hm.1 x)]

/-- C153: what a class without an argument is for. -/
theorem plain_class {o : Ops D} {pn c : Str} {d : D} (h : ':' ∉ c) : extend o pn c d = o.inherit c (o.set "PN".toList (pn ++ ['-'] ++ c) d) := by
  have hc : classOf c = (c, none) := by unfold classOf; rw [splitOn_clean _ _ h]
  unfold extend
  rw [hc]
  dsimp only
  rw [if_neg fun h => h rfl]

/-- C153: a class with an argument is told the argument. -/
theorem class_argument {o : Ops D} {pn c a : Str} {d : D} (h : ':' ∉ c) (ha : ':' ∉ a) :
    extend o pn (c ++ ':' :: a) d = o.inherit c (o.set "BBEXTENDVARIANT".toList a (o.set "BBEXTENDCURR".toList c d)) := by
  have hc : classOf (c ++ ':' :: a) = (c, some a) := by
    unfold classOf
    rw [splitOn_append, splitOn_clean _ _ h, splitOn_clean _ _ ha]
    rfl
  unfold extend
  rw [hc]
  dsimp only
  rw [if_pos]
  · rfl
  · intro e
    have : (c ++ ':' :: a).length = c.length := by rw [e]
    rw [List.length_append, List.length_cons] at this
    omega

theorem isSub_self (s : Str) : isSub s s = true := isSub_iff.2 ⟨[], [], by rw [List.nil_append, List.append_nil]⟩

/-- C153: when only one variant is needed, it is the same as when all are read. -/
theorem one_same (o : Ops D) (d : D) (v : Str) : (parseOne o v d).lookup v = (multiFinalize o none d).lookup v := by
  by_cases hv : v = []
  · subst hv; rfl
  · unfold parseOne
    rw [if_neg hv, variant_is hv]
    unfold multiFinalize
    dsimp only
    have : (v == ([] : Str)) = false := beq_eq_false_iff_ne.2 hv
    rw [List.lookup_cons, this]
    dsimp only
    rw [lookup_map]
    have hm : v ∈ (keys (words (o.get "BBCLASSEXTEND".toList (o.finalize [] d)))).filter (chosen (some v)) ↔
        v ∈ words (o.get "BBCLASSEXTEND".toList (o.finalize [] d)) := by
      rw [List.mem_filter, mem_keys]
      exact ⟨fun h => h.1, fun h => ⟨h, isSub_self v⟩⟩
    by_cases h : v ∈ words (o.get "BBCLASSEXTEND".toList (o.finalize [] d))
    · rw [if_pos h, if_pos (hm.2 h)]
    · rw [if_neg h, if_neg fun x => h (hm.1 x)]

theorem keys_nodup : ∀ (ws : List Str), (keys ws).Nodup
  | [] => List.nodup_nil
  | w :: ws => by
    unfold keys
    refine List.nodup_cons.2 ⟨fun h => of_decide_eq_true (List.mem_filter.1 h).2 rfl, ?_⟩
    exact List.filter_sublist.nodup (keys_nodup ws)

/-- C153: there is no variant twice, and the recipe itself comes first. -/
theorem variants_once (o : Ops D) (only : Option Str) (d : D) :
    ∃ vs, (multiFinalize o only d).map (·.1) = [] :: vs ∧ vs.Nodup := by
  refine ⟨_, rfl, ?_⟩
  rw [List.map_map]
  have : (Prod.fst ∘ fun name => (name, o.finalize name (extend o (o.get "PN".toList (o.finalize [] d)) name
      (o.set "BBCLASSEXTEND".toList (o.get "BBCLASSEXTEND".toList (o.finalize [] d)) d)))) = (id : Str → Str) := rfl
  rw [this, List.map_id]
  exact List.filter_sublist.nodup (keys_nodup _)

end

/-! ## An example: variables are a dictionary; the configuration adds a class when a recipe is finalized -/

def ops : Ops (Dict Str) where
  get k d := (d.lookup k).getD []
  set k v d := d.set k v
  inherit c d := d.set "INHERITED".toList c
  finalize _ d := d.set "BBCLASSEXTEND".toList ((d.lookup "BBCLASSEXTEND".toList).getD [] ++ " native".toList)

def hello : Dict Str := [("PN".toList, "hello".toList), ("BBCLASSEXTEND".toList, "per-kernel:rt".toList)]

example : ((multiFinalize ops none hello).map (·.1)) = [[], "per-kernel:rt".toList, "native".toList] := by decide +kernel
example : (((multiFinalize ops none hello).lookup "native".toList).bind (·.lookup "PN".toList)) = some "hello-native".toList := by decide +kernel
example : (((multiFinalize ops none hello).lookup "per-kernel:rt".toList).bind (·.lookup "BBEXTENDVARIANT".toList)) = some "rt".toList := by
  decide +kernel

/-- Beside C153: a second argument of a class is lost, and so two variants may be the same. -/
theorem argument_lost {D : Type} {o : Ops D} {pn c a b : Str} {d : D} (h : ':' ∉ c) (ha : ':' ∉ a) :
    extend o pn (c ++ ':' :: (a ++ ':' :: b)) d = extend o pn (c ++ ':' :: a) d := by
  rw [class_argument h ha]
  have hc : classOf (c ++ ':' :: (a ++ ':' :: b)) = (c, some a) := by
    unfold classOf
    rw [splitOn_append, splitOn_clean _ _ h, splitOn_append, splitOn_clean _ _ ha]
    rfl
  unfold extend
  rw [hc]
  dsimp only
  rw [if_pos]
  · rfl
  · intro e
    have : (c ++ ':' :: (a ++ ':' :: b)).length = c.length := by rw [e]
    rw [List.length_append, List.length_cons] at this
    omega

end Bb.Variant
