import Verif.Py.Str
/-!
# Python dictionaries

A dictionary is the list of its items in the order of insertion, as Python keeps it.
-/

namespace Py

/-- A dictionary with strings as keys. -/
abbrev Dict (α : Type) := List (Str × α)

variable {α : Type}

/-- `d[k] = v`: the place of a key that is there does not change. -/
def Dict.set (d : Dict α) (k : Str) (v : α) : Dict α :=
  if (d.lookup k).isSome then d.map fun e => if e.1 = k then (k, v) else e else d ++ [(k, v)]

/-- `del d[k]`, and nothing if the key is not there. -/
def Dict.del (d : Dict α) (k : Str) : Dict α := d.filter fun e => e.1 ≠ k

theorem lookup_append_none (d : Dict α) (k : Str) (v : α) (j : Str) (h : d.lookup k = none) :
    (d ++ [(k, v)]).lookup j = if j = k then some v else d.lookup j := by
  induction d with
  | nil =>
    rw [List.nil_append, List.lookup_cons]
    by_cases e : j = k
    · simp [e]
    · have : (j == k) = false := by simpa using e
      rw [this, if_neg e]
  | cons x d ih =>
    obtain ⟨a, b⟩ := x
    rw [List.lookup_cons] at h
    have hk : (k == a) = false := by
      cases hk : k == a with
      | true => rw [hk] at h; cases h
      | false => rfl
    rw [hk] at h
    rw [List.cons_append, List.lookup_cons, List.lookup_cons, ih h]
    by_cases e : j = k
    · subst e; rw [hk]
    · rw [if_neg e, if_neg e]

theorem lookup_map_set (d : Dict α) (k : Str) (v : α) (j : Str) :
    (d.map fun e => if e.1 = k then (k, v) else e).lookup j =
      if j = k then (d.lookup k).map (fun _ => v) else d.lookup j := by
  induction d with
  | nil => simp
  | cons x d ih =>
    obtain ⟨a, b⟩ := x
    rw [List.map_cons]
    by_cases ha : a = k
    · subst ha
      rw [if_pos rfl, List.lookup_cons, List.lookup_cons, List.lookup_cons, ih]
      by_cases e : j = a
      · simp [e]
      · have : (j == a) = false := by simpa using e
        rw [this, if_neg e, if_neg e]
    · rw [if_neg ha, List.lookup_cons, List.lookup_cons, List.lookup_cons, ih]
      have hka : (k == a) = false := by simpa using fun x => ha x.symm
      rw [hka]
      by_cases e : j = k
      · subst e; rw [hka]
      · rw [if_neg e, if_neg e]

theorem Dict.lookup_set (d : Dict α) (k : Str) (v : α) (j : Str) :
    (Dict.set d k v).lookup j = if j = k then some v else d.lookup j := by
  unfold Dict.set
  by_cases h : (d.lookup k).isSome
  · rw [if_pos h, lookup_map_set]
    by_cases e : j = k
    · rw [if_pos e, if_pos e]
      cases hl : d.lookup k with
      | none => rw [hl] at h; cases h
      | some x => rfl
    · rw [if_neg e, if_neg e]
  · rw [if_neg h]
    exact lookup_append_none d k v j (Option.not_isSome_iff_eq_none.1 h)

theorem Dict.lookup_del (d : Dict α) (k j : Str) :
    (Dict.del d k).lookup j = if j = k then none else d.lookup j := by
  unfold Dict.del
  induction d with
  | nil => simp
  | cons e l ih =>
    obtain ⟨x, v⟩ := e
    by_cases hx : x = k
    · subst hx
      rw [List.filter_cons_of_neg (by simp), ih, List.lookup_cons]
      by_cases hb : j = x
      · rw [if_pos hb, if_pos hb]
      · rw [if_neg hb, if_neg hb]
        have : (j == x) = false := by simpa using hb
        rw [this]
    · rw [List.filter_cons_of_pos (by simpa using hx), List.lookup_cons, List.lookup_cons, ih]
      by_cases hb : j = x
      · subst hb
        simp [hx]
      · have : (j == x) = false := by simpa using hb
        rw [this]

end Py
