import Verif.Meta.ProgressSpec
/-! # Lemmas about the progress handlers -/

namespace Isar.Progress
open Py Spec

/-! ## Cutting into lines -/

theorem cutAt_none {c : Char} : ∀ {s : Str}, c ∉ s → cutAt c s = none := by
  intro s
  induction s with
  | nil => intro _; rfl
  | cons x s ih =>
    intro h
    rw [List.mem_cons, not_or] at h
    rw [cutAt, if_neg (fun e => h.1 e.symm), ih h.2]
    rfl

theorem cutAt_line {c : Char} : ∀ {t s : Str}, c ∉ t → cutAt c (t ++ c :: s) = some (t ++ [c], s) := by
  intro t
  induction t with
  | nil => intro s _; simp [cutAt]
  | cons x t ih =>
    intro s h
    rw [List.mem_cons, not_or] at h
    rw [List.cons_append, cutAt, if_neg (fun e => h.1 e.symm), ih h.2]
    rfl

theorem cut_exists (text : Str) : ∃ ls rest, Cut text ls rest := by
  induction text with
  | nil => exact ⟨[], [], rfl, by simp, by simp⟩
  | cons c text ih =>
    obtain ⟨ls, rest, e, hl, hr⟩ := ih
    by_cases hc : c = '\n'
    · refine ⟨['\n'] :: ls, rest, by rw [hc, e]; rfl, ?_, hr⟩
      intro l hm
      rcases List.mem_cons.1 hm with rfl | hm
      · exact ⟨[], rfl, by simp⟩
      · exact hl l hm
    · cases ls with
      | nil =>
        refine ⟨[], c :: rest, by rw [e]; rfl, by simp, ?_⟩
        rw [List.mem_cons, not_or]
        exact ⟨fun e => hc e.symm, hr⟩
      | cons l ls =>
        refine ⟨(c :: l) :: ls, rest, by rw [e]; rfl, ?_, hr⟩
        intro m hm
        rcases List.mem_cons.1 hm with rfl | hm
        · obtain ⟨t, rfl, ht⟩ := hl l (by simp)
          refine ⟨c :: t, rfl, ?_⟩
          rw [List.mem_cons, not_or]
          exact ⟨fun e => hc e.symm, ht⟩
        · exact hl m (List.mem_cons_of_mem _ hm)

theorem isLine_ne {l : Str} (h : IsLine l) : 0 < l.length := by
  obtain ⟨t, rfl, -⟩ := h
  simp

theorem length_flatten_lines {ls : List Str} (h : ∀ l ∈ ls, IsLine l) :
    ls.length ≤ ls.flatten.length := by
  induction ls with
  | nil => simp
  | cons l ls ih =>
    have := isLine_ne (h l (by simp))
    have := ih (fun m hm => h m (List.mem_cons_of_mem _ hm))
    simp only [List.length_cons, List.flatten_cons, List.length_append]
    omega

theorem cut_unique {text : Str} : ∀ {ls ls' : List Str} {r r' : Str}, Cut text ls r →
    Cut text ls' r' → ls = ls' ∧ r = r' := by
  intro ls
  induction ls generalizing text with
  | nil =>
    rintro ls' r r' ⟨e, -, hr⟩ ⟨e', hl', -⟩
    cases ls' with
    | nil =>
      rw [e] at e'
      exact ⟨rfl, by simpa using e'⟩
    | cons l ls' =>
      obtain ⟨t, rfl, -⟩ := hl' l (by simp)
      exfalso
      rw [e] at e'
      simp only [List.flatten_nil, List.nil_append] at e'
      exact hr (by rw [e']; simp)
  | cons l ls ih =>
    rintro ls' r r' ⟨e, hl, hr⟩ ⟨e', hl', hr'⟩
    obtain ⟨t, rfl, ht⟩ := hl l (by simp)
    cases ls' with
    | nil =>
      exfalso
      rw [e] at e'
      simp only [List.flatten_nil, List.nil_append] at e'
      exact hr' (by rw [← e']; simp)
    | cons l' ls' =>
      obtain ⟨t', rfl, ht'⟩ := hl' l' (by simp)
      have e1 : cutAt '\n' text = some (t ++ ['\n'], ls.flatten ++ r) := by
        rw [e]
        simp only [List.flatten_cons, List.append_assoc, List.singleton_append]
        exact cutAt_line ht
      have e2 : cutAt '\n' text = some (t' ++ ['\n'], ls'.flatten ++ r') := by
        rw [e']
        simp only [List.flatten_cons, List.append_assoc, List.singleton_append]
        exact cutAt_line ht'
      rw [e1] at e2
      simp only [Option.some.injEq, Prod.mk.injEq] at e2
      obtain ⟨ea, eb⟩ := ih (text := ls.flatten ++ r)
        ⟨rfl, fun m hm => hl m (List.mem_cons_of_mem _ hm), hr⟩
        ⟨e2.2, fun m hm => hl' m (List.mem_cons_of_mem _ hm), hr'⟩
      exact ⟨by rw [ea, e2.1], eb⟩

/-! ## The handlers -/

/-- Other contents of the log and of the buffer. -/
def Handler.io (h : Handler) (o b : Str) : Handler := { h with out := o, buf := b }

theorem report_io (h : Handler) (o b : Str) (m n : Nat) :
    report (h.io o b) m n = (report h m n).map (·.io o b) := by
  unfold report
  split <;> rfl

theorem report_io' (h h' : Handler) (o b : Str) (m n : Nat) (e : h' = h.io o b) :
    report h' m n = (report h m n).map (·.io o b) := by rw [e, report_io]

theorem ok_map (h : Handler) (o b : Str) :
    (Except.ok (h.io o b) : Except Unit Handler) = (Except.ok h).map (·.io o b) := rfl

theorem processLine_io (k : Kind) (h : Handler) (o b line : Str) :
    processLine k (h.io o b) line = (processLine k h line).map (·.io o b) := by
  cases k with
  | base => rfl
  | download =>
    unfold processLine
    simp only
    split
    · exact report_io' _ _ _ _ _ _ rfl
    · rfl
  | install =>
    unfold processLine
    simp only
    split
    · exact report_io' _ _ _ _ _ _ rfl
    · split
      · exact report_io' _ _ _ _ _ _ rfl
      · rfl
  | initrd =>
    unfold processLine
    simp only
    split
    · exact report_io' _ _ _ _ _ _ rfl
    · split
      · exact report_io' _ _ _ _ _ _ rfl
      · rfl

theorem handleLine_io (k : Kind) (h : Handler) (o b line : Str) :
    handleLine k (h.io o b) line = (handleLine k h line).map (·.io o b) := by
  unfold handleLine
  have e : (h.io o b).prepare = h.prepare := rfl
  rw [e]
  split
  · cases total k line <;> rfl
  · exact processLine_io k h o b line

/-- All lines, one after the other. -/
def handleAll (k : Kind) (h : Handler) : List Str → Except Unit Handler
  | [] => .ok h
  | l :: ls =>
    match handleLine k h l with
    | .error e => .error e
    | .ok h' => handleAll k h' ls

theorem handleAll_io (k : Kind) (o b : Str) : ∀ (ls : List Str) (h : Handler),
    handleAll k (h.io o b) ls = (handleAll k h ls).map (·.io o b) := by
  intro ls
  induction ls with
  | nil => intro h; rfl
  | cons l ls ih =>
    intro h
    rw [handleAll, handleAll, handleLine_io]
    cases handleLine k h l with
    | error e => rfl
    | ok h' => exact ih h'

theorem io_io (h : Handler) (o b o' b' : Str) : (h.io o b).io o' b' = h.io o' b' := rfl

theorem handleAll_append (k : Kind) : ∀ (as bs : List Str) (h : Handler),
    handleAll k h (as ++ bs) =
      match handleAll k h as with
      | .error e => .error e
      | .ok h' => handleAll k h' bs := by
  intro as
  induction as with
  | nil => intro bs h; rfl
  | cons a as ih =>
    intro bs h
    rw [List.cons_append, handleAll, handleAll]
    cases handleLine k h a with
    | error e => rfl
    | ok h' => exact ih bs h'

theorem drain_lines (k : Kind) (rest : Str) (hr : '\n' ∉ rest) :
    ∀ (ls : List Str), (∀ l ∈ ls, IsLine l) → ∀ (n : Nat) (h : Handler) (o : Str), ls.length < n →
      drain k n (h.io o (ls.flatten ++ rest)) = (handleAll k h ls).map (·.io o rest) := by
  intro ls
  induction ls with
  | nil =>
    intro _ n h o hn
    obtain ⟨n, rfl⟩ : ∃ m, n = m + 1 := ⟨n - 1, by simp only [List.length_nil] at hn; omega⟩
    rw [drain]
    have e : (h.io o (([] : List Str).flatten ++ rest)).buf = rest := rfl
    rw [e, cutAt_none hr]
    rfl
  | cons l ls ih =>
    intro hl n h o hn
    obtain ⟨n, rfl⟩ : ∃ m, n = m + 1 := ⟨n - 1, by simp only [List.length_cons] at hn; omega⟩
    obtain ⟨t, rfl, ht⟩ := hl l (by simp)
    rw [drain]
    have e : (h.io o (((t ++ ['\n']) :: ls).flatten ++ rest)).buf =
        t ++ '\n' :: (ls.flatten ++ rest) := by
      simp [Handler.io]
    rw [e, cutAt_line ht]
    simp only
    have e2 : ({ h.io o (((t ++ ['\n']) :: ls).flatten ++ rest) with
        buf := ls.flatten ++ rest } : Handler) = h.io o (ls.flatten ++ rest) := rfl
    rw [e2, handleLine_io, handleAll]
    cases hh : handleLine k h (t ++ ['\n']) with
    | error e => rfl
    | ok h' =>
      simp only [Except.map]
      exact ih (fun m hm => hl m (List.mem_cons_of_mem _ hm)) n h' o
        (by simp only [List.length_cons] at hn; omega)

theorem write_lines (k : Kind) (h : Handler) (s : Str) {ls : List Str} {rest : Str}
    (hc : Cut (h.buf ++ s) ls rest) :
    write k h s = (handleAll k h ls).map (·.io (h.out ++ s) rest) := by
  unfold write
  have e : ({ h with out := h.out ++ s, buf := h.buf ++ s } : Handler) =
      h.io (h.out ++ s) (ls.flatten ++ rest) := by rw [← hc.1]; rfl
  rw [e, drain_lines k rest hc.2.2 ls hc.2.1]
  have := length_flatten_lines hc.2.1
  have h2 := congrArg List.length hc.1
  simp only [List.length_append] at h2
  omega

theorem write_append (k : Kind) (h : Handler) (a b : Str) :
    write k h (a ++ b) =
      match write k h a with
      | .error e => .error e
      | .ok h' => write k h' b := by
  obtain ⟨l1, r1, c1⟩ := cut_exists (h.buf ++ a)
  obtain ⟨l2, r2, c2⟩ := cut_exists (r1 ++ b)
  have c3 : Cut (h.buf ++ (a ++ b)) (l1 ++ l2) r2 := by
    refine ⟨?_, ?_, c2.2.2⟩
    · rw [← List.append_assoc, c1.1, List.append_assoc, c2.1, List.flatten_append,
        List.append_assoc]
    · intro l hl
      rcases List.mem_append.1 hl with hl | hl
      · exact c1.2.1 l hl
      · exact c2.2.1 l hl
  rw [write_lines k h _ c3, write_lines k h _ c1, handleAll_append]
  cases hh : handleAll k h l1 with
  | error e => rfl
  | ok h' =>
    simp only [Except.map]
    rw [write_lines k (h'.io (h.out ++ a) r1) b (ls := l2) (rest := r2) c2, handleAll_io]
    cases handleAll k h' l2 with
    | error e => rfl
    | ok h'' => simp [Except.map, Handler.io]

/-! ## Numbers -/

theorem digits_iff {s r : Str} {n : Nat} :
    digits s = some (n, r) ↔ ∃ a, Number a n ∧ s = a ++ r ∧ ∀ c r', r = c :: r' → c.isDigit = false := by
  unfold digits
  constructor
  · intro h
    split at h
    · cases h
    · rename_i hne
      simp only [Option.some.injEq, Prod.mk.injEq] at h
      obtain ⟨h1, h2⟩ := h
      refine ⟨s.takeWhile Char.isDigit, ⟨hne, ?_, h1⟩, ?_, ?_⟩
      · intro c hc
        exact List.all_eq_true.1 (List.all_takeWhile (p := Char.isDigit) (l := s)) c hc
      · rw [← h2, List.takeWhile_append_dropWhile]
      · intro c r' e
        have : s.dropWhile Char.isDigit = c :: r' := by rw [h2, e]
        have h3 := List.head?_dropWhile_not Char.isDigit s
        rw [this] at h3
        simpa using h3
  · rintro ⟨a, ⟨hne, hd, hv⟩, rfl, hr⟩
    have e : (a ++ r).takeWhile Char.isDigit = a ∧ (a ++ r).dropWhile Char.isDigit = r := by
      cases r with
      | nil =>
        rw [List.takeWhile_append_of_pos hd, List.dropWhile_append_of_pos hd]
        simp
      | cons c r =>
        have hc := hr c r rfl
        rw [List.takeWhile_append_of_pos hd, List.dropWhile_append_of_pos hd]
        simp [hc]
    rw [e.1, e.2, if_neg hne, hv]

theorem after_iff {p s r : Str} : after p s = some r ↔ s = p ++ r := by
  unfold after
  constructor
  · intro h
    split at h
    · rename_i hp
      obtain ⟨t, rfl⟩ := startsWith_iff.1 hp
      simp only [List.drop_left, Option.some.injEq] at h
      rw [h]
    · cases h
  · rintro rfl
    rw [if_pos (startsWith_iff.2 ⟨r, rfl⟩), List.drop_left]

theorem pkgsTotal_iff {line : Str} {n : Nat} : pkgsTotal line = some n ↔ AnnouncesPackages line n := by
  unfold pkgsTotal AnnouncesPackages
  constructor
  · intro h
    simp only [Option.bind_eq_bind, Option.bind_eq_some_iff, Option.pure_def,
      Option.some.injEq, Prod.exists] at h
    obtain ⟨u, r1, h1, r2, h2, i, r3, h3, r4, h4, h5⟩ := h
    obtain ⟨a, ha, e1, -⟩ := digits_iff.1 h1
    rw [after_iff] at h2 h4
    obtain ⟨b, hb, e2, -⟩ := digits_iff.1 h3
    refine ⟨a, b, u, i, r4, ha, hb, h5.symm, ?_⟩
    rw [e1, h2, e2, h4]
    simp only [List.append_assoc]
  · rintro ⟨a, b, u, i, x, ha, hb, rfl, rfl⟩
    have h1 : digits (a ++ " upgraded, ".toList ++ b ++ " newly installed".toList ++ x) =
        some (u, " upgraded, ".toList ++ (b ++ (" newly installed".toList ++ x))) := by
      rw [digits_iff]
      refine ⟨a, ha, by simp only [List.append_assoc], ?_⟩
      intro c r' e
      have : c = ' ' := by
        have := congrArg List.head? e
        simpa using this.symm
      rw [this]; decide
    have h3 : digits (b ++ (" newly installed".toList ++ x)) =
        some (i, " newly installed".toList ++ x) := by
      rw [digits_iff]
      refine ⟨b, hb, rfl, ?_⟩
      intro c r' e
      have : c = ' ' := by
        have := congrArg List.head? e
        simpa using this.symm
      rw [this]; decide
    have h2 := after_iff.2 (show " upgraded, ".toList ++ (b ++ (" newly installed".toList ++ x)) =
      " upgraded, ".toList ++ (b ++ (" newly installed".toList ++ x)) from rfl)
    have h4 := after_iff.2 (show " newly installed".toList ++ x = " newly installed".toList ++ x from rfl)
    rw [h1]
    simp only [Option.bind_eq_bind, Option.bind_some]
    rw [h2]
    simp only [Option.bind_some]
    rw [h3]
    simp only [Option.bind_some]
    rw [h4]
    rfl

theorem modulesTotal_iff {line : Str} {n : Nat} :
    modulesTotal line = some n ↔ ∃ m, AnnouncesModules line m ∧ n = max 1 (m / 2) := by
  unfold modulesTotal AnnouncesModules
  constructor
  · intro h
    simp only [Option.bind_eq_bind, Option.bind_eq_some_iff, Option.pure_def,
      Option.some.injEq, Prod.exists] at h
    obtain ⟨r1, h1, m, r2, h2, h5⟩ := h
    rw [after_iff] at h1
    obtain ⟨a, ha, e1, hx⟩ := digits_iff.1 h2
    refine ⟨m, ⟨a, r2, ha, hx, ?_⟩, h5.symm⟩
    rw [h1, e1]
    simp only [List.append_assoc]
  · rintro ⟨m, ⟨a, x, ha, hx, rfl⟩, rfl⟩
    have h1 := after_iff.2 (show "Total number of modules: ".toList ++ a ++ x =
      "Total number of modules: ".toList ++ (a ++ x) by rw [List.append_assoc])
    have h2 : digits (a ++ x) = some (m, x) := digits_iff.2 ⟨a, ha, rfl, hx⟩
    rw [h1]
    simp only [Option.bind_eq_bind, Option.bind_some]
    rw [h2]
    rfl

end Isar.Progress
