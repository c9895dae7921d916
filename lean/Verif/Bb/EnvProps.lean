import Verif.Bb.EnvModel

/-!
C260: which variables of the environment a build sees, whatever clients the server had before.
C261: a server that runs already gives what a new one would give.
-/

namespace Isar.Bb.Env

open Py

namespace Spec

/-- The user wants to keep all variables. -/
def keepsAll (e : Env) : Prop := (get e preserveEnv).isSome = true

/-- The variables that somebody with environment `e` lets into builds: all that are set; or those that BB_ENV_PASSTHROUGH lists, those of a fixed list if it is not
set, and those that BB_ENV_PASSTHROUGH_ADDITIONS lists; and the variables with the lists. -/
def kept (e : Env) (k : Str) : Prop :=
  (keepsAll e ∧ (get e k).isSome = true) ∨
  (¬ keepsAll e ∧ ((∃ v, get e passthrough = some v ∧ (k ∈ words v ∨ k = passthrough)) ∨ (get e passthrough = none ∧ k ∈ preservedVars) ∨
    (∃ v, get e additions = some v ∧ (k ∈ words v ∨ k = additions))))

/-- The value of a variable: that of the environment, but a locale with UTF-8 for LC_ALL if this is let in or not set. -/
def value (e : Env) (k : Str) (v : Option Str) : Prop :=
  (k = lcAll ∧ ¬ keepsAll e ∧ (kept e lcAll ∨ get e lcAll = none) → v = some utf8) ∧
  (¬ (k = lcAll ∧ ¬ keepsAll e ∧ (kept e lcAll ∨ get e lcAll = none)) → v = get e k)

/-- No variable occurs twice. -/
def proper (e : Env) : Prop := (keys e).Nodup

end Spec

/-! ## Dictionaries -/

theorem lookup_filter (p : Str → Bool) (k : Str) : ∀ (e : Env), get (e.filter fun x => p x.1) k = if p k then get e k else none
  | [] => by simp [get]
  | (a, v) :: e => by
    have ih := lookup_filter p k e
    unfold get at ih ⊢
    rw [List.filter_cons]
    by_cases ha : p a = true
    · simp only [ha, if_true, List.lookup_cons]
      by_cases hk : k = a
      · subst hk; simp [ha]
      · have : (k == a) = false := by simp [hk]
        rw [this]
        exact ih
    · simp only [ha, List.lookup_cons]
      by_cases hk : k = a
      · subst hk; simp [ha, ih]
      · have : (k == a) = false := by simp [hk]
        rw [this]
        exact ih

theorem get_del (e : Env) (k j : Str) : get (del e k) j = if j = k then none else get e j := by
  unfold del
  rw [lookup_filter (fun a => a != k) j e]
  by_cases h : j = k <;> simp [h]

theorem get_append (a b : Env) (k : Str) : get (a ++ b) k = (get a k).or (get b k) := by
  unfold get
  induction a with
  | nil => simp
  | cons x a ih =>
    obtain ⟨n, v⟩ := x
    rw [List.cons_append, List.lookup_cons, List.lookup_cons, ih]
    split <;> simp

theorem get_set (e : Env) (k v j : Str) : get (set e k v) j = if j = k then some v else get e j := by
  unfold set
  rw [get_append, get_del]
  by_cases h : j = k
  · subst h; simp [get]
  · have : (j == k) = false := by simp [h]
    simp [h, get, List.lookup_cons, this]

theorem get_isSome_iff (e : Env) (k : Str) : (get e k).isSome ↔ k ∈ keys e := by
  unfold get keys
  induction e with
  | nil => simp
  | cons x e ih =>
    obtain ⟨n, v⟩ := x
    rw [List.lookup_cons, List.map_cons, List.mem_cons]
    by_cases h : k = n
    · subst h; simp
    · have : (k == n) = false := by simp [h]
      rw [this]
      simp [h, ih]

theorem get_foldl_set (j : Str) : ∀ (r m : Env), (keys r).Nodup →
    get (r.foldl (fun m x => set m x.1 x.2) m) j = if (get r j).isSome then get r j else get m j
  | [], m, _ => by simp [get]
  | (n, v) :: r, m, h => by
    unfold keys at h
    rw [List.map_cons, List.nodup_cons] at h
    rw [List.foldl_cons, get_foldl_set j r _ h.2, get_set]
    dsimp only
    by_cases hj : j = n
    · subst hj
      have : ¬ (get r j).isSome = true := by
        rw [get_isSome_iff]
        exact h.1
      rw [if_neg this, if_pos rfl]
      simp [get, List.lookup_cons]
    · have e : (j == n) = false := by simp [hj]
      rw [if_neg hj]
      have : get ((n, v) :: r) j = get r j := by simp [get, List.lookup_cons, e]
      rw [this]

/-! ## The client -/

theorem approved_iff (e : Env) (k : Str) : k ∈ approved e ↔ Spec.kept e k := by
  unfold approved Spec.kept Spec.keepsAll
  by_cases hp : (get e preserveEnv).isSome = true
  · rw [if_pos hp, ← get_isSome_iff]
    simp only [hp, true_and, not_true, false_and, or_false]
  · rw [if_neg hp]
    simp only [hp, false_and, not_false_eq_true, true_and, false_or]
    rcases h1 : get e passthrough with _ | v <;> rcases h2 : get e additions with _ | w <;> dsimp only
    · simp
    · split
      · next hm => by_cases hk : k = additions
                   · subst hk; simp_all
                   · simp [hk]
      · simp [or_assoc]
    · simp
    · split
      · next hm => by_cases hk : k = additions
                   · subst hk; simp_all
                   · simp [hk, or_assoc]
      · simp [or_assoc]

theorem get_started (e : Env) (hp : ¬ Spec.keepsAll e) (k : Str) : get (started e) k =
    if k = lcAll then some utf8 else if k ∈ approved e then get e k else none := by
  unfold Spec.keepsAll at hp
  unfold started clean
  rw [if_neg hp]
  dsimp only
  rw [get_set]
  split
  · rfl
  · unfold filterEnv
    have := lookup_filter (fun a => decide (a ∈ approved e)) k e
    dsimp only at this ⊢
    rw [this]
    by_cases h : k ∈ approved e <;> simp [h]

/-- What decides about variables is itself let in, so that a server decides in the same way as its client. -/
theorem kept_started (e : Env) : approved (started e) = approved e := by
  by_cases hp : Spec.keepsAll e
  · unfold Spec.keepsAll at hp
    unfold started clean
    rw [if_pos hp]
  · have g := get_started e hp
    have n1 : preserveEnv ≠ lcAll := by decide
    have n2 : passthrough ≠ lcAll := by decide
    have n3 : additions ≠ lcAll := by decide
    have e1 : get (started e) preserveEnv = get e preserveEnv := by
      rw [g, if_neg n1]
      split
      · rfl
      · unfold Spec.keepsAll at hp
        simpa using (Option.not_isSome_iff_eq_none.mp hp).symm
    have e2 : get (started e) passthrough = get e passthrough := by
      rw [g, if_neg n2]
      split
      · rfl
      · next h =>
        rw [approved_iff] at h
        unfold Spec.kept at h
        simp only [hp, false_and, not_false_eq_true, true_and, false_or] at h
        rcases h1 : get e passthrough with _ | v
        · rfl
        · exact absurd (Or.inl ⟨v, h1, Or.inr trivial⟩) h
    have e3 : get (started e) additions = get e additions := by
      rw [g, if_neg n3]
      split
      · rfl
      · next h =>
        rw [approved_iff] at h
        unfold Spec.kept at h
        simp only [hp, false_and, not_false_eq_true, true_and, false_or] at h
        rcases h1 : get e additions with _ | v
        · rfl
        · exact absurd (Or.inr (Or.inr ⟨v, h1, Or.inr trivial⟩)) h
    unfold Spec.keepsAll at hp
    unfold approved
    rw [e1, e2, e3, if_neg hp, if_neg hp]

theorem nodup_filter_keys (p : Str × Str → Bool) (e : Env) (h : (keys e).Nodup) : (keys (e.filter p)).Nodup :=
  List.Nodup.sublist (List.Sublist.map _ List.filter_sublist) h

/-- A client tells the server its own variables. -/
theorem sent_value (e : Env) (h : Spec.proper e) (k : Str) : Spec.value e k (get (sent e) k) := by
  unfold Spec.value
  by_cases hp : Spec.keepsAll e
  · refine ⟨fun h => absurd hp h.2.1, fun _ => ?_⟩
    unfold Spec.keepsAll at hp
    unfold sent clean
    rw [if_pos hp]
    rfl
  · have e1 : get (sent e) k = if (get (e.filter fun x => x.1 ∉ approved e) k).isSome then get (e.filter fun x => x.1 ∉ approved e) k
        else get (started e) k := by
      have : sent e = (e.filter fun x => x.1 ∉ approved e).foldl (fun m x => set m x.1 x.2) (started e) := by
        unfold Spec.keepsAll at hp
        unfold sent started clean
        rw [if_neg hp]
        rfl
      rw [this]
      exact get_foldl_set k _ _ (nodup_filter_keys _ e h)
    have e2 : get (e.filter fun x => x.1 ∉ approved e) k = if k ∈ approved e then none else get e k := by
      have := lookup_filter (fun a => decide (a ∉ approved e)) k e
      rw [this]
      by_cases hk : k ∈ approved e <;> simp [hk]
    rw [e1, e2, get_started e hp]
    by_cases hk : k ∈ approved e
    · have hk' := (approved_iff e k).mp hk
      by_cases hl : k = lcAll
      · subst hl
        simp [hk, hp, hk']
      · simp [hk, hl]
    · have hk' := fun x => hk ((approved_iff e k).mpr x)
      rcases hg : get e k with _ | v
      · by_cases hl : k = lcAll
        · subst hl
          simp [hk, hp, hg]
        · simp [hk, hl]
      · by_cases hl : k = lcAll
        · subst hl
          simp only [hk, hg, if_false, Option.isSome_some, if_true]
          refine ⟨fun h => ?_, fun _ => trivial⟩
          rcases h.2.2 with h | h
          · exact absurd h hk'
          · simp at h
        · simp [hk, hl]

/-! ## The server -/

theorem get_visit (new : Env) (s : Env × Bool) (k j : Str) : get (visit new s k).1 j = if j = k then get new k else get s.1 j := by
  unfold visit
  rcases hn : get new k with _ | v <;> rcases hs : get s.1 k with _ | u <;> simp only [hs, Option.isNone_none, Option.isNone_some,
    Option.isSome_none, Option.isSome_some, if_true, Bool.false_eq_true, false_and, and_true, and_false, if_false, true_and]
  · by_cases h : j = k
    · subst h; simp [hs]
    · simp [h]
  · rw [get_del]
    simp only [if_true]
    rw [get_del]
  · rw [get_set]
    simp only [if_true]
    rw [get_set]
  · by_cases h : v = u
    · subst h
      simp only [if_true]
      by_cases hj : j = k
      · subst hj; simp [hs]
      · simp [hj]
    · rw [if_neg h, get_set]

theorem visit_clean (new : Env) (s : Env × Bool) (k : Str) : (visit new s k).2 = true ↔ s.2 = true ∧ get s.1 k = get new k := by
  unfold visit
  rcases hn : get new k with _ | v <;> rcases hs : get s.1 k with _ | u <;> simp only [hs, Option.isNone_none, Option.isNone_some,
    Option.isSome_none, Option.isSome_some, if_true, Bool.false_eq_true, false_and, and_true, and_false, if_false, true_and]
  · rw [get_del]
    simp
  · rw [get_set]
    simp
  · by_cases h : v = u
    · subst h; simp
    · rw [if_neg h]
      simp [Ne.symm h]

theorem fold_clean (new : Env) : ∀ (ks : List Str) (s : Env × Bool), (ks.foldl (visit new) s).2 = true ↔ s.2 = true ∧ ∀ k ∈ ks, get s.1 k = get new k
  | [], s => by simp
  | k :: ks, s => by
    rw [List.foldl_cons, fold_clean new ks, visit_clean]
    constructor
    · rintro ⟨⟨a, b⟩, c⟩
      refine ⟨a, ?_⟩
      intro j hj
      rcases List.mem_cons.mp hj with rfl | hj
      · exact b
      · by_cases e : j = k
        · subst e; exact b
        · have := c j hj
          rw [get_visit, if_neg e] at this
          exact this
    · rintro ⟨a, b⟩
      refine ⟨⟨a, b k (by simp)⟩, ?_⟩
      intro j hj
      rw [get_visit]
      split
      · next e => rw [e]
      · exact b j (by simp [hj])

/-- The configuration is parsed again if and only if a variable changes that is let in. -/
theorem parses_iff (s : Server) (new : Env) : (update s new).parses = s.parses ↔ ∀ k ∈ approved s.environ, get s.conf k = get new k := by
  have := fold_clean new (approved s.environ) (s.conf, true)
  simp only [true_and] at this
  rw [← this]
  unfold update
  dsimp only
  split
  · next h => simp [h]
  · next h => simp [h]

theorem update_data (s : Server) (new : Env) (h : s.data = inherit s.environ s.conf) :
    (update s new).data = inherit s.environ new ∧ (update s new).environ = s.environ ∧ (update s new).conf = new := by
  have hf := fold_clean new (approved s.environ) (s.conf, true)
  simp only [true_and] at hf
  unfold update
  dsimp only
  split
  · next hc =>
    refine ⟨?_, rfl, rfl⟩
    dsimp only
    rw [h]
    funext k
    unfold inherit
    by_cases hk : k ∈ approved s.environ
    · rw [hf.mp hc k hk]
    · simp only [hk, if_false]
      split <;> split <;> rfl
  · exact ⟨rfl, rfl, rfl⟩

theorem connectAll_data : ∀ (es : List Env) (s : Server), s.data = inherit s.environ s.conf →
    (connectAll s es).environ = s.environ ∧ (connectAll s es).data = inherit s.environ ((es.getLast?.map sent).getD s.conf)
  | [], s, h => ⟨rfl, h⟩
  | e :: es, s, h => by
    obtain ⟨a, b, c⟩ := update_data s (sent e) h
    have := connectAll_data es (update s (sent e)) (by rw [a, b, c])
    unfold connectAll at this ⊢
    rw [List.foldl_cons]
    refine ⟨this.1.trans b, ?_⟩
    rw [this.2, b, c, List.getLast?_cons]
    rcases es.getLast? with _ | l <;> rfl

/-! ## C260 -/

/-- After any clients, a build sees of the environment: the variables that the user who started the server lets in, with the values that they have for the client
that came last. -/
theorem env_of_last_client (e : Env) (es : List Env) (k : Str) (hl : Spec.proper ((e :: es).getLast (by simp))) :
    (Spec.kept e k → ∃ v, Spec.value ((e :: es).getLast (by simp)) k v ∧ (session e es).data k = v.map fun v => (v, decide (k ∈ exportedVars))) ∧
    (¬ Spec.kept e k → (session e es).data k = none) := by
  have := (connectAll_data (e :: es) (start (started e)) rfl).2
  unfold session
  rw [this]
  have hs : (start (started e)).environ = started e := rfl
  rw [hs, List.getLast?_eq_some_getLast (by simp : e :: es ≠ [])]
  dsimp only [Option.map_some, Option.getD_some]
  have key : ∀ m : Env, inherit (started e) m k = if k ∈ approved e then (get m k).map (fun v => (v, decide (k ∈ exportedVars))) else none := by
    intro m
    unfold inherit
    rw [kept_started]
    rcases get m k with _ | v <;> dsimp only [Option.map_none, Option.map_some] <;> by_cases h : k ∈ approved e <;> simp [h]
  rw [key]
  constructor
  · intro hk
    exact ⟨_, sent_value _ hl k, if_pos ((approved_iff e k).mpr hk)⟩
  · intro hk
    exact if_neg fun x => hk ((approved_iff e k).mp x)

/-! ## C261 -/

/-- A server that runs already gives to the last client what a server started by this client would give, if none of the variables that decide has changed. -/
theorem same_as_new_partial (e : Env) (es : List Env) (last : Env) (h : (e :: es).getLast (by simp) = last) (hp : ¬ Spec.keepsAll e)
    (h1 : get last preserveEnv = get e preserveEnv) (h2 : get last passthrough = get e passthrough) (h3 : get last additions = get e additions) :
    (session e es).data = (session last []).data := by
  have a := (connectAll_data (e :: es) (start (started e)) rfl).2
  have b := (connectAll_data [last] (start (started last)) rfl).2
  unfold session
  rw [a, b, List.getLast?_eq_some_getLast (by simp : e :: es ≠ []), h]
  show inherit (started e) (sent last) = inherit (started last) (sent last)
  unfold inherit
  rw [kept_started, kept_started]
  unfold Spec.keepsAll at hp
  have : approved last = approved e := by
    unfold approved
    rw [h1, h2, h3, if_neg hp, if_neg hp]
  rw [this]

def base : Env := [("PATH".toList, "/bin".toList), ("DL".toList, "/dl".toList)]

/-- The user lists a further variable while a server runs: the configuration is parsed again, but the variable is not in the metadata, where it would be with a new
server. -/
theorem addition_unseen : (session base [base ++ [(additions, "DL".toList)]]).data "DL".toList = none ∧
    (session base [base ++ [(additions, "DL".toList)]]).parses = (session base []).parses + 1 ∧
    (session (base ++ [(additions, "DL".toList)]) []).data "DL".toList = some ("/dl".toList, false) := by decide +kernel

/-- With BB_PRESERVE_ENV, a variable that is set while a server runs is not seen either, and one that the user no longer lets in is still seen. -/
theorem preserve_unseen : (session [(preserveEnv, "1".toList)] [base ++ [(preserveEnv, "1".toList)]]).data "DL".toList = none ∧
    (session (base ++ [(additions, "DL".toList)]) [base]).data "DL".toList = some ("/dl".toList, false) ∧
    (session base []).data "DL".toList = none := by decide +kernel

/-! ## Examples -/

example : Spec.proper base ∧ ¬ Spec.keepsAll base := by unfold Spec.proper Spec.keepsAll; decide +kernel

/-- a changed value is seen, and LC_ALL is always replaced -/
example : (session base [[("PATH".toList, "/usr/bin".toList), (lcAll, "de_DE".toList)]]).data "PATH".toList = some ("/usr/bin".toList, true) ∧
    (session base [[("PATH".toList, "/usr/bin".toList), (lcAll, "de_DE".toList)]]).data lcAll = some (utf8, true) ∧
    (session base [base]).parses = 2 ∧ (session base []).parses = 2 := by decide +kernel

example : approved [(passthrough, "A B".toList), (additions, "C".toList)] = ["A".toList, "B".toList, passthrough, "C".toList, additions] := by decide +kernel

end Isar.Bb.Env
