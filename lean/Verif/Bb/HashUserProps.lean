import Verif.Bb.HashUserModel

/-
Who may do what with the server of hash equivalence (C183).
-/

namespace Bb.HashUser
open Py

/-- A user may administrate users. -/
def Admin (u : User) : Prop := Perm.userAdmin ∈ u.perms ∨ Perm.all ∈ u.perms

theorem permitted_user {anon : List Perm} {user : Option User} {p : List Perm} {b : Bool} (h : permitted anon user ⟨p, false, b⟩ = true) : ∃ u, user = some u ∧ (Perm.all ∈ u.perms ∨ ∀ q ∈ p, q ∈ u.perms) := by
  unfold permitted at h
  rw [Bool.false_and, Bool.false_or] at h
  cases user with
  | none => cases h
  | some u =>
    refine ⟨u, rfl, ?_⟩
    rcases Bool.or_eq_true_iff.1 h with h | h
    · exact .inl (List.contains_iff_mem.1 h)
    · exact .inr fun q hq => List.contains_iff_mem.1 (List.all_eq_true.1 h q hq)

theorem permitted_admin {anon : List Perm} {user : Option User} {b : Bool} (h : permitted anon user ⟨[.userAdmin], false, b⟩ = true) : ∃ u, user = some u ∧ Admin u := by
  obtain ⟨u, e, h⟩ := permitted_user h
  exact ⟨u, e, h.elim .inr fun h => .inl (h _ List.mem_cons_self)⟩

theorem self_some {user : Option User} {r : Req} {n : Str} (h : selfService user r = some n) : ∃ u, user = some u ∧ u.name = n := by
  unfold selfService at h
  cases user with
  | none => cases h
  | some u =>
    dsimp only at h
    split at h
    · cases h; exact ⟨u, rfl, rfl⟩
    · cases h

/-- How a request that needs to be a user's own, or an administrator's, was let through. -/
theorem serve_self {cfg : Config} {s s' : Server} {c : Nat} {fresh : Str} {r : Req} (hn : needs r = some ⟨[.userAdmin], false, true⟩) (h : serve cfg s c fresh r = some s') :
    ((∃ u, s.conns c = some u ∧ handle cfg s c fresh (some u.name) r = some s') ∨ ∃ u, s.conns c = some u ∧ Admin u ∧ handle cfg s c fresh r.name r = some s') ∧ (cfg.readOnly && writes r) = false := by
  unfold serve at h
  split at h
  · cases h
  · rename_i hro
    refine ⟨?_, Bool.eq_false_iff.2 hro⟩
    rw [hn] at h
    dsimp only at h
    split at h
    · rename_i hs
      rw [Bool.true_and] at hs
      cases hself : selfService (s.conns c) r with
      | none => rw [hself] at hs; cases hs
      | some n =>
        rw [hself] at h
        obtain ⟨u, e, rfl⟩ := self_some hself
        exact .inl ⟨u, e, h⟩
    · split at h
      · rename_i hp
        obtain ⟨u, e, ha⟩ := permitted_admin hp
        exact .inr ⟨u, e, ha, h⟩
      · cases h

theorem serve_admin {cfg : Config} {s s' : Server} {c : Nat} {fresh : Str} {r : Req} (hn : needs r = some ⟨[.userAdmin], false, false⟩) (h : serve cfg s c fresh r = some s') :
    (∃ u, s.conns c = some u ∧ Admin u) ∧ handle cfg s c fresh r.name r = some s' ∧ (cfg.readOnly && writes r) = false := by
  unfold serve at h
  split at h
  · cases h
  · rename_i hro
    rw [hn] at h
    dsimp only at h
    rw [Bool.false_and, if_neg Bool.false_ne_true] at h
    split at h
    · rename_i hp
      exact ⟨permitted_admin hp, h, Bool.eq_false_iff.2 hro⟩
    · cases h

theorem serve_other {cfg : Config} {s s' : Server} {c : Nat} {fresh : Str} {r : Req} (hr : ∀ name, handle cfg s c fresh name r = some s) (h : serve cfg s c fresh r = some s') : s' = s := by
  unfold serve at h
  split at h
  · cases h
  · split at h
    · rw [hr] at h; exact (Option.some.inj h).symm
    · split at h
      · rw [hr] at h; exact (Option.some.inj h).symm
      · split at h
        · rw [hr] at h; exact (Option.some.inj h).symm
        · cases h

/-- C183: the entry of a user changes only on a request of an administrator, or of the user themself, who can get a new token or go away; never on a server that is read only. -/
theorem entry_changed {cfg : Config} {s s' : Server} {c : Nat} {fresh : Str} {r : Req} (h : serve cfg s c fresh r = some s') {n : Str} (hne : s'.users.lookup n ≠ s.users.lookup n) :
    cfg.readOnly = false ∧ ∃ u, s.conns c = some u ∧ (Admin u ∨ (u.name = n ∧ ∀ row, s'.users.lookup n = some row → (s.users.lookup n).map (·.1) = some row.1)) := by
  cases r with
  | auth m t =>
    unfold serve at h
    rw [if_neg (by cases cfg.readOnly <;> exact Bool.false_ne_true)] at h
    have h : handle cfg s c fresh (some m) (.auth m t) = some s' := h
    unfold handle at h
    dsimp only at h
    split at h
    · cases h
    · split at h
      · cases h; exact absurd rfl hne
      · cases h
  | refresh m =>
    obtain ⟨h1, hro⟩ := serve_self rfl h
    refine ⟨by revert hro; cases cfg.readOnly <;> simp [writes], ?_⟩
    rcases h1 with ⟨u, e, h1⟩ | ⟨u, e, ha, _⟩
    · refine ⟨u, e, .inr ?_⟩
      unfold handle at h1
      dsimp only at h1
      split at h1
      · cases h1
      · rename_i row hrow
        cases h1
        by_cases en : n = u.name
        · subst en
          refine ⟨rfl, fun row' hr => ?_⟩
          rw [Dict.lookup_set, if_pos rfl] at hr
          cases hr
          rw [hrow]; rfl
        · exact absurd (by rw [Dict.lookup_set, if_neg en]) hne
    · exact ⟨u, e, .inl ha⟩
  | setPerms m p =>
    obtain ⟨⟨u, e, ha⟩, _, hro⟩ := serve_admin rfl h
    exact ⟨by revert hro; cases cfg.readOnly <;> simp [writes], u, e, .inl ha⟩
  | getUser m => exact absurd (by rw [serve_other (fun _ => rfl) h]) hne
  | getAll => exact absurd (by rw [serve_other (fun _ => rfl) h]) hne
  | newUser m p =>
    obtain ⟨⟨u, e, ha⟩, _, hro⟩ := serve_admin rfl h
    exact ⟨by revert hro; cases cfg.readOnly <;> simp [writes], u, e, .inl ha⟩
  | delete m =>
    obtain ⟨h1, hro⟩ := serve_self rfl h
    refine ⟨by revert hro; cases cfg.readOnly <;> simp [writes], ?_⟩
    rcases h1 with ⟨u, e, h1⟩ | ⟨u, e, ha, _⟩
    · refine ⟨u, e, .inr ?_⟩
      unfold handle at h1
      dsimp only at h1
      split at h1
      · cases h1
      · cases h1
        by_cases en : n = u.name
        · subst en
          refine ⟨rfl, fun row' hr => ?_⟩
          rw [Dict.lookup_del, if_pos rfl] at hr
          cases hr
        · exact absurd (by rw [Dict.lookup_del, if_neg en]) hne
    · exact ⟨u, e, .inl ha⟩
  | become m =>
    obtain ⟨⟨u, e, ha⟩, h1, _⟩ := serve_admin rfl h
    unfold handle at h1
    dsimp only at h1
    split at h1
    · cases h1
    · cases h1; exact absurd rfl hne
  | get => exact absurd (by rw [serve_other (fun _ => rfl) h]) hne
  | report => exact absurd (by rw [serve_other (fun _ => rfl) h]) hne
  | equiv => exact absurd (by rw [serve_other (fun _ => rfl) h]) hne
  | dbAdmin => exact absurd (by rw [serve_other (fun _ => rfl) h]) hne

/-- C183: nobody but an administrator gives permissions, to themself or to others. -/
theorem permissions_given {cfg : Config} {s s' : Server} {c : Nat} {fresh : Str} {r : Req} (h : serve cfg s c fresh r = some s') {n : Str} {row : List Perm × Str} (hr : s'.users.lookup n = some row)
    {p : Perm} (hp : p ∈ row.1) (hnew : ∀ old, s.users.lookup n = some old → p ∉ old.1) : ∃ u, s.conns c = some u ∧ Admin u := by
  by_cases hne : s'.users.lookup n = s.users.lookup n
  · rw [hne] at hr
    exact absurd hp (hnew row hr)
  · obtain ⟨_, u, e, ha | ⟨_, hs⟩⟩ := entry_changed h hne
    · exact ⟨u, e, ha⟩
    · have h2 := hs row hr
      rw [Option.map_eq_some_iff] at h2
      obtain ⟨old, ho, e2⟩ := h2
      exact absurd (by rw [e2]; exact hp) (hnew old ho)

/-- C183: the user of a connection changes only on this connection: to the user whose token was given, or, if it was an administrator, to any user; with the permissions that the table has. -/
theorem user_changed {cfg : Config} {s s' : Server} {c d : Nat} {fresh : Str} {r : Req} (h : serve cfg s c fresh r = some s') (hne : s'.conns d ≠ s.conns d) :
    d = c ∧ ∃ n row, s.users.lookup n = some row ∧ s'.conns c = some ⟨n, row.1⟩ ∧ s'.users = s.users ∧
      ((∃ token, r = .auth n token ∧ cfg.matches_ token row.2 = true) ∨ (r = .become n ∧ ∃ u, s.conns c = some u ∧ Admin u)) := by
  have hset : ∀ (u : User), (setUser s c u).conns d ≠ s.conns d → d = c := fun u hh => by
    unfold setUser at hh
    dsimp only at hh
    by_cases e : d = c
    · exact e
    · rw [if_neg e] at hh; exact absurd rfl hh
  have hc : ∀ u : User, (setUser s c u).conns c = some u := fun u => if_pos rfl
  have huser : (∃ us, s' = { s with users := us }) → False := fun ⟨us, e⟩ => hne (by rw [e])
  cases r with
  | auth m t =>
    unfold serve at h
    rw [if_neg (by cases cfg.readOnly <;> exact Bool.false_ne_true)] at h
    have h : handle cfg s c fresh (some m) (.auth m t) = some s' := h
    unfold handle at h
    dsimp only at h
    split at h
    · cases h
    · rename_i row hrow
      split at h
      · rename_i hm
        cases h
        exact ⟨hset _ hne, m, row, hrow, hc _, rfl, .inl ⟨t, rfl, hm⟩⟩
      · cases h
  | become m =>
    obtain ⟨hu, h1, _⟩ := serve_admin rfl h
    unfold handle at h1
    dsimp only at h1
    split at h1
    · cases h1
    · rename_i row hrow
      cases h1
      exact ⟨hset _ hne, m, row, hrow, hc _, rfl, .inr ⟨rfl, hu⟩⟩
  | refresh m =>
    refine (huser ?_).elim
    obtain ⟨h1, _⟩ := serve_self rfl h
    have key : ∀ name, handle cfg s c fresh name (.refresh m) = some s' → ∃ us, s' = { s with users := us } := fun name h1 => by
      unfold handle at h1
      dsimp only at h1
      split at h1
      · cases h1
      · split at h1
        · cases h1
        · cases h1; exact ⟨_, rfl⟩
    rcases h1 with ⟨_, _, h1⟩ | ⟨_, _, _, h1⟩ <;> exact key _ h1
  | delete m =>
    refine (huser ?_).elim
    obtain ⟨h1, _⟩ := serve_self rfl h
    have key : ∀ name, handle cfg s c fresh name (.delete m) = some s' → ∃ us, s' = { s with users := us } := fun name h1 => by
      unfold handle at h1
      dsimp only at h1
      split at h1
      · cases h1
      · split at h1
        · cases h1
        · cases h1; exact ⟨_, rfl⟩
    rcases h1 with ⟨_, _, h1⟩ | ⟨_, _, _, h1⟩ <;> exact key _ h1
  | setPerms m p =>
    refine (huser ?_).elim
    obtain ⟨_, h1, _⟩ := serve_admin rfl h
    unfold handle at h1
    dsimp only at h1
    split at h1
    · cases h1
    · cases h1; exact ⟨_, rfl⟩
  | newUser m p =>
    refine (huser ?_).elim
    obtain ⟨_, h1, _⟩ := serve_admin rfl h
    unfold handle at h1
    dsimp only at h1
    split at h1
    · cases h1
    · cases h1; exact ⟨_, rfl⟩
  | getUser m => exact absurd (by rw [serve_other (fun _ => rfl) h]) hne
  | getAll => exact absurd (by rw [serve_other (fun _ => rfl) h]) hne
  | get => exact absurd (by rw [serve_other (fun _ => rfl) h]) hne
  | report => exact absurd (by rw [serve_other (fun _ => rfl) h]) hne
  | equiv => exact absurd (by rw [serve_other (fun _ => rfl) h]) hne
  | dbAdmin => exact absurd (by rw [serve_other (fun _ => rfl) h]) hne

/-- A user or everybody has a permission. -/
def Has (cfg : Config) (s : Server) (c : Nat) (p : List Perm) : Prop :=
  (Perm.all ∈ cfg.anonPerms ∨ ∀ q ∈ p, q ∈ cfg.anonPerms) ∨ ∃ u, s.conns c = some u ∧ (Perm.all ∈ u.perms ∨ ∀ q ∈ p, q ∈ u.perms)

theorem permitted_iff {cfg : Config} {s : Server} {c : Nat} {p : List Perm} {b : Bool} : permitted cfg.anonPerms (s.conns c) ⟨p, true, b⟩ = true ↔ Has cfg s c p := by
  have hall : ∀ l : List Perm, (l.contains .all || p.all l.contains) = true ↔ Perm.all ∈ l ∨ ∀ q ∈ p, q ∈ l := fun l => by
    rw [Bool.or_eq_true_iff, List.contains_iff_mem, List.all_eq_true]
    exact ⟨fun h => h.imp id fun h q hq => List.contains_iff_mem.1 (h q hq), fun h => h.imp id fun h q hq => List.contains_iff_mem.2 (h q hq)⟩
  unfold permitted Has
  rw [Bool.true_and, Bool.or_eq_true_iff, hall]
  refine or_congr Iff.rfl ?_
  cases hc : s.conns c with
  | none => exact ⟨fun h => (nomatch h), fun ⟨u, h, _⟩ => nomatch h⟩
  | some u =>
    dsimp only
    rw [hall]
    exact ⟨fun h => ⟨u, rfl, h⟩, fun ⟨v, e, h⟩ => by cases e; exact h⟩

/-- C183: the tables are read, changed and administrated by those who may, and by nobody else. -/
theorem tables {cfg : Config} {s : Server} {c : Nat} {fresh : Str} :
    (serve cfg s c fresh .get = some s ↔ Has cfg s c [.read]) ∧ (serve cfg s c fresh .equiv = some s ↔ cfg.readOnly = false ∧ Has cfg s c [.read, .report]) ∧
    (serve cfg s c fresh .dbAdmin = some s ↔ cfg.readOnly = false ∧ Has cfg s c [.dbAdmin]) := by
  have key : ∀ {p : List Perm} {r : Req}, needs r = some ⟨p, true, false⟩ → (∀ name, handle cfg s c fresh name r = some s) →
      (serve cfg s c fresh r = some s ↔ (cfg.readOnly && writes r) = false ∧ Has cfg s c p) := fun {p r} hn hh => by
    unfold serve
    split
    · rename_i hro
      exact ⟨fun h => (nomatch h), fun ⟨h, _⟩ => by rw [hro] at h; cases h⟩
    · rename_i hro
      rw [hn]
      dsimp only
      rw [Bool.false_and, if_neg Bool.false_ne_true]
      split
      · rename_i hp
        rw [hh]
        exact ⟨fun _ => ⟨Bool.eq_false_iff.2 hro, permitted_iff.1 hp⟩, fun _ => rfl⟩
      · rename_i hp
        exact ⟨fun h => (nomatch h), fun ⟨_, h⟩ => absurd (permitted_iff.2 h) hp⟩
  refine ⟨?_, ?_, ?_⟩
  · rw [key (r := .get) rfl fun _ => rfl]
    exact ⟨fun h => h.2, fun h => ⟨by cases cfg.readOnly <;> rfl, h⟩⟩
  · rw [key (r := .equiv) rfl fun _ => rfl]
    unfold writes; rw [Bool.and_true]
  · rw [key (r := .dbAdmin) rfl fun _ => rfl]
    unfold writes; rw [Bool.and_true]

/-! ### Histories -/

inductive Ev where
  | req (c : Nat) (fresh : Str) (r : Req)
  | connect (c : Nat)

def next (cfg : Config) (s : Server) : Ev → Server
  | .req c fresh r => (serve cfg s c fresh r).getD s
  | .connect c => connect s c

/-- C183, where it holds: each user of a connection had, at some time, the permissions that the connection has. -/
theorem session_partial {cfg : Config} {users : Users} (l : List Ev) {c : Nat} {u : User} (h : (l.foldl (next cfg) ⟨users, fun _ => none⟩).conns c = some u) :
    ∃ l1 l2, l = l1 ++ l2 ∧ ∃ row, (l1.foldl (next cfg) ⟨users, fun _ => none⟩).users.lookup u.name = some row ∧ row.1 = u.perms := by
  suffices H : ∀ k : List Ev, ∀ c u, (k.reverse.foldl (next cfg) ⟨users, fun _ => none⟩).conns c = some u →
      ∃ l1 l2, k.reverse = l1 ++ l2 ∧ ∃ row, (l1.foldl (next cfg) ⟨users, fun _ => none⟩).users.lookup u.name = some row ∧ row.1 = u.perms by
    have := H l.reverse c u (by rw [List.reverse_reverse]; exact h)
    rw [List.reverse_reverse] at this
    exact this
  intro k
  induction k with
  | nil => intro c u h; cases h
  | cons e k ih =>
    intro c u h
    rw [List.reverse_cons] at h ⊢
    rw [List.foldl_append] at h
    have more : (k.reverse.foldl (next cfg) ⟨users, fun _ => none⟩).conns c = some u →
        ∃ l1 l2, k.reverse ++ [e] = l1 ++ l2 ∧ ∃ row, (l1.foldl (next cfg) ⟨users, fun _ => none⟩).users.lookup u.name = some row ∧ row.1 = u.perms := fun h => by
      obtain ⟨l1, l2, e1, hr⟩ := ih c u h
      exact ⟨l1, l2 ++ [e], by rw [e1, List.append_assoc], hr⟩
    by_cases hsame : (([e] : List Ev).foldl (next cfg) (k.reverse.foldl (next cfg) ⟨users, fun _ => none⟩)).conns c = (k.reverse.foldl (next cfg) ⟨users, fun _ => none⟩).conns c
    · rw [hsame] at h
      exact more h
    · generalize hs : k.reverse.foldl (next cfg) ⟨users, fun _ => none⟩ = s at h hsame more
      cases e with
      | connect d =>
        have h : (connect s d).conns c = some u := h
        have hsame : ¬ (connect s d).conns c = s.conns c := hsame
        unfold connect at h hsame
        dsimp only at h hsame
        split at h
        · cases h
        · rename_i e1; rw [if_neg e1] at hsame; exact absurd rfl hsame
      | req d fresh r =>
        have h : ((serve cfg s d fresh r).getD s).conns c = some u := h
        have hsame : ¬ ((serve cfg s d fresh r).getD s).conns c = s.conns c := hsame
        cases hv : serve cfg s d fresh r with
        | none => rw [hv] at hsame; exact absurd rfl hsame
        | some s' =>
          rw [hv] at h hsame
          have h0 : s'.conns c = some u := h
          obtain ⟨rfl, n, row, h1, h2, _, _⟩ := user_changed hv hsame
          have h3 : some (⟨n, row.1⟩ : User) = some u := h2.symm.trans h0
          cases h3
          exact ⟨k.reverse, [.req c fresh r], rfl, row, by rw [hs]; exact h1, rfl⟩

/-- C183: who is not in the table cannot log in. -/
theorem not_known {cfg : Config} {s : Server} {c : Nat} {fresh n token : Str} (h : s.users.lookup n = none) : serve cfg s c fresh (.auth n token) = none := by
  unfold serve
  rw [if_neg (by cases cfg.readOnly <;> exact Bool.false_ne_true)]
  show handle cfg s c fresh (some n) (.auth n token) = none
  unfold handle
  dsimp only
  rw [h]

/-- C183: unless that is allowed to everybody, one who has not logged in can do nothing but read what everybody may, and log in. -/
theorem anonymous {cfg : Config} {s s' : Server} {c : Nat} {fresh : Str} {r : Req} (hc : s.conns c = none) (h : serve cfg s c fresh r = some s') :
    s'.users = s.users ∧ ((∃ n t, r = .auth n t) ∨ s' = s) := by
  have hno : ∀ u, s.conns c ≠ some u := fun u e => by rw [hc] at e; cases e
  cases r with
  | auth m t =>
    refine ⟨?_, .inl ⟨m, t, rfl⟩⟩
    unfold serve at h
    rw [if_neg (by cases cfg.readOnly <;> exact Bool.false_ne_true)] at h
    have h : handle cfg s c fresh (some m) (.auth m t) = some s' := h
    unfold handle at h
    dsimp only at h
    split at h
    · cases h
    · split at h
      · cases h; rfl
      · cases h
  | refresh m => obtain ⟨⟨u, e, _⟩ | ⟨u, e, _⟩, _⟩ := serve_self rfl h <;> exact absurd e (hno u)
  | delete m => obtain ⟨⟨u, e, _⟩ | ⟨u, e, _⟩, _⟩ := serve_self rfl h <;> exact absurd e (hno u)
  | getUser m => obtain ⟨⟨u, e, _⟩ | ⟨u, e, _⟩, _⟩ := serve_self rfl h <;> exact absurd e (hno u)
  | setPerms m p => obtain ⟨⟨u, e, _⟩, _⟩ := serve_admin rfl h; exact absurd e (hno u)
  | newUser m p => obtain ⟨⟨u, e, _⟩, _⟩ := serve_admin rfl h; exact absurd e (hno u)
  | become m => obtain ⟨⟨u, e, _⟩, _⟩ := serve_admin rfl h; exact absurd e (hno u)
  | getAll => have e := serve_other (fun _ => rfl) h; exact ⟨by rw [e], .inr e⟩
  | get => have e := serve_other (fun _ => rfl) h; exact ⟨by rw [e], .inr e⟩
  | report => have e := serve_other (fun _ => rfl) h; exact ⟨by rw [e], .inr e⟩
  | equiv => have e := serve_other (fun _ => rfl) h; exact ⟨by rw [e], .inr e⟩
  | dbAdmin => have e := serve_other (fun _ => rfl) h; exact ⟨by rw [e], .inr e⟩

def sampleCfg : Config := ⟨[.read], false, id, fun t h => t = h⟩
def sampleUsers : Users := [("root".toList, [.all], "r".toList), ("eve".toList, [.dbAdmin], "e".toList)]

example : let s : Server := List.foldl (next sampleCfg) ⟨sampleUsers, fun _ => none⟩ [Ev.req 1 [] (.auth "root".toList "r".toList), .req 2 [] (.auth "eve".toList "e".toList), .req 2 "new".toList (.refresh none), .req 2 [] (.setPerms "eve".toList [.all])]
    s.users.lookup "eve".toList = some ([.dbAdmin], "new".toList) ∧ s.conns 2 = some ⟨"eve".toList, [.dbAdmin]⟩ := by decide +kernel

/-- Against C183: who has lost their permissions, or was removed, goes on with those they had, as long as their connection is open. -/
theorem revoked : let s : Server := List.foldl (next sampleCfg) ⟨sampleUsers, fun _ => none⟩ [Ev.req 1 [] (.auth "root".toList "r".toList), .req 2 [] (.auth "eve".toList "e".toList), .req 1 [] (.setPerms "eve".toList []), .req 1 [] (.delete (some "eve".toList))]
    s.users.lookup "eve".toList = none ∧ (serve sampleCfg s 2 [] .dbAdmin).isSome = true := by decide +kernel

end Bb.HashUser
