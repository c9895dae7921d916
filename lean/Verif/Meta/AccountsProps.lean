import Verif.Meta.AccountsSpec
/-!
# Properties of the creation of accounts
-/

namespace Isar.Accounts
open Py

/-! ### Names and lines -/

theorem prefix_colon {a b x y : Str} (ha : ':' ∉ a) (hb : ':' ∉ b) (h : a ++ ':' :: x = b ++ ':' :: y) :
    a = b := by
  induction a generalizing b with
  | nil =>
    cases b with
    | nil => rfl
    | cons c b =>
      exfalso
      exact hb (by rw [(List.cons.inj h).1]; exact List.mem_cons_self)
  | cons c a ih =>
    cases b with
    | nil => exact absurd (by rw [← (List.cons.inj h).1]; exact List.mem_cons_self) ha
    | cons c' b =>
      obtain ⟨rfl, h'⟩ := List.cons.inj h
      rw [ih (fun e => ha (List.mem_cons_of_mem _ e)) (fun e => hb (List.mem_cons_of_mem _ e)) h']

theorem exists_iff {α : Type} {f : α → Str} {l : List (Str × α)} {n : Str} (hn : ':' ∉ n)
    (hl : ∀ x ∈ l, ':' ∉ x.1) : exists_ n (fileLines f l) = true ↔ Has l n := by
  unfold exists_ fileLines Has
  rw [List.any_map, List.any_eq_true]
  constructor
  · rintro ⟨x, hx, h⟩
    obtain ⟨t, ht⟩ := startsWith_iff.mp h
    refine ⟨x, hx, ?_⟩
    rw [List.append_assoc, List.singleton_append] at ht
    exact prefix_colon (hl x hx) hn ht
  · rintro ⟨x, hx, rfl⟩
    refine ⟨x, hx, startsWith_iff.mpr ⟨f x.2, ?_⟩⟩
    rw [List.append_assoc, List.singleton_append]

theorem exists_eq {α : Type} {f : α → Str} {l : List (Str × α)} {n : Str} (hn : ':' ∉ n)
    (hl : ∀ x ∈ l, ':' ∉ x.1) : exists_ n (fileLines f l) = decide (Has l n) := by
  by_cases h : Has l n
  · rw [(exists_iff hn hl).mpr h, decide_eq_true h]
  · rw [decide_eq_false h]
    cases he : exists_ n (fileLines f l) with
    | false => rfl
    | true => exact absurd ((exists_iff hn hl).mp he) h

/-! ### Reading the arguments -/

/-- The options that `option` stands for. -/
def seg {α : Type} (k : α) (v : Str) : List (α × Str) := if v = [] then [] else [(k, v)]

theorem parse_value {α : Type} {t : List (Str × α)} {p : List Str} {o v : Str} {k : α}
    (h : t.lookup o = some k) (l : List Str) :
    parse t p (o :: v :: l) = (parse t p l).map fun q => { q with opts := (k, v) :: q.opts } := by
  rw [parse, h]

theorem parse_option {α : Type} {t : List (Str × α)} {p : List Str} {d : Conf} {var o f : Str} {k : α}
    (h : t.lookup o = some k) (l : List Str) :
    parse t p (option d var o f ++ l) =
      (parse t p l).map fun q => { q with opts := seg k (d.flag var f) ++ q.opts } := by
  unfold option seg
  by_cases hf : d.flag var f = []
  · rw [if_pos hf, if_pos hf, List.nil_append]
    cases parse t p l <;> rfl
  · rw [if_neg hf, if_neg hf]
    exact parse_value h l

theorem parse_plain {α : Type} {t : List (Str × α)} {p : List Str} {o : Str} (h : t.lookup o = none)
    (hp : o ∈ p) (l : List Str) :
    parse t p (o :: l) = (parse t p l).map fun q => { q with plain := o :: q.plain } := by
  rw [parse, h]
  dsimp only
  rw [if_pos hp]

theorem parse_pick {α : Type} {t : List (Str × α)} {p : List Str} {o : Str} (h : t.lookup o = none)
    (hp : o ∈ p) (c : Prop) [Decidable c] (l : List Str) :
    parse t p ((if c then [o] else []) ++ l) =
      (parse t p l).map fun q => { q with plain := (if c then [o] else []) ++ q.plain } := by
  split
  · exact parse_plain h hp l
  · show parse t p l = _
    cases parse t p l <;> rfl

theorem lookup_none {α : Type} {t : List (Str × α)} {n : Str} (h : n.head? ≠ some '-')
    (ht : ∀ x ∈ t, x.1.head? = some '-') : t.lookup n = none := by
  induction t with
  | nil => rfl
  | cons x t ih =>
    obtain ⟨a, b⟩ := x
    rw [List.lookup_cons]
    have : (n == a) = false := by
      rw [beq_eq_false_iff_ne]
      rintro rfl
      exact h (ht _ List.mem_cons_self)
    rw [this]
    exact ih (fun y hy => ht y (List.mem_cons_of_mem _ hy))

theorem parse_name {α : Type} {t : List (Str × α)} {p : List Str} {n : Str} (h : n.head? ≠ some '-')
    (ht : ∀ x ∈ t, x.1.head? = some '-') (hp : ∀ x ∈ p, x.head? = some '-') :
    parse t p [n] = some ⟨[], [], [n]⟩ := by
  rw [parse, lookup_none h ht]
  dsimp only
  rw [if_neg (fun e => h (hp n e)), if_neg]
  · rfl
  · intro e
    obtain ⟨x, rfl⟩ := startsWith_iff.mp e
    exact h rfl

theorem lastVal_append {α : Type} [DecidableEq α] (k : α) (a b : List (α × Str)) :
    lastVal k (a ++ b) = (lastVal k b).or (lastVal k a) := by
  induction a with
  | nil => simp [lastVal]
  | cons x a ih =>
    obtain ⟨k', v⟩ := x
    rw [List.cons_append]
    show (lastVal k (a ++ b)).or _ = (lastVal k b).or ((lastVal k a).or _)
    rw [ih]
    cases lastVal k b <;> simp

theorem lastVal_seg {α : Type} [DecidableEq α] (k k' : α) (v : Str) :
    lastVal k (seg k' v) = if k' = k ∧ v ≠ [] then some v else none := by
  unfold seg
  by_cases hv : v = []
  · rw [if_pos hv, if_neg (fun h => h.2 hv)]; rfl
  · rw [if_neg hv]
    unfold lastVal
    by_cases hk : k' = k
    · rw [if_pos hk, if_pos ⟨hk, hv⟩]; rfl
    · rw [if_neg hk, if_neg (fun h => hk h.1)]; rfl

/-- The options for user `n`, in the order in which they are written, and further ones. -/
def optHead (d : Conf) (n : Str) (l : List (Attr × Str)) : List (Attr × Str) :=
  seg .expire (configured d n .expire) ++ (seg .inactive (configured d n .inactive) ++
  (seg .uid (configured d n .uid) ++ (seg .gid (configured d n .gid) ++
  (seg .comment (configured d n .comment) ++ (seg .shell (configured d n .shell) ++
  (seg .groups (configured d n .groups) ++ l))))))

/-- The options for user `n`. -/
def optList (d : Conf) (n : Str) : List (Attr × Str) := optHead d n (seg .home (configured d n .home))

theorem lastVal_optList (d : Conf) (n : Str) (k : Attr) :
    lastVal k (optList d n) = if configured d n k = [] then none else some (configured d n k) := by
  unfold optList optHead
  simp only [lastVal_append, lastVal_seg]
  cases k <;> simp

theorem groups_empty {l : List Str} (h : ∀ w ∈ l, IsWord w) : join [','] l = [] ↔ l = [] := by
  cases l with
  | nil => simp [join]
  | cons a l =>
    have ha := (h a List.mem_cons_self).1
    cases l with
    | nil => simp [join, ha]
    | cons b l =>
      constructor
      · intro e
        have : a ++ [','] ++ join [','] (b :: l) = [] := e
        simp at this
      · intro e; cases e

theorem parse_common {t : List (Str × Attr)} {p : List Str} {d : Conf} {n : Str}
    (ht : ∀ x ∈ commonOpts, t.lookup x.1 = some x.2) (l : List Str) {q : Parsed Attr}
    (hq : parse t p l = some q) :
    parse t p (commonArgs d n ++ l) = some { q with opts := optHead d n q.opts } := by
  have hg : parse t p ((if words (d.flag (userVar n) "groups".toList) = [] then []
      else ["--groups".toList, join [','] (words (d.flag (userVar n) "groups".toList))]) ++ l) =
      some { q with opts := seg .groups (configured d n .groups) ++ q.opts } := by
    have hw := groups_empty (l := words (d.flag (userVar n) "groups".toList))
      (fun w hw => words_isWord hw)
    unfold seg configured
    by_cases h : words (d.flag (userVar n) "groups".toList) = []
    · rw [if_pos h, if_pos (hw.mpr h)]; exact hq
    · rw [if_neg h, if_neg (fun e => h (hw.mp e))]
      show parse t p ("--groups".toList :: _ :: l) = _
      rw [parse_value (ht ("--groups".toList, .groups) (by simp [commonOpts])), hq]; rfl
  unfold commonArgs
  dsimp only
  simp only [List.append_assoc]
  rw [parse_option (ht ("--expire".toList, .expire) (by simp [commonOpts])),
    parse_option (ht ("--inactive".toList, .inactive) (by simp [commonOpts])),
    parse_option (ht ("--uid".toList, .uid) (by simp [commonOpts])),
    parse_option (ht ("--gid".toList, .gid) (by simp [commonOpts])),
    parse_option (ht ("--comment".toList, .comment) (by simp [commonOpts])),
    parse_option (ht ("--shell".toList, .shell) (by simp [commonOpts])), hg]
  rfl

/-! ### Running the commands -/

theorem inRoot_chroot (d : Conf) (p : Str) (l : List Str) : inRoot d.rootfs (chroot d ++ p :: l) = some (p, l) := by
  show (if _ then _ else _) = _
  rw [if_pos ⟨rfl, rfl, rfl, rfl⟩]

theorem exec_useradd (d : Conf) (l : List Str) (i : Str) (s : Sys) :
    exec d.rootfs ⟨chroot d ++ "/usr/sbin/useradd".toList :: l, i⟩ s = useradd l s := by
  unfold exec
  rw [inRoot_chroot]
  dsimp only
  rw [if_neg (by decide), if_neg (by decide), if_pos rfl]

theorem exec_usermod (d : Conf) (l : List Str) (i : Str) (s : Sys) :
    exec d.rootfs ⟨chroot d ++ "/usr/sbin/usermod".toList :: l, i⟩ s = usermod l s := by
  unfold exec
  rw [inRoot_chroot]
  dsimp only
  rw [if_neg (by decide), if_neg (by decide), if_neg (by decide), if_pos rfl]

theorem exec_groupadd (d : Conf) (l : List Str) (i : Str) (s : Sys) :
    exec d.rootfs ⟨chroot d ++ "/usr/sbin/groupadd".toList :: l, i⟩ s = groupadd l s := by
  unfold exec
  rw [inRoot_chroot]
  dsimp only
  rw [if_pos rfl]

theorem exec_groupmod (d : Conf) (l : List Str) (i : Str) (s : Sys) :
    exec d.rootfs ⟨chroot d ++ "/usr/sbin/groupmod".toList :: l, i⟩ s = groupmod l s := by
  unfold exec
  rw [inRoot_chroot]
  dsimp only
  rw [if_neg (by decide), if_pos rfl]

theorem exec_chpasswd (d : Conf) (l : List Str) (i : Str) (s : Sys) :
    exec d.rootfs ⟨chroot d ++ "/usr/sbin/chpasswd".toList :: l, i⟩ s = chpasswd l i s := by
  unfold exec
  rw [inRoot_chroot]
  dsimp only
  rw [if_neg (by decide), if_neg (by decide), if_neg (by decide), if_neg (by decide), if_pos rfl]

theorem exec_passwd (d : Conf) (l : List Str) (i : Str) (s : Sys) :
    exec d.rootfs ⟨chroot d ++ "/usr/bin/passwd".toList :: l, i⟩ s = passwd l s := by
  unfold exec
  rw [inRoot_chroot]
  dsimp only
  rw [if_neg (by decide), if_neg (by decide), if_neg (by decide), if_neg (by decide),
    if_neg (by decide), if_pos rfl]

/-- The attributes after the first command. -/
def attrsOf (d : Conf) (n : Str) (a : Attr → Option Str) (k : Attr) : Option Str :=
  if configured d n k = [] then a k else some (configured d n k)

theorem set_optList (d : Conf) (n : Str) (u : User) :
    User.set (optList d n) u = { u with attr := attrsOf d n u.attr } := by
  unfold User.set attrsOf
  congr 1
  funext k
  rw [lastVal_optList]
  split <;> simp

/-- The plain options of a new account. -/
def madeOf (d : Conf) (n : Str) : List Str :=
  (if HasFlag d n "system" then ["--system".toList] else []) ++
  ((if HasFlag d n "no-create-home" then ["--no-create-home".toList] else []) ++
  (if HasFlag d n "create-home" then ["--create-home".toList] else []))

theorem useradd_args {d : Conf} {n : Str} (hn : n.head? ≠ some '-') {s : Sys} (hs : ¬ Has s.users n) :
    runAll (exec d.rootfs) (accountCommands d n false) s =
      some { s with users := s.users ++ [(n, ⟨attrsOf d n (fun _ => none), madeOf d n, none, false⟩)] } := by
  have hname : parse addOpts addPlain [n] = some ⟨[], [], [n]⟩ :=
    parse_name hn (by decide) (by decide)
  have hflags : parse addOpts addPlain (option d (userVar n) "--home-dir".toList "home".toList ++
      ((if "system".toList ∈ userFlags d n then ["--system".toList] else []) ++
      ((if "no-create-home".toList ∈ userFlags d n then ["--no-create-home".toList] else []) ++
      ((if "create-home".toList ∈ userFlags d n then ["--create-home".toList] else []) ++ [n])))) =
      some ⟨seg .home (configured d n .home), madeOf d n, [n]⟩ := by
    rw [parse_option (k := .home) (by decide), parse_pick (by decide) (by decide),
      parse_pick (by decide) (by decide), parse_pick (by decide) (by decide), hname]
    simp only [Option.map_some, List.append_nil]
    rfl
  have hall : parse addOpts addPlain _ = _ := parse_common (d := d) (n := n) (by decide) _ hflags
  unfold accountCommands
  dsimp only
  rw [if_neg (by decide), runAll, List.append_assoc, List.cons_append, exec_useradd]
  simp only [List.append_assoc]
  unfold useradd
  rw [hall]
  dsimp only
  rw [if_neg hs]
  dsimp only [runAll]
  rw [show optHead d n (seg .home (configured d n .home)) = optList d n from rfl, set_optList]

theorem change_eq {α : Type} {n : Str} {f g : α → α} {l : List (Str × α)} (h : ∀ x, f x = g x) :
    change n f l = change n g l := by
  rw [show f = g from funext h]

theorem change_id {α : Type} (n : Str) (l : List (Str × α)) : change n (fun x => x) l = l := by
  unfold change
  rw [List.map_congr_left (g := fun x => x) (fun x _ => by split <;> rfl), List.map_id']

theorem change_change {α : Type} (n : Str) (f g : α → α) (l : List (Str × α)) :
    change n g (change n f l) = change n (fun x => g (f x)) l := by
  unfold change
  rw [List.map_map]
  refine List.map_congr_left (fun x _ => ?_)
  by_cases h : x.1 = n
  · simp [h]
  · simp [h]

theorem has_change {α : Type} {n m : Str} {f : α → α} {l : List (Str × α)} :
    Has (change n f l) m ↔ Has l m := by
  unfold Has change
  constructor
  · rintro ⟨x, hx, rfl⟩
    obtain ⟨y, hy, rfl⟩ := List.mem_map.mp hx
    exact ⟨y, hy, by split <;> rfl⟩
  · rintro ⟨x, hx, rfl⟩
    exact ⟨_, List.mem_map.mpr ⟨x, hx, rfl⟩, by split <;> rfl⟩

theorem usermod_args {d : Conf} {n : Str} (hn : n.head? ≠ some '-') {s : Sys} (hs : Has s.users n) :
    runAll (exec d.rootfs) (accountCommands d n true) s =
      some { s with users := change n (fun u => { u with attr := attrsOf d n u.attr }) s.users } := by
  have hname : parse modOpts modPlain [n] = some ⟨[], [], [n]⟩ :=
    parse_name hn (by decide) (by decide)
  have hflags : ∃ p, parse modOpts modPlain (option d (userVar n) "--home".toList "home".toList ++
      ((if d.flag (userVar n) "home".toList = [] then [] else ["--move-home".toList]) ++ [n])) =
      some ⟨seg .home (configured d n .home), p, [n]⟩ := by
    have : (if d.flag (userVar n) "home".toList = [] then [] else ["--move-home".toList]) =
        (if d.flag (userVar n) "home".toList ≠ [] then ["--move-home".toList] else []) := by
      split <;> simp_all
    rw [this, parse_option (k := .home) (by decide), parse_pick (by decide) (by decide), hname]
    simp only [Option.map_some, List.append_nil]
    exact ⟨_, rfl⟩
  obtain ⟨p, hflags⟩ := hflags
  have hall : parse modOpts modPlain _ = _ := parse_common (d := d) (n := n) (by decide) _ hflags
  unfold accountCommands
  dsimp only
  rw [if_pos rfl]
  by_cases hargs : commonArgs d n ++ option d (userVar n) "--home".toList "home".toList ++
      (if d.flag (userVar n) "home".toList = [] then [] else ["--move-home".toList]) = []
  · rw [if_pos hargs]
    -- nothing is configured
    rw [← List.append_assoc, ← List.append_assoc, hargs] at hall
    have hno : ∀ k, configured d n k = [] := by
      intro k
      have h1 := hname.symm.trans hall
      have h2 : optList d n = [] := congrArg Parsed.opts (Option.some.inj h1).symm
      have h3 := lastVal_optList d n k
      rw [h2] at h3
      by_cases hk : configured d n k = []
      · exact hk
      · rw [if_neg hk] at h3; cases h3
    have hid : (fun u : User => { u with attr := attrsOf d n u.attr }) = fun u => u := by
      funext u
      have : attrsOf d n u.attr = u.attr := by
        funext k; unfold attrsOf; rw [if_pos (hno k)]
      rw [this]
    rw [hid, change_id]; rfl
  · rw [if_neg hargs, runAll, List.append_assoc, List.cons_append, exec_usermod]
    simp only [List.append_assoc]
    unfold usermod
    rw [hall]
    dsimp only
    rw [if_pos hs]
    dsimp only [runAll]
    rw [show optHead d n (seg .home (configured d n .home)) = optList d n from rfl,
      change_eq (set_optList d n)]

theorem runAll_append {S : Type} (ex : Cmd → S → Option S) (a b : List Cmd) (s : S) :
    runAll ex (a ++ b) s = (runAll ex a s).bind (runAll ex b) := by
  induction a generalizing s with
  | nil => rfl
  | cons c a ih =>
    rw [List.cons_append]
    unfold runAll
    cases ex c s with
    | none => rfl
    | some t => exact ih t

/-- The effect of the password command. -/
def setPassword (d : Conf) (n : Str) (u : User) : User :=
  if HasPassword d n then { u with password := some (passwordFor d n), mustChange := false } else u

/-- The effect of the last command. -/
def setForce (d : Conf) (n : Str) (u : User) : User :=
  if HasFlag d n "force-passwd-change" then { u with mustChange := true } else u

theorem chpasswd_args {d : Conf} {n : Str} (hn : ':' ∉ n) {s : Sys} (hs : Has s.users n) :
    runAll (exec d.rootfs) (passwordCommands d n) s =
      some { s with users := change n (setPassword d n) s.users } := by
  unfold passwordCommands
  dsimp only
  by_cases hp : HasPassword d n
  · have hp' : d.flag (userVar n) "password".toList ≠ [] ∨
        "allow-empty-password".toList ∈ userFlags d n := hp
    rw [if_pos hp', runAll, exec_chpasswd]
    unfold chpasswd
    have hne : ∀ x ∈ n, decide (x ≠ ':') = true := by
      intro x hx
      have : x ≠ ':' := fun e => hn (e ▸ hx)
      simpa using this
    have ht : ∀ p : Str, (n ++ ':' :: p).takeWhile (fun x => decide (x ≠ ':')) = n := by
      intro p
      rw [List.takeWhile_append_of_pos hne, List.takeWhile_cons_of_neg (by simp), List.append_nil]
    have hd : ∀ p : Str, (n ++ ':' :: p).dropWhile (fun x => decide (x ≠ ':')) = ':' :: p := by
      intro p
      rw [List.dropWhile_append_of_pos hne, List.dropWhile_cons_of_neg (by simp)]
    dsimp only
    rw [ht, hd, if_pos ⟨rfl, hs⟩]
    dsimp only [runAll]
    rw [change_eq (g := setPassword d n)]
    intro u
    unfold setPassword
    rw [if_pos hp]
    rfl
  · have hp' : ¬ (d.flag (userVar n) "password".toList ≠ [] ∨
        "allow-empty-password".toList ∈ userFlags d n) := hp
    rw [if_neg hp', runAll, change_eq (g := fun x => x), change_id]
    intro u
    unfold setPassword
    rw [if_neg hp]

theorem passwd_args {d : Conf} {n : Str} (hn : n.head? ≠ some '-') {s : Sys} (hs : Has s.users n) :
    runAll (exec d.rootfs) (expireCommands d n) s =
      some { s with users := change n (setForce d n) s.users } := by
  unfold expireCommands
  by_cases hf : HasFlag d n "force-passwd-change"
  · have hf' : "force-passwd-change".toList ∈ userFlags d n := hf
    rw [if_pos hf', runAll, exec_passwd]
    unfold passwd
    rw [parse_plain rfl (by decide), parse_name hn (by simp) (by decide)]
    dsimp only [Option.map_some]
    rw [if_pos ⟨rfl, hs⟩]
    dsimp only [runAll]
    rw [change_eq (g := setForce d n)]
    intro u
    unfold setForce
    rw [if_pos hf]
  · have hf' : "force-passwd-change".toList ∉ userFlags d n := hf
    rw [if_neg hf', runAll, change_eq (g := fun x => x), change_id]
    intro u
    unfold setForce
    rw [if_neg hf]

/-- The effect of all commands for a user. -/
def want (d : Conf) (n : Str) (u : User) : User :=
  setForce d n (setPassword d n { u with attr := attrsOf d n u.attr })

/-- A new account before its attributes are set. -/
def fresh (d : Conf) (n : Str) : User := ⟨fun _ => none, madeOf d n, none, false⟩

/-- The effect on the list of accounts. -/
def applyTo {α : Type} (n : Str) (f : α → α) (new : α) (l : List (Str × α)) : List (Str × α) :=
  if Has l n then change n f l else l ++ [(n, f new)]

theorem change_new {α : Type} {n : Str} {f : α → α} {x : α} {l : List (Str × α)} (h : ¬ Has l n) :
    change n f (l ++ [(n, x)]) = l ++ [(n, f x)] := by
  unfold change
  rw [List.map_append]
  congr 1
  · rw [List.map_congr_left (g := fun x => x), List.map_id']
    intro y hy
    rw [if_neg (fun e => h ⟨y, hy, e⟩)]
  · simp

theorem chpasswd_at {d : Conf} {n : Str} (hn : ':' ∉ n) (g : List (Str × Group))
    (us : List (Str × User)) (hs : Has us n) :
    runAll (exec d.rootfs) (passwordCommands d n) ⟨g, us⟩ =
      some ⟨g, change n (setPassword d n) us⟩ := chpasswd_args (s := ⟨g, us⟩) hn hs

theorem passwd_at {d : Conf} {n : Str} (hn : n.head? ≠ some '-') (g : List (Str × Group))
    (us : List (Str × User)) (hs : Has us n) :
    runAll (exec d.rootfs) (expireCommands d n) ⟨g, us⟩ =
      some ⟨g, change n (setForce d n) us⟩ := passwd_args (s := ⟨g, us⟩) hn hs

theorem user_step {d : Conf} {n : Str} (hn : OkName n) (s : Sys) :
    runAll (exec d.rootfs) (userCommands d n (decide (Has s.users n))) s =
      some { s with users := applyTo n (want d n) (fresh d n) s.users } := by
  unfold userCommands applyTo
  rw [runAll_append, runAll_append]
  by_cases h : Has s.users n
  · rw [decide_eq_true h, usermod_args hn.2 h, if_pos h]
    dsimp only [Option.bind_some]
    rw [chpasswd_at hn.1 _ _ (has_change.mpr h)]
    dsimp only [Option.bind_some]
    rw [passwd_at hn.2 _ _ (has_change.mpr (has_change.mpr h))]
    rw [change_change, change_change]
    rfl
  · rw [decide_eq_false h, useradd_args hn.2 h, if_neg h]
    dsimp only [Option.bind_some]
    have hnew : ∀ x : User, Has (s.users ++ [(n, x)]) n :=
      fun x => ⟨(n, x), List.mem_append_right _ List.mem_cons_self, rfl⟩
    rw [chpasswd_at hn.1 _ _ (hnew _)]
    dsimp only [Option.bind_some]
    rw [change_new h, passwd_at hn.2 _ _ (hnew _)]
    rw [change_new h]
    rfl

/-- The effect of the commands for a group. -/
def wantGroup (d : Conf) (n : Str) (g : Group) : Group :=
  if d.flag (groupVar n) "gid".toList = [] then g
  else { g with gid := some (d.flag (groupVar n) "gid".toList) }

def freshGroup (d : Conf) (n : Str) : Group :=
  ⟨none, decide ("system".toList ∈ words (d.flag (groupVar n) "flags".toList))⟩

theorem group_step {d : Conf} {n : Str} (hn : OkName n) (s : Sys) :
    runAll (exec d.rootfs) (groupCommands d n (decide (Has s.groups n))) s =
      some { s with groups := applyTo n (wantGroup d n) (freshGroup d n) s.groups } := by
  unfold groupCommands applyTo
  dsimp only
  by_cases h : Has s.groups n
  · rw [decide_eq_true h, if_pos rfl, if_pos h]
    by_cases hg : d.flag (groupVar n) "gid".toList = []
    · have ho : option d (groupVar n) "--gid".toList "gid".toList = [] := by
        unfold option; rw [if_pos hg]
      rw [if_pos ho, change_eq (g := fun x => x), change_id]
      · rfl
      · intro g; unfold wantGroup; rw [if_pos hg]
    · have ho : option d (groupVar n) "--gid".toList "gid".toList ≠ [] := by
        unfold option; rw [if_neg hg]; exact List.cons_ne_nil _ _
      rw [if_neg ho, runAll, List.append_assoc, List.cons_append, exec_groupmod]
      unfold groupmod
      rw [parse_option (k := ()) rfl, parse_name hn.2 (by decide) (by decide)]
      dsimp only [Option.map_some]
      rw [if_pos h]
      dsimp only [runAll]
      rw [change_eq (g := wantGroup d n)]
      intro g
      rw [List.append_nil, lastVal_seg, if_pos ⟨rfl, hg⟩]
      unfold wantGroup
      rw [if_neg hg]
      rfl
  · rw [decide_eq_false h, if_neg (by decide), if_neg h, runAll, List.append_assoc, List.append_assoc,
      List.cons_append, exec_groupadd]
    unfold groupadd
    rw [parse_option (k := ()) rfl, parse_pick rfl (by decide),
      parse_name hn.2 (by decide) (by decide)]
    dsimp only [Option.map_some]
    rw [if_neg h]
    dsimp only [runAll]
    rw [List.append_nil, List.append_nil, lastVal_seg]
    have he : (⟨if () = () ∧ d.flag (groupVar n) "gid".toList ≠ [] then
          some (d.flag (groupVar n) "gid".toList) else none,
        decide ("--system".toList ∈ if "system".toList ∈ words (d.flag (groupVar n) "flags".toList) then
          ["--system".toList] else [])⟩ : Group) = wantGroup d n (freshGroup d n) := by
      unfold wantGroup freshGroup
      have h2 : decide ("--system".toList ∈ if "system".toList ∈ words (d.flag (groupVar n)
          "flags".toList) then ["--system".toList] else []) =
          decide ("system".toList ∈ words (d.flag (groupVar n) "flags".toList)) := by
        by_cases hf : "system".toList ∈ words (d.flag (groupVar n) "flags".toList)
        · rw [if_pos hf, decide_eq_true hf]; rfl
        · rw [if_neg hf, decide_eq_false hf]; rfl
      rw [h2]
      by_cases hg : d.flag (groupVar n) "gid".toList = []
      · rw [if_neg (fun e => e.2 hg), if_pos hg]
      · rw [if_pos ⟨rfl, hg⟩, if_neg hg]
    rw [he]

/-! ### The loops -/

/-- The effect of a loop. -/
def applyAll {α : Type} (f : Str → α → α) (new : Str → α) (ns : List Str) (l : List (Str × α)) :
    List (Str × α) := ns.foldl (fun l n => applyTo n (f n) (new n) l) l

theorem applyTo_names {α : Type} {n : Str} {f : α → α} {new : α} {l : List (Str × α)} (hn : ':' ∉ n)
    (hl : ∀ x ∈ l, ':' ∉ x.1) : ∀ x ∈ applyTo n f new l, ':' ∉ x.1 := by
  unfold applyTo
  split
  · intro x hx
    obtain ⟨y, hy, rfl⟩ := List.mem_map.mp hx
    split
    · exact hl y hy
    · exact hl y hy
  · intro x hx
    rcases List.mem_append.mp hx with hx | hx
    · exact hl x hx
    · rw [List.mem_singleton.mp hx]; exact hn

theorem users_loop {d : Conf} {f : User → Str} : ∀ (ns : List Str), (∀ n ∈ ns, OkName n) → ∀ s : Sys,
    (∀ x ∈ s.users, ':' ∉ x.1) →
    loop (exec d.rootfs) (fun s => fileLines f s.users) (userCommands d) ns s =
      some { s with users := applyAll (want d) (fresh d) ns s.users }
  | [], _, s, _ => rfl
  | n :: ns, hns, s, hs => by
    have hn := hns n List.mem_cons_self
    unfold loop
    rw [exists_eq hn.1 hs, user_step hn]
    dsimp only
    rw [users_loop ns (fun m hm => hns m (List.mem_cons_of_mem _ hm)) _
      (applyTo_names hn.1 hs)]
    rfl

theorem groups_loop {d : Conf} {f : Group → Str} : ∀ (ns : List Str), (∀ n ∈ ns, OkName n) → ∀ s : Sys,
    (∀ x ∈ s.groups, ':' ∉ x.1) →
    loop (exec d.rootfs) (fun s => fileLines f s.groups) (groupCommands d) ns s =
      some { s with groups := applyAll (wantGroup d) (freshGroup d) ns s.groups }
  | [], _, s, _ => rfl
  | n :: ns, hns, s, hs => by
    have hn := hns n List.mem_cons_self
    unfold loop
    rw [exists_eq hn.1 hs, group_step hn]
    dsimp only
    rw [groups_loop ns (fun m hm => hns m (List.mem_cons_of_mem _ hm)) _
      (applyTo_names hn.1 hs)]
    rfl

theorem lookup_change {α : Type} {n m : Str} {f : α → α} (l : List (Str × α)) :
    (change n f l).lookup m = if m = n then (l.lookup m).map f else l.lookup m := by
  unfold change
  induction l with
  | nil => split <;> rfl
  | cons x l ih =>
    obtain ⟨a, b⟩ := x
    rw [List.map_cons]
    by_cases ha : a = n
    · subst ha
      dsimp only
      rw [if_pos rfl, List.lookup_cons, List.lookup_cons, ih]
      by_cases hm : m = a
      · subst hm
        simp
      · rw [if_neg hm, if_neg hm, show (m == a) = false by simpa using hm]
    · dsimp only
      rw [if_neg ha, List.lookup_cons, List.lookup_cons, ih]
      by_cases hm : m = a
      · subst hm
        rw [if_neg ha]; simp [ha]
      · rw [show (m == a) = false by simpa using hm]

theorem lookup_none_iff {α : Type} {n : Str} {l : List (Str × α)} : l.lookup n = none ↔ ¬ Has l n := by
  induction l with
  | nil => simp [Has]
  | cons x l ih =>
    obtain ⟨a, b⟩ := x
    rw [List.lookup_cons]
    by_cases h : n = a
    · subst h
      simp [Has]
    · rw [show (n == a) = false by simpa using h]
      dsimp only
      rw [ih]
      unfold Has
      simp only [List.mem_cons, exists_eq_or_imp]
      constructor
      · rintro h1 (h2 | h2)
        · exact h h2.symm
        · exact h1 h2
      · exact fun h1 h2 => h1 (Or.inr h2)

theorem lookup_append {α : Type} {m : Str} (a b : List (Str × α)) :
    (a ++ b).lookup m = (a.lookup m).or (b.lookup m) := by
  induction a with
  | nil => simp
  | cons x a ih =>
    obtain ⟨k, v⟩ := x
    rw [List.cons_append, List.lookup_cons, List.lookup_cons]
    cases m == k <;> simp [ih]

theorem lookup_applyTo {α : Type} {n m : Str} {f : α → α} {new : α} (l : List (Str × α)) :
    (applyTo n f new l).lookup m =
      if m = n then some (f ((l.lookup m).getD new)) else l.lookup m := by
  unfold applyTo
  by_cases h : Has l n
  · rw [if_pos h, lookup_change]
    by_cases hm : m = n
    · subst hm
      rw [if_pos rfl, if_pos rfl]
      cases hl : l.lookup m with
      | none => exact absurd h (lookup_none_iff.mp hl)
      | some x => rfl
    · rw [if_neg hm, if_neg hm]
  · rw [if_neg h, lookup_append]
    by_cases hm : m = n
    · subst hm
      rw [if_pos rfl, lookup_none_iff.mpr h]
      simp
    · rw [if_neg hm]
      have : List.lookup m [(n, f new)] = none := by
        rw [List.lookup_cons, show (m == n) = false by simpa using hm]; rfl
      rw [this]
      cases l.lookup m <;> rfl

theorem lookup_applyAll {α : Type} {f : Str → α → α} {new : Str → α}
    (hf : ∀ n x, f n (f n x) = f n x) (m : Str) : ∀ (ns : List Str) (l : List (Str × α)),
    (applyAll f new ns l).lookup m =
      if m ∈ ns then some (f m ((l.lookup m).getD (new m))) else l.lookup m
  | [], l => by simp [applyAll]
  | n :: ns, l => by
    show (applyAll f new ns (applyTo n (f n) (new n) l)).lookup m = _
    rw [lookup_applyAll hf m ns, lookup_applyTo]
    by_cases hm : m = n
    · subst hm
      rw [if_pos rfl, if_pos List.mem_cons_self]
      split
      · rw [Option.getD_some, hf]
      · rfl
    · rw [if_neg hm]
      simp only [List.mem_cons, hm, false_or]

theorem want_idem (d : Conf) (n : Str) (u : User) : want d n (want d n u) = want d n u := by
  have ha : ∀ a : Attr → Option Str, attrsOf d n (attrsOf d n a) = attrsOf d n a := by
    intro a; funext k; unfold attrsOf; split <;> rfl
  unfold want setForce setPassword
  by_cases h1 : HasFlag d n "force-passwd-change" <;> by_cases h2 : HasPassword d n <;>
    simp only [h1, h2, if_true, if_false, ha]

theorem wantGroup_idem (d : Conf) (n : Str) (g : Group) : wantGroup d n (wantGroup d n g) = wantGroup d n g := by
  unfold wantGroup
  split <;> rfl

/-- Every entry with the name `n` is as it should be, and there is one. -/
def Settled {α : Type} (f : Str → α → α) (n : Str) (l : List (Str × α)) : Prop :=
  Has l n ∧ ∀ x ∈ l, x.1 = n → f n x.2 = x.2

theorem settled_applyTo {α : Type} {f : Str → α → α} (hf : ∀ n x, f n (f n x) = f n x) {n : Str} {new : α}
    (l : List (Str × α)) : Settled f n (applyTo n (f n) new l) := by
  unfold applyTo
  split
  · rename_i h
    refine ⟨has_change.mpr h, fun x hx hn => ?_⟩
    obtain ⟨y, hy, rfl⟩ := List.mem_map.mp hx
    by_cases hy2 : y.1 = n
    · rw [if_pos hy2]; exact hf n y.2
    · rw [if_neg hy2] at hn; exact absurd hn hy2
  · rename_i h
    refine ⟨⟨_, List.mem_append_right _ List.mem_cons_self, rfl⟩, fun x hx hn => ?_⟩
    rcases List.mem_append.mp hx with hx | hx
    · exact absurd ⟨x, hx, hn⟩ h
    · rw [List.mem_singleton.mp hx]; exact hf n new

theorem settled_kept {α : Type} {f : Str → α → α} (hf : ∀ n x, f n (f n x) = f n x) {n m : Str} {new : α}
    {l : List (Str × α)} (h : Settled f n l) : Settled f n (applyTo m (f m) new l) := by
  by_cases hm : m = n
  · subst hm; exact settled_applyTo hf l
  · unfold applyTo
    split
    · refine ⟨has_change.mpr h.1, fun x hx hn => ?_⟩
      obtain ⟨y, hy, rfl⟩ := List.mem_map.mp hx
      by_cases hy2 : y.1 = m
      · rw [if_pos hy2] at hn; exact absurd (hy2.symm.trans hn) hm
      · rw [if_neg hy2] at hn ⊢; exact h.2 y hy hn
    · obtain ⟨y, hy, hyn⟩ := h.1
      refine ⟨⟨y, List.mem_append_left _ hy, hyn⟩, fun x hx hn => ?_⟩
      rcases List.mem_append.mp hx with hx | hx
      · exact h.2 x hx hn
      · rw [List.mem_singleton.mp hx] at hn; exact absurd hn hm

theorem settled_applyAll {α : Type} {f : Str → α → α} {new : Str → α}
    (hf : ∀ n x, f n (f n x) = f n x) (n : Str) : ∀ (ns : List Str) (l : List (Str × α)),
    n ∈ ns ∨ Settled f n l → Settled f n (applyAll f new ns l)
  | [], l, h => h.elim (fun h => by cases h) id
  | m :: ns, l, h => by
    show Settled f n (applyAll f new ns (applyTo m (f m) (new m) l))
    apply settled_applyAll hf n ns
    by_cases hm : m = n
    · subst hm; exact Or.inr (settled_applyTo hf l)
    · rcases h with h | h
      · rcases List.mem_cons.mp h with h | h
        · exact absurd h.symm hm
        · exact Or.inl h
      · exact Or.inr (settled_kept hf h)

theorem applyTo_settled {α : Type} {f : Str → α → α} {n : Str} {new : α} {l : List (Str × α)}
    (h : Settled f n l) : applyTo n (f n) new l = l := by
  unfold applyTo change
  rw [if_pos h.1, List.map_congr_left (g := fun x => x), List.map_id']
  intro x hx
  split
  · rename_i hn
    rw [h.2 x hx hn]
  · rfl

theorem applyAll_again {α : Type} {f : Str → α → α} {new : Str → α} (ns : List Str)
    {l : List (Str × α)} (h : ∀ n ∈ ns, Settled f n l) : applyAll f new ns l = l := by
  induction ns with
  | nil => rfl
  | cons n ns ih =>
    show applyAll f new ns (applyTo n (f n) (new n) l) = l
    rw [applyTo_settled (h n List.mem_cons_self)]
    exact ih (fun m hm => h m (List.mem_cons_of_mem _ hm))

/-- What the whole step does. -/
theorem create_eq {d : Conf} {fg : Group → Str} {fu : User → Str} {s : Sys}
    (hg : ∀ n ∈ words d.groups, OkName n) (hu : ∀ n ∈ words d.users, OkName n)
    (hsg : ∀ x ∈ s.groups, ':' ∉ x.1) (hsu : ∀ x ∈ s.users, ':' ∉ x.1) :
    createAccounts (exec d.rootfs) (fun s => fileLines fg s.groups) (fun s => fileLines fu s.users) d s =
      some ⟨applyAll (wantGroup d) (freshGroup d) (words d.groups) s.groups,
        applyAll (want d) (fresh d) (words d.users) s.users⟩ := by
  unfold createAccounts
  rw [groups_loop _ hg s hsg]
  dsimp only
  exact users_loop _ hu ⟨applyAll (wantGroup d) (freshGroup d) (words d.groups) s.groups, s.users⟩ hsu

theorem want_done (d : Conf) (n : Str) (o : Option User) : UserDone d n o (want d n (o.getD (fresh d n))) := by
  have hbase : ∀ k, (o.getD (fresh d n)).attr k = o.bind (·.attr k) := by
    intro k; cases o <;> rfl
  have hattr : (want d n (o.getD (fresh d n))).attr = attrsOf d n (o.getD (fresh d n)).attr := by
    unfold want setForce setPassword
    split <;> split <;> rfl
  constructor
  · intro k hk
    rw [hattr]; unfold attrsOf; rw [if_neg hk]
  · intro k hk
    rw [hattr]; unfold attrsOf; rw [if_pos hk, hbase]
  · intro hp
    unfold want setForce setPassword
    rw [if_pos hp]; split <;> rfl
  · intro hp
    unfold want setForce setPassword
    rw [if_neg hp]
    split <;> (cases o <;> rfl)
  · intro hf
    unfold want setForce
    rw [if_pos hf]
  · intro hf
    unfold want setForce setPassword
    rw [if_neg hf]
    split
    · rfl
    · cases o <;> rfl
  · have hmade : (want d n (o.getD (fresh d n))).made = (o.getD (fresh d n)).made := by
      unfold want setForce setPassword
      split <;> split <;> rfl
    rw [hmade]
    cases o with
    | none =>
      show madeOf d n = _
      unfold madeOf
      rw [List.append_assoc]
      rfl
    | some u => rfl

/-- **C35.**  Whatever accounts the image has, all commands are accepted, every configured group
and user is as the configuration asks (attributes, password, flags; attributes that are not
configured are kept) and all other accounts are unchanged. -/
theorem accounts_created {d : Conf} {fg : Group → Str} {fu : User → Str} {s : Sys}
    (hg : ∀ n ∈ words d.groups, OkName n) (hu : ∀ n ∈ words d.users, OkName n)
    (hsg : ∀ x ∈ s.groups, ':' ∉ x.1) (hsu : ∀ x ∈ s.users, ':' ∉ x.1) :
    ∃ s', createAccounts (exec d.rootfs) (fun s => fileLines fg s.groups)
        (fun s => fileLines fu s.users) d s = some s' ∧
      (∀ n ∈ words d.users, ∃ u, s'.users.lookup n = some u ∧ UserDone d n (s.users.lookup n) u) ∧
      (∀ n, n ∉ words d.users → s'.users.lookup n = s.users.lookup n) ∧
      (∀ n ∈ words d.groups, ∃ g, s'.groups.lookup n = some g ∧
        GroupDone d n (s.groups.lookup n) g) ∧
      (∀ n, n ∉ words d.groups → s'.groups.lookup n = s.groups.lookup n) := by
  refine ⟨_, create_eq hg hu hsg hsu, ?_, ?_, ?_, ?_⟩
  · intro n hn
    rw [lookup_applyAll (want_idem d), if_pos hn]
    exact ⟨_, rfl, want_done d n _⟩
  · intro n hn
    rw [lookup_applyAll (want_idem d), if_neg hn]
  · intro n hn
    rw [lookup_applyAll (wantGroup_idem d), if_pos hn]
    refine ⟨_, rfl, ?_⟩
    unfold wantGroup
    constructor
    · intro h; rw [if_neg h]
    · intro h; rw [if_pos h]; cases s.groups.lookup n <;> rfl
    · split <;> (cases s.groups.lookup n <;> rfl)
  · intro n hn
    rw [lookup_applyAll (wantGroup_idem d), if_neg hn]

theorem applyAll_names {α : Type} {f : Str → α → α} {new : Str → α} : ∀ (ns : List Str),
    (∀ n ∈ ns, OkName n) → ∀ l : List (Str × α), (∀ x ∈ l, ':' ∉ x.1) →
    ∀ x ∈ applyAll f new ns l, ':' ∉ x.1
  | [], _, _, hl => hl
  | n :: ns, hns, _, hl =>
    applyAll_names ns (fun m hm => hns m (List.mem_cons_of_mem _ hm)) _
      (applyTo_names (hns n List.mem_cons_self).1 hl)

/-- **C35.**  Creating the accounts again changes nothing: the step can be repeated. -/
theorem accounts_again {d : Conf} {fg : Group → Str} {fu : User → Str} {s s' : Sys}
    (hg : ∀ n ∈ words d.groups, OkName n) (hu : ∀ n ∈ words d.users, OkName n)
    (hsg : ∀ x ∈ s.groups, ':' ∉ x.1) (hsu : ∀ x ∈ s.users, ':' ∉ x.1)
    (h : createAccounts (exec d.rootfs) (fun s => fileLines fg s.groups)
        (fun s => fileLines fu s.users) d s = some s') :
    createAccounts (exec d.rootfs) (fun s => fileLines fg s.groups)
        (fun s => fileLines fu s.users) d s' = some s' := by
  rw [create_eq hg hu hsg hsu] at h
  rw [← Option.some.inj h, create_eq hg hu (applyAll_names _ hg _ hsg) (applyAll_names _ hu _ hsu)]
  dsimp only
  rw [applyAll_again _ (fun n hn => settled_applyAll (wantGroup_idem d) n _ _ (Or.inl hn)),
    applyAll_again _ (fun n hn => settled_applyAll (want_idem d) n _ _ (Or.inl hn))]

/-- **C35.**  The order in which unrelated users are listed does not matter for any account. -/
theorem accounts_order {d d' : Conf} {fg : Group → Str} {fu : User → Str} {s s1 s2 : Sys}
    (hsame : d' = { d with users := d'.users, groups := d'.groups })
    (hpu : ∀ n, n ∈ words d'.users ↔ n ∈ words d.users)
    (hpg : ∀ n, n ∈ words d'.groups ↔ n ∈ words d.groups)
    (hg : ∀ n ∈ words d.groups, OkName n) (hu : ∀ n ∈ words d.users, OkName n)
    (hsg : ∀ x ∈ s.groups, ':' ∉ x.1) (hsu : ∀ x ∈ s.users, ':' ∉ x.1)
    (h1 : createAccounts (exec d.rootfs) (fun s => fileLines fg s.groups)
        (fun s => fileLines fu s.users) d s = some s1)
    (h2 : createAccounts (exec d'.rootfs) (fun s => fileLines fg s.groups)
        (fun s => fileLines fu s.users) d' s = some s2) (n : Str) :
    s1.users.lookup n = s2.users.lookup n ∧ s1.groups.lookup n = s2.groups.lookup n := by
  rw [create_eq hg hu hsg hsu] at h1
  rw [create_eq (fun n hn => hg n ((hpg n).mp hn)) (fun n hn => hu n ((hpu n).mp hn)) hsg hsu] at h2
  rw [← Option.some.inj h1, ← Option.some.inj h2]
  dsimp only
  have hw : want d' = want d := by rw [hsame]; rfl
  have hf : fresh d' = fresh d := by rw [hsame]; rfl
  have hwg : wantGroup d' = wantGroup d := by rw [hsame]; rfl
  have hfg : freshGroup d' = freshGroup d := by rw [hsame]; rfl
  rw [hw, hf, hwg, hfg, lookup_applyAll (want_idem d), lookup_applyAll (want_idem d),
    lookup_applyAll (wantGroup_idem d), lookup_applyAll (wantGroup_idem d)]
  simp only [hpu n, hpg n, and_self]

/-- **C35.**  When an existing user gets a home directory, its contents are moved there. -/
theorem home_moved (d : Conf) (n : Str) (h : configured d n .home ≠ []) :
    ∃ a, accountCommands d n true = [⟨chroot d ++ "/usr/sbin/usermod".toList :: a ++
      ["--home".toList, configured d n .home, "--move-home".toList, n], []⟩] := by
  have h' : d.flag (userVar n) "home".toList ≠ [] := h
  unfold accountCommands option
  dsimp only
  rw [if_pos rfl, if_neg h', if_neg h', if_neg (by simp)]
  refine ⟨commonArgs d n, ?_⟩
  simp only [List.cons_append, List.append_assoc, List.nil_append]
  rfl

/-- A user name that begins with a dash would be taken for an option. -/
theorem dash_name_fails :
    runAll (exec "/r".toList) (userCommands ⟨[], "-x".toList, "/r".toList, fun _ _ => [], [], fun _ p => p⟩
      "-x".toList false) ⟨[], []⟩ = none := by rfl

/-- The configuration of the examples: a new user, and an existing user with a new shell. -/
def exampleConf : Conf where
  groups := "audio".toList
  users := "me root".toList
  rootfs := "/r".toList
  flag var name :=
    if var = "USER_me".toList ∧ name = "groups".toList then "audio video".toList
    else if var = "USER_me".toList ∧ name = "flags".toList then
      "system force-passwd-change allow-empty-password".toList
    else if var = "USER_root".toList ∧ name = "shell".toList then "/bin/sh".toList
    else []
  salt := "abc".toList
  hash s p := s ++ p

example : (userCommands exampleConf "me".toList false).map (·.argv.drop 4) =
    [["/usr/sbin/useradd".toList, "--groups".toList, "audio,video".toList, "--system".toList, "me".toList],
     ["/usr/sbin/chpasswd".toList, "-e".toList],
     ["/usr/bin/passwd".toList, "--expire".toList, "me".toList]] := by decide +kernel
example : (∀ n ∈ words exampleConf.users, OkName n) ∧ (∀ n ∈ words exampleConf.groups, OkName n) := by
  decide +kernel

end Isar.Accounts
