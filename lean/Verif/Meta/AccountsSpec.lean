import Verif.Meta.AccountsModel
/-!
# The programs that change accounts, and what the configuration asks for

The programs of Debian's `passwd` package as far as they are used: which options they accept and
what they change.  They fail for unknown options, for a user or group that exists already (`add`) or
does not exist (`mod`), and if they are not run in the root file system of the image.  Other reasons
for failure (identifiers in use, missing groups) are not modelled.
-/

namespace Isar.Accounts
open Py

/-- The attributes of a user. -/
inductive Attr
  | expire | inactive | uid | gid | comment | shell | groups | home
deriving DecidableEq, Repr

/-- A user: the attributes that have been set, the options used for creating the account (`made`),
the encrypted password, and whether the password has to be changed at the next login. -/
structure User where
  attr : Attr → Option Str
  made : List Str
  password : Option Str
  mustChange : Bool

/-- A group. -/
structure Group where
  gid : Option Str
  system : Bool
deriving DecidableEq, Repr

/-- The accounts of the image. -/
structure Sys where
  groups : List (Str × Group)
  users : List (Str × User)

/-- Options (with the attribute they set), options without a value, and other arguments. -/
structure Parsed (α : Type) where
  opts : List (α × Str)
  plain : List Str
  rest : List Str

/-- `getopt_long`: an option that needs a value takes the next argument, whatever it looks like. -/
def parse {α : Type} (table : List (Str × α)) (plain : List Str) : List Str → Option (Parsed α)
  | [] => some ⟨[], [], []⟩
  | a :: l =>
    match table.lookup a with
    | some k =>
      match l with
      | [] => none
      | v :: l' => (parse table plain l').map fun p => { p with opts := (k, v) :: p.opts }
    | none =>
      if a ∈ plain then (parse table plain l).map fun p => { p with plain := a :: p.plain }
      else if startsWith a ['-'] then none
      else (parse table plain l).map fun p => { p with rest := a :: p.rest }

/-- The value of an option: the last one counts. -/
def lastVal {α : Type} [DecidableEq α] (k : α) : List (α × Str) → Option Str
  | [] => none
  | (k', v) :: l => (lastVal k l).or (if k' = k then some v else none)

/-- The options of both `useradd` and `usermod`. -/
def commonOpts : List (Str × Attr) :=
  [("--expire".toList, .expire), ("--inactive".toList, .inactive), ("--uid".toList, .uid),
   ("--gid".toList, .gid), ("--comment".toList, .comment), ("--shell".toList, .shell),
   ("--groups".toList, .groups)]

def addOpts : List (Str × Attr) := commonOpts ++ [("--home-dir".toList, .home)]
def modOpts : List (Str × Attr) := commonOpts ++ [("--home".toList, .home)]
def addPlain : List Str := ["--system".toList, "--no-create-home".toList, "--create-home".toList]
def modPlain : List Str := ["--move-home".toList]

/-- Changes the entry with the name `n`. -/
def change {α : Type} (n : Str) (f : α → α) (l : List (Str × α)) : List (Str × α) :=
  l.map fun x => if x.1 = n then (x.1, f x.2) else x

/-- There is an entry with this name. -/
def Has {α : Type} (l : List (Str × α)) (n : Str) : Prop := ∃ x ∈ l, x.1 = n

instance {α : Type} (l : List (Str × α)) (n : Str) : Decidable (Has l n) := by
  unfold Has; infer_instance

def User.set (o : List (Attr × Str)) (u : User) : User :=
  { u with attr := fun k => (lastVal k o).or (u.attr k) }

def useradd (args : List Str) (s : Sys) : Option Sys :=
  match parse addOpts addPlain args with
  | some ⟨o, p, [n]⟩ =>
    if Has s.users n then none
    else some { s with users := s.users ++ [(n, User.set o ⟨fun _ => none, p, none, false⟩)] }
  | _ => none

def usermod (args : List Str) (s : Sys) : Option Sys :=
  match parse modOpts modPlain args with
  | some ⟨o, _, [n]⟩ =>
    if Has s.users n then some { s with users := change n (User.set o) s.users } else none
  | _ => none

def groupadd (args : List Str) (s : Sys) : Option Sys :=
  match parse [("--gid".toList, ())] ["--system".toList] args with
  | some ⟨o, p, [n]⟩ =>
    if Has s.groups n then none
    else some { s with groups := s.groups ++ [(n, ⟨lastVal () o, decide ("--system".toList ∈ p)⟩)] }
  | _ => none

def groupmod (args : List Str) (s : Sys) : Option Sys :=
  match parse [("--gid".toList, ())] [] args with
  | some ⟨o, _, [n]⟩ =>
    if Has s.groups n then
      some { s with groups := change n (fun g => { g with gid := (lastVal () o).or g.gid }) s.groups }
    else none
  | _ => none

/-- `chpasswd -e` with one line of input: the name goes up to the first colon. -/
def chpasswd (args : List Str) (input : Str) (s : Sys) : Option Sys :=
  let n := input.takeWhile (· ≠ ':')
  if args = ["-e".toList] ∧ Has s.users n then
    some { s with users := change n (fun u =>
      { u with password := some ((input.dropWhile (· ≠ ':')).drop 1), mustChange := false }) s.users }
  else none

def passwd (args : List Str) (s : Sys) : Option Sys :=
  match parse ([] : List (Str × Unit)) ["--expire".toList] args with
  | some ⟨_, p, [n]⟩ =>
    if p = ["--expire".toList] ∧ Has s.users n then
      some { s with users := change n (fun u => { u with mustChange := true }) s.users }
    else none
  | _ => none

/-- The program and its arguments, for a command run with `sudo -E chroot` in `rootfs`. -/
def inRoot (rootfs : Str) : List Str → Option (Str × List Str)
  | a :: b :: c :: r :: prog :: args =>
    if a = "sudo".toList ∧ b = "-E".toList ∧ c = "chroot".toList ∧ r = rootfs then some (prog, args)
    else none
  | _ => none

/-- Runs a command. -/
def exec (rootfs : Str) (c : Cmd) (s : Sys) : Option Sys :=
  match inRoot rootfs c.argv with
  | none => none
  | some (p, args) =>
    if p = "/usr/sbin/groupadd".toList then groupadd args s
    else if p = "/usr/sbin/groupmod".toList then groupmod args s
    else if p = "/usr/sbin/useradd".toList then useradd args s
    else if p = "/usr/sbin/usermod".toList then usermod args s
    else if p = "/usr/sbin/chpasswd".toList then chpasswd args c.input s
    else if p = "/usr/bin/passwd".toList then passwd args s
    else none

/-- The lines of `/etc/passwd` and `/etc/group`: the name, a colon, and other fields. -/
def fileLines {α : Type} (fields : α → Str) (l : List (Str × α)) : List Str :=
  l.map fun x => x.1 ++ ':' :: fields x.2

/-- The name of a user or group. -/
def OkName (n : Str) : Prop := ':' ∉ n ∧ n.head? ≠ some '-'

instance (n : Str) : Decidable (OkName n) := by unfold OkName; infer_instance

/-! ### What the configuration asks for -/

/-- The configured value of an attribute (empty: not configured); the names of the groups are
written with commas between them. -/
def configured (d : Conf) (n : Str) : Attr → Str
  | .expire => d.flag (userVar n) "expiredate".toList
  | .inactive => d.flag (userVar n) "inactive".toList
  | .uid => d.flag (userVar n) "uid".toList
  | .gid => d.flag (userVar n) "gid".toList
  | .comment => d.flag (userVar n) "comment".toList
  | .shell => d.flag (userVar n) "shell".toList
  | .groups => join [','] (words (d.flag (userVar n) "groups".toList))
  | .home => d.flag (userVar n) "home".toList

/-- The flag is set for the user. -/
def HasFlag (d : Conf) (n : Str) (f : String) : Prop :=
  f.toList ∈ words (d.flag (userVar n) "flags".toList)

instance (d : Conf) (n : Str) (f : String) : Decidable (HasFlag d n f) := by
  unfold HasFlag; infer_instance

/-- A password is configured. -/
def HasPassword (d : Conf) (n : Str) : Prop :=
  d.flag (userVar n) "password".toList ≠ [] ∨ HasFlag d n "allow-empty-password"

instance (d : Conf) (n : Str) : Decidable (HasPassword d n) := by
  unfold HasPassword; infer_instance

/-- The encrypted password that is configured. -/
def passwordFor (d : Conf) (n : Str) : Str :=
  if HasFlag d n "clear-text-password" then d.hash d.salt (d.flag (userVar n) "password".toList)
  else d.flag (userVar n) "password".toList

/-- The account `u'` is what the configuration asks for if the account was `u` before (`none`: there
was none). -/
structure UserDone (d : Conf) (n : Str) (u : Option User) (u' : User) : Prop where
  set : ∀ k, configured d n k ≠ [] → u'.attr k = some (configured d n k)
  kept : ∀ k, configured d n k = [] → u'.attr k = u.bind (·.attr k)
  password : HasPassword d n → u'.password = some (passwordFor d n)
  passwordKept : ¬ HasPassword d n → u'.password = u.bind (·.password)
  force : HasFlag d n "force-passwd-change" → u'.mustChange = true
  noforce : ¬ HasFlag d n "force-passwd-change" →
    u'.mustChange = if HasPassword d n then false else (u.map (·.mustChange)).getD false
  made : u'.made = (u.map (·.made)).getD
      ((if HasFlag d n "system" then ["--system".toList] else []) ++
        (if HasFlag d n "no-create-home" then ["--no-create-home".toList] else []) ++
        (if HasFlag d n "create-home" then ["--create-home".toList] else []))

/-- The same for a group. -/
structure GroupDone (d : Conf) (n : Str) (g : Option Group) (g' : Group) : Prop where
  set : d.flag (groupVar n) "gid".toList ≠ [] → g'.gid = some (d.flag (groupVar n) "gid".toList)
  kept : d.flag (groupVar n) "gid".toList = [] → g'.gid = g.bind (·.gid)
  system : g'.system = (g.map (·.system)).getD
    (decide ("system".toList ∈ words (d.flag (groupVar n) "flags".toList)))

end Isar.Accounts
