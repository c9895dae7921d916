import Verif.Py.Str
/-!
# Model of `meta/classes-recipe/image-account-extension.bbclass`

The commands are run by a parameter; the model says which commands are run, in which order, with
which arguments and input.
-/

namespace Isar.Accounts
open Py

/-- A call of `bb.process.run`: the arguments and the input. -/
structure Cmd where
  argv : List Str
  input : Str
deriving DecidableEq, Repr

/-- What the code reads from the datastore: `flag var name` is `d.getVarFlag(var, name) or ""`.
`hash salt password` is the output of `openssl passwd -6`, without white space around it; `salt` is
the first 15 digits of the sha256 sum of `SOURCE_DATE_EPOCH`. -/
structure Conf where
  groups : Str
  users : Str
  rootfs : Str
  flag : Str → Str → Str
  salt : Str
  hash : Str → Str → Str

/-- `chroot`, image-account-extension.bbclass:36-37 and 74-75. -/
def chroot (d : Conf) : List Str := ["sudo".toList, "-E".toList, "chroot".toList, d.rootfs]

/-- `any(line.startswith("{}:".format(entry)) for line in file)`,
image-account-extension.bbclass:43-44 and 81-82. -/
def exists_ (entry : Str) (lines : List Str) : Bool :=
  lines.any fun l => startsWith l (entry ++ [':'])

/-- `GROUP_{entry}`, image-account-extension.bbclass:41. -/
def groupVar (entry : Str) : Str := "GROUP_".toList ++ entry
/-- `USER_{entry}`, image-account-extension.bbclass:79. -/
def userVar (entry : Str) : Str := "USER_".toList ++ entry

/-- `add_user_option` and the option for the gid: the option with its value, if there is one.
image-account-extension.bbclass:46-49 and 84-88. -/
def option (d : Conf) (var name flag : Str) : List Str :=
  if d.flag var flag = [] then [] else [name, d.flag var flag]

/-- The commands for one entry of `GROUPS`; image-account-extension.bbclass:39-59. -/
def groupCommands (d : Conf) (entry : Str) (ex : Bool) : List Cmd :=
  let args := option d (groupVar entry) "--gid".toList "gid".toList
  if ex then
    if args = [] then []
    else [⟨chroot d ++ "/usr/sbin/groupmod".toList :: args ++ [entry], []⟩]
  else
    let sys := if "system".toList ∈ words (d.flag (groupVar entry) "flags".toList) then
      ["--system".toList] else []
    [⟨chroot d ++ "/usr/sbin/groupadd".toList :: args ++ sys ++ [entry], []⟩]

/-- The options that are the same for new and for existing users;
image-account-extension.bbclass:90-100. -/
def commonArgs (d : Conf) (entry : Str) : List Str :=
  let o := option d (userVar entry)
  let groups := words (d.flag (userVar entry) "groups".toList)
  o "--expire".toList "expiredate".toList ++ o "--inactive".toList "inactive".toList ++
  o "--uid".toList "uid".toList ++ o "--gid".toList "gid".toList ++
  o "--comment".toList "comment".toList ++ o "--shell".toList "shell".toList ++
  if groups = [] then [] else ["--groups".toList, join [','] groups]

/-- The flags of a user; image-account-extension.bbclass:102. -/
def userFlags (d : Conf) (entry : Str) : List Str := words (d.flag (userVar entry) "flags".toList)

/-- The command that creates or changes the user; image-account-extension.bbclass:104-121. -/
def accountCommands (d : Conf) (entry : Str) (ex : Bool) : List Cmd :=
  let flags := userFlags d entry
  let pick (f o : Str) : List Str := if f ∈ flags then [o] else []
  if ex then
    let args := commonArgs d entry ++ option d (userVar entry) "--home".toList "home".toList ++
      if d.flag (userVar entry) "home".toList = [] then [] else ["--move-home".toList]
    if args = [] then [] else [⟨chroot d ++ "/usr/sbin/usermod".toList :: args ++ [entry], []⟩]
  else
    let args := commonArgs d entry ++ option d (userVar entry) "--home-dir".toList "home".toList ++
      pick "system".toList "--system".toList ++
      pick "no-create-home".toList "--no-create-home".toList ++
      pick "create-home".toList "--create-home".toList
    [⟨chroot d ++ "/usr/sbin/useradd".toList :: args ++ [entry], []⟩]

/-- The command that sets the password; image-account-extension.bbclass:124-140. -/
def passwordCommands (d : Conf) (entry : Str) : List Cmd :=
  let flags := userFlags d entry
  let password := d.flag (userVar entry) "password".toList
  if password ≠ [] ∨ "allow-empty-password".toList ∈ flags then
    let p := if "clear-text-password".toList ∈ flags then d.hash d.salt password else password
    [⟨chroot d ++ ["/usr/sbin/chpasswd".toList, "-e".toList], entry ++ ':' :: p⟩]
  else []

/-- The command that makes the user choose a new password; image-account-extension.bbclass:142-143. -/
def expireCommands (d : Conf) (entry : Str) : List Cmd :=
  if "force-passwd-change".toList ∈ userFlags d entry then
    [⟨chroot d ++ ["/usr/bin/passwd".toList, "--expire".toList, entry], []⟩] else []

/-- The commands for one entry of `USERS`; image-account-extension.bbclass:77-143. -/
def userCommands (d : Conf) (entry : Str) (ex : Bool) : List Cmd :=
  accountCommands d entry ex ++ passwordCommands d entry ++ expireCommands d entry

/-- Runs commands until one fails (`bb.process.run` raises an exception then). -/
def runAll {S : Type} (exec : Cmd → S → Option S) : List Cmd → S → Option S
  | [], s => some s
  | c :: cs, s =>
    match exec c s with
    | none => none
    | some t => runAll exec cs t

/-- The loops over the entries: `lines` are the lines of `/etc/group` or `/etc/passwd`, which are
read anew for each entry.  image-account-extension.bbclass:39-59 and 77-143. -/
def loop {S : Type} (exec : Cmd → S → Option S) (lines : S → List Str)
    (cmds : Str → Bool → List Cmd) : List Str → S → Option S
  | [], s => some s
  | n :: ns, s =>
    match runAll exec (cmds n (exists_ n (lines s))) s with
    | none => none
    | some t => loop exec lines cmds ns t

/-- `image_postprocess_accounts`, image-account-extension.bbclass:148-151, with
`image_create_groups` (26-59) and `image_create_users` (62-143). -/
def createAccounts {S : Type} (exec : Cmd → S → Option S) (groupLines userLines : S → List Str)
    (d : Conf) (s : S) : Option S :=
  match loop exec groupLines (groupCommands d) (words d.groups) s with
  | none => none
  | some t => loop exec userLines (userCommands d) (words d.users) t

end Isar.Accounts
