import Verif.Py.Str
/-!
# Model of `scripts/lib/wic/ksparser.py` and of the size computations of `partition.py`

`shlex.split` and the part of `argparse` that the parser relies on (Python 3.11) are modelled
too.  Simplifications: ASCII digits only; a bare `--` word and `-h`/`--help` count as errors;
error messages are left out; floating point arguments stay strings, judged by the parameter
`okFloat` (a number that is not below 1.0), and the arithmetic on them is exact.
-/

namespace Isar.Wic.Ks

open Py

/-! ## int() -/

/-- The value of a digit string, in which single underscores may separate digits. -/
def digitsVal : Bool → Nat → Str → Option Nat
  | prevDigit, acc, [] => if prevDigit then some acc else none
  | prevDigit, acc, c :: cs =>
    if c.isDigit then digitsVal true (10 * acc + digitVal c) cs
    else if c = '_' ∧ prevDigit then digitsVal false acc cs
    else none

/-- Python's `int(arg)` for strings. -/
def pyInt (s : Str) : Option Int :=
  match strip s with
  | '-' :: ds => (digitsVal false 0 ds).map fun (n : Nat) => -(n : Int)
  | '+' :: ds => (digitsVal false 0 ds).map fun (n : Nat) => (n : Int)
  | ds => (digitsVal false 0 ds).map fun (n : Nat) => (n : Int)

/-- The value of a hexadecimal digit, if it is one. -/
def hexVal (c : Char) : Option Nat :=
  if c.isDigit then some (c.toNat - 48)
  else if 97 ≤ c.toNat ∧ c.toNat ≤ 102 then some (c.toNat - 87)
  else if 65 ≤ c.toNat ∧ c.toNat ≤ 70 then some (c.toNat - 55)
  else none

/-- As `digitsVal`, in base 16. -/
def hexDigitsVal : Bool → Nat → Str → Option Nat
  | prevDigit, acc, [] => if prevDigit then some acc else none
  | prevDigit, acc, c :: cs =>
    match hexVal c with
    | some d => hexDigitsVal true (16 * acc + d) cs
    | none => if c = '_' ∧ prevDigit then hexDigitsVal false acc cs else none

/-- Digits after an optional `0x`; `int` allows one underscore behind the prefix. -/
def hexUnsigned : Str → Option Nat
  | '0' :: x :: ds =>
    if x = 'x' ∨ x = 'X' then
      match ds with
      | '_' :: ds => hexDigitsVal false 0 ds
      | ds => hexDigitsVal false 0 ds
    else hexDigitsVal false 0 ('0' :: x :: ds)
  | ds => hexDigitsVal false 0 ds

/-- Python's `int(arg, 16)`. -/
def pyIntHex (s : Str) : Option Int :=
  match strip s with
  | '-' :: ds => (hexUnsigned ds).map fun (n : Nat) => -(n : Int)
  | '+' :: ds => (hexUnsigned ds).map fun (n : Nat) => (n : Int)
  | ds => (hexUnsigned ds).map fun (n : Nat) => (n : Int)

/-! ## Argument types -/

/-- The multiplication with the unit (`ksparser.py:71-85`). -/
def applySuffix (inBytes : Bool) (suffix : Str) (size : Int) : Option Int :=
  if inBytes = true ∧ (suffix = ['s'] ∨ suffix = ['S']) then some (size * 512)
  else
    let mult : Int := if inBytes then 1024 else 1
    if suffix = ['k'] ∨ suffix = ['K'] then some (size * mult)
    else if suffix = ['M'] then some (size * mult * 1024)
    else if suffix = ['G'] then some (size * mult * 1024 * 1024)
    else none

/-- `sizetype(default, size_in_bytes)(arg)` (`ksparser.py:54-86`); `none` is
`ArgumentTypeError`. -/
def sizetype (default : Str) (inBytes : Bool) (arg : Str) : Option Int :=
  match pyInt arg with
  | some size => applySuffix inBytes default size
  | none =>
    match pyInt arg.dropLast with
    | some size => applySuffix inBytes (arg.drop (arg.length - 1)) size
    | none => none

/-- `systemidtype` (`ksparser.py:114-130`): the argument is returned unchanged. -/
def systemidtype (arg : Str) : Option Str :=
  match pyIntHex arg with
  | none => none
  | some r => if r ≤ 0 ∨ r > 0xff then none else some arg

/-! ## expand_line -/

/-- The character class `[^{}@\n\t :]` of `__expand_var_regexp__` (`ksparser.py:28`). -/
def keyChar (c : Char) : Bool :=
  !(c = '{' || c = '}' || c = '@' || c = '\n' || c = '\t' || c = ' ' || c = ':')

/-- The regular expression at the beginning of the string: the key and the rest. -/
def matchRef : Str → Option (Str × Str)
  | '$' :: '{' :: s =>
    match s.dropWhile keyChar with
    | '}' :: rest => if s.takeWhile keyChar = [] then none else some (s.takeWhile keyChar, rest)
    | _ => none
  | _ => none

/-- `__expand_var_regexp__.search(line)`: what precedes the first match, its key, what
follows. -/
def searchRef : Str → Option (Str × Str × Str)
  | [] => none
  | c :: s =>
    match matchRef (c :: s) with
    | some (k, rest) => some ([], k, rest)
    | none => (searchRef s).map fun (a, k, r) => (c :: a, k, r)

/-- `expand_line` (`ksparser.py:30-40`); `none` if the loop does not end within `fuel` rounds. -/
def expandLine (env : Str → Option Str) : Nat → Str → Option Str
  | 0, _ => none
  | fuel + 1, line =>
    match searchRef line with
    | none => some line
    | some (a, k, r) =>
      match env k with
      | none => some line
      | some v => expandLine env fuel (a ++ v ++ r)

/-! ## shlex.split -/

/-- The states of `shlex.read_token`: between words, in a word, in quotes, after a backslash in
a word, after a backslash in double quotes. -/
inductive ShState where
  | blank | word | squote | dquote | escWord | escDquote
  deriving DecidableEq, Repr

/-- `shlex.whitespace` -/
def shWs (c : Char) : Bool := c = ' ' || c = '\t' || c = '\r' || c = '\n'

/-- `shlex.split(s)` (posix mode, `whitespace_split`, no comments).  `tok` is the word read so
far, `quoted` tells whether it contained quotes. -/
def shlexGo : ShState → Str → Bool → Str → Option (List Str)
  | .blank, _, _, [] => some []
  | .word, tok, quoted, [] => some (if tok = [] ∧ quoted = false then [] else [tok])
  | _, _, _, [] => none
  | .blank, _, _, c :: cs =>
    if shWs c then shlexGo .blank [] false cs
    else if c = '\\' then shlexGo .escWord [] false cs
    else if c = '\'' then shlexGo .squote [] true cs
    else if c = '"' then shlexGo .dquote [] true cs
    else shlexGo .word [c] false cs
  | .word, tok, quoted, c :: cs =>
    if shWs c then
      if tok = [] ∧ quoted = false then shlexGo .blank [] false cs
      else (shlexGo .blank [] false cs).map (tok :: ·)
    else if c = '\\' then shlexGo .escWord tok quoted cs
    else if c = '\'' then shlexGo .squote tok true cs
    else if c = '"' then shlexGo .dquote tok true cs
    else shlexGo .word (tok ++ [c]) quoted cs
  | .squote, tok, quoted, c :: cs =>
    if c = '\'' then shlexGo .word tok quoted cs else shlexGo .squote (tok ++ [c]) quoted cs
  | .dquote, tok, quoted, c :: cs =>
    if c = '"' then shlexGo .word tok quoted cs
    else if c = '\\' then shlexGo .escDquote tok quoted cs
    else shlexGo .dquote (tok ++ [c]) quoted cs
  | .escWord, tok, quoted, c :: cs => shlexGo .word (tok ++ [c]) quoted cs
  | .escDquote, tok, quoted, c :: cs =>
    if c ≠ '\\' ∧ c ≠ '"' then shlexGo .dquote (tok ++ ['\\', c]) quoted cs
    else shlexGo .dquote (tok ++ [c]) quoted cs

@[inherit_doc shlexGo]
def shlexSplit (s : Str) : Option (List Str) := shlexGo .blank [] false s

/-! ## argparse -/

/-- How many arguments an option takes: none, one, or one or more. -/
inductive Arity where
  | flag | one | many
  deriving DecidableEq, Repr

/-- The options of `part` (`ksparser.py:148-191`) with their canonical names. -/
def partOpts : List (Str × Arity) :=
  [("--active".toList, .flag), ("--align".toList, .one), ("--offset".toList, .one),
   ("--exclude-path".toList, .many), ("--include-path".toList, .many),
   ("--change-directory".toList, .one), ("--extra-space".toList, .one),
   ("--fsoptions".toList, .one), ("--fspassno".toList, .one), ("--fstype".toList, .one),
   ("--mkfs-extraopts".toList, .one), ("--label".toList, .one), ("--use-label".toList, .flag),
   ("--no-table".toList, .flag), ("--ondisk".toList, .one), ("--ondrive".toList, .one),
   ("--overhead-factor".toList, .one), ("--part-name".toList, .one),
   ("--part-type".toList, .one), ("--rootfs-dir".toList, .one), ("--type".toList, .one),
   ("--hidden".toList, .flag), ("--size".toList, .one), ("--fixed-size".toList, .one),
   ("--source".toList, .one), ("--sourceparams".toList, .one), ("--system-id".toList, .one),
   ("--use-uuid".toList, .flag), ("--uuid".toList, .one), ("--fsuuid".toList, .one),
   ("--no-fstab-update".toList, .flag), ("--mbr".toList, .flag), ("--help".toList, .flag)]

/-- The options of `bootloader` (`ksparser.py:193-199`). -/
def bootloaderOpts : List (Str × Arity) :=
  [("--append".toList, .one), ("--configfile".toList, .one), ("--ptable".toList, .one),
   ("--timeout".toList, .one), ("--source".toList, .one), ("--help".toList, .flag)]

/-- What a word on the command line is to `argparse` (`_parse_optional`). -/
inductive Token where
  | opt (name : Str) (arity : Arity) (explicit : Option Str)
  | arg
  | bad
  deriving DecidableEq, Repr

/-- `arg.split('=', 1)`: the part before the first `=` and, if there is one, the part behind. -/
def splitEq : Str → Str × Option Str
  | [] => ([], none)
  | c :: s => if c = '=' then ([], some s) else
    let r := splitEq s
    (c :: r.1, r.2)

/-- `_negative_number_matcher`: `^-\d+$|^-\d*\.\d+$`. -/
def isNegNumber : Str → Bool
  | '-' :: s =>
    (s ≠ [] && s.all Char.isDigit) ||
    (match s.dropWhile Char.isDigit with
      | '.' :: t => t ≠ [] && t.all Char.isDigit
      | _ => false)
  | _ => false

/-- `_parse_optional` and `_get_option_tuples` for options that start with `--`. -/
def resolve (opts : List (Str × Arity)) (t : Str) : Token :=
  match t with
  | '-' :: _ :: _ =>
    match opts.find? (fun o => o.1 = t) with
    | some o => .opt o.1 o.2 none
    | none =>
      let e := splitEq t
      match if e.2.isSome then opts.find? (fun o => o.1 = e.1) else none with
      | some o => .opt o.1 o.2 e.2
      | none =>
        match if startsWith t "--".toList then opts.filter (fun o => startsWith o.1 e.1) else [] with
        | [o] => .opt o.1 o.2 e.2
        | _ :: _ :: _ => .bad
        | [] => if isNegNumber t || ' ' ∈ t then .arg else .bad
  | _ => .arg

/-- One use of an option. -/
structure Occ where
  opt : Str
  vals : List Str
  deriving DecidableEq, Repr

/-- Where the scan of the words is: between options, at the argument of an option, or among the
arguments of an option that takes several. -/
inductive Mode where
  | idle
  | need (o : Str)
  | many (o : Str) (vals : List Str)
  deriving DecidableEq, Repr

/-- A word that is not an argument of the preceding option: the use of an option it completes,
the positional argument it is, and the next mode. -/
def startWord (opts : List (Str × Arity)) (t : Str) : Option (List Occ × List Str × Mode) :=
  match resolve opts t with
  | .bad => none
  | .arg => some ([], [t], .idle)
  | .opt o .flag none => some ([⟨o, []⟩], [], .idle)
  | .opt _ .flag (some _) => none
  | .opt o .one none => some ([], [], .need o)
  | .opt o .many none => some ([], [], .many o [])
  | .opt o _ (some v) => some ([⟨o, [v]⟩], [], .idle)

/-- `parse_known_args` over the words: the uses of options in order and the positional
arguments. -/
def scanArgs (opts : List (Str × Arity)) : Mode → List Str → Option (List Occ × List Str)
  | .idle, [] => some ([], [])
  | .need _, [] => none
  | .many o vs, [] => if vs = [] then none else some ([⟨o, vs⟩], [])
  | .idle, t :: ts =>
    match startWord opts t with
    | none => none
    | some (os, ps, m) => (scanArgs opts m ts).map fun r => (os ++ r.1, ps ++ r.2)
  | .need o, t :: ts =>
    match resolve opts t with
    | .arg => (scanArgs opts .idle ts).map fun r => (⟨o, [t]⟩ :: r.1, r.2)
    | _ => none
  | .many o vs, t :: ts =>
    match resolve opts t with
    | .arg => scanArgs opts (.many o (vs ++ [t])) ts
    | _ =>
      if vs = [] then none
      else
        match startWord opts t with
        | none => none
        | some (os, ps, m) => (scanArgs opts m ts).map fun r => (⟨o, vs⟩ :: os ++ r.1, ps ++ r.2)

/-- The arguments of the last use of an option. -/
def lastVal (occs : List Occ) (o : Str) : Option Str :=
  ((occs.filter (fun x => x.opt = o)).getLast?).bind fun x => x.vals.head?

/-- A flag was given. -/
def hasFlag (occs : List Occ) (o : Str) : Bool := occs.any (fun x => x.opt = o)

/-- The choices of `--fstype` (`ksparser.py:160-162`). -/
def fstypes : List Str :=
  ["ext2", "ext3", "ext4", "btrfs", "squashfs", "vfat", "msdos", "erofs", "swap", "none"].map
    String.toList

/-- The types and choices of the options of `part` (`ksparser.py:149-191`): is the use of an
option acceptable? -/
def okOcc (okFloat : Str → Bool) (x : Occ) : Bool :=
  match x.vals with
  | [v] =>
    if x.opt = "--align".toList then (pyInt v).isSome
    else if x.opt = "--offset".toList then (sizetype ['K'] true v).isSome
    else if x.opt = "--extra-space".toList ∨ x.opt = "--size".toList ∨
        x.opt = "--fixed-size".toList then (sizetype ['M'] false v).isSome
    else if x.opt = "--overhead-factor".toList then okFloat v
    else if x.opt = "--fstype".toList then fstypes.contains v
    else if x.opt = "--type".toList then v = "primary".toList || v = "logical".toList
    else if x.opt = "--system-id".toList then (systemidtype v).isSome
    else true
  | _ => x.opt ≠ "--help".toList

/-- `--size` or `--fixed-size` used with a value other than the default 0: this is what the
mutually exclusive group looks at (`ksparser.py:180-182`). -/
def nonzeroUse (occs : List Occ) (o : Str) : Bool :=
  occs.any fun x => x.opt = o && (x.vals.head?.bind (sizetype ['M'] false)) ≠ some 0

/-- The result of parsing a `part` line: the attributes that are checked or changed later; all
others are determined by `occs`. -/
structure Parsed where
  mountpoint : Option Str := none
  occs : List Occ := []
  fstype : Str := "vfat".toList
  label : Str := []
  fsuuid : Str := []
  useLabel : Bool := false
  size : Int := 0
  fixedSize : Int := 0
  overheadFactor : Option Str := none
  extraSpace : Option Int := none
  deriving DecidableEq, Repr

/-- `parser.parse_args(line_args)` for the words behind `part`. -/
def parsePart (okFloat : Str → Bool) (ws : List Str) : Option Parsed :=
  match scanArgs partOpts .idle ws with
  | none => none
  | some (occs, pos) =>
    if pos.length > 1 then none
    else if !occs.all (okOcc okFloat) then none
    else if nonzeroUse occs "--size".toList ∧ nonzeroUse occs "--fixed-size".toList then none
    else
      some
        { mountpoint := pos.head?
          occs
          fstype := (lastVal occs "--fstype".toList).getD "vfat".toList
          label := (lastVal occs "--label".toList).getD []
          fsuuid := (lastVal occs "--fsuuid".toList).getD []
          useLabel := hasFlag occs "--use-label".toList
          size := ((lastVal occs "--size".toList).bind (sizetype ['M'] false)).getD 0
          fixedSize := ((lastVal occs "--fixed-size".toList).bind (sizetype ['M'] false)).getD 0
          overheadFactor := lastVal occs "--overhead-factor".toList
          extraSpace := (lastVal occs "--extra-space".toList).bind (sizetype ['M'] false) }

/-! ## The checks of `_parse` -/

/-- The checks on a `part` line and its defaults (`ksparser.py:226-281`); `lineArgs` are the
words of the line, `none` is `KickStartError`. -/
def checkPart (lineArgs : List Str) (p : Parsed) : Option Parsed :=
  if p.fstype = "squashfs".toList ∧ p.fsuuid ≠ [] then none
  else if p.fstype = "squashfs".toList ∧ p.label ≠ [] then none
  else if p.fstype = "erofs".toList ∧ p.label ≠ [] then none
  else if (p.fstype = "msdos".toList ∨ p.fstype = "vfat".toList) ∧ p.fsuuid ≠ [] ∧
      (if startsWith (upper p.fsuuid) "0X".toList then p.fsuuid.length > 10
        else p.fsuuid.length > 8) then none
  else if p.useLabel = true ∧ p.label = [] then none
  else if p.fixedSize ≠ 0 then
    if p.overheadFactor.isSome ∨ (p.extraSpace.getD 0 ≠ 0) then none else some p
  else
    some { p with
      overheadFactor := if "--overhead-factor".toList ∈ lineArgs then p.overheadFactor
        else some "1.3".toList
      extraSpace := if "--extra-space".toList ∈ lineArgs then p.extraSpace else some 10240 }

/-- The attributes of the boot loader line that later code uses. -/
structure Bootloader where
  append : Str := []
  ptable : Str := "msdos".toList
  occs : List Occ := []
  deriving DecidableEq, Repr

/-- `parser.parse_args(line_args)` for the words behind `bootloader` (`ksparser.py:193-199`). -/
def parseBootloader (ws : List Str) : Option Bootloader :=
  match scanArgs bootloaderOpts .idle ws with
  | none => none
  | some (occs, pos) =>
    if pos ≠ [] ∨ hasFlag occs "--help".toList then none
    else if occs.any (fun x => x.opt = "--timeout".toList && (x.vals.head?.bind pyInt).isNone) then
      none
    else if occs.any (fun x => x.opt = "--ptable".toList &&
        !(["msdos", "gpt", "gpt-hybrid"].map String.toList).contains (x.vals.headD [])) then none
    else some
      { append := (lastVal occs "--append".toList).getD []
        ptable := (lastVal occs "--ptable".toList).getD "msdos".toList
        occs }

/-- What the parser depends on. -/
structure World where
  /-- `get_bitbake_var` -/
  var : Str → Option Str
  /-- the lines of a file -/
  file : Str → Option (List Str)
  /-- `cannedpathtype` -/
  canned : Str → Option Str
  /-- a floating point number that is not below 1.0 (`overheadtype`) -/
  okFloat : Str → Bool
  /-- bound on the rounds of `expand_line` -/
  expandFuel : Nat

/-- The attributes of `KickStart` (`ksparser.py:140-143`); a partition carries its number. -/
structure KState where
  partitions : List (Parsed × Nat) := []
  bootloader : Option Bootloader := none
  partnum : Nat := 0
  deriving DecidableEq, Repr

/-- `' '.join(filter(None, (append, append_var)))` (`ksparser.py:291-294`). -/
def addAppend (w : World) (b : Bootloader) : Bootloader :=
  match w.var "APPEND".toList with
  | none => b
  | some v =>
    if v = [] then b
    else { b with append := join [' '] ([b.append, v].filter (· ≠ [])) }

/-- What a line asks for after parsing. -/
inductive Command where
  | part (lineArgs : List Str) (p : Parsed)
  | bootloader (b : Bootloader)
  | incl (path : Str)
  | nothing
  deriving DecidableEq, Repr

/-- `parser.parse_args(line_args)`; the outer `none` is an error. -/
def parseArgs (w : World) (ws : List Str) : Option Command :=
  match ws with
  | [] => some .nothing
  | c :: args =>
    if c = "part".toList then (parsePart w.okFloat args).map (.part ws)
    else if c = "bootloader".toList then (parseBootloader args).map .bootloader
    else if c = "include".toList then
      match args with
      | [p] => if resolve [("--help".toList, .flag)] p = .arg then (w.canned p).map .incl else none
      | _ => none
    else none

/-- Reading a line (`ksparser.py:216-225`): comments and empty lines, expansion, splitting and
parsing.  The branches at 226, 285 and 287 look at the text of the line; what the line was
parsed as and its text have to agree for it to have an effect. -/
def readLine (w : World) (raw : Str) : Option Command :=
  let line := strip raw
  if line = [] ∨ startsWith line ['#'] then some .nothing
  else
    match expandLine w.var w.expandFuel line with
    | none => none
    | some line =>
      match shlexSplit line with
      | none => none
      | some ws =>
        match parseArgs w ws with
        | none => none
        | some (.part a p) => some (if startsWith line "part".toList then .part a p else .nothing)
        | some (.incl p) =>
          some (if startsWith line "include".toList then .incl p else .nothing)
        | some (.bootloader b) =>
          some (if startsWith line "bootloader".toList then .bootloader b else .nothing)
        | some .nothing => some .nothing

/-- The effect of a line that is not an `include` (`ksparser.py:226-284, 287-298`). -/
def applyCommand (w : World) (s : KState) : Command → Option KState
  | .part a p =>
    (checkPart a p).map fun p =>
      { s with partitions := s.partitions ++ [(p, s.partnum + 1)], partnum := s.partnum + 1 }
  | .bootloader b =>
    if s.bootloader.isNone then some { s with bootloader := some (addAppend w b) } else none
  | .incl _ => some s
  | .nothing => some s

/-- The loop of `_parse` (`ksparser.py:215-298`); `rec` is `_parse` for included files. -/
def parseLinesWith (w : World) (rec : Str → KState → Option KState) :
    List Str → KState → Option KState
  | [], s => some s
  | l :: ls, s =>
    match readLine w l with
    | none => none
    | some (.incl p) =>
      match rec p s with
      | none => none
      | some s => parseLinesWith w rec ls s
    | some c =>
      match applyCommand w s c with
      | none => none
      | some s => parseLinesWith w rec ls s

/-- `_parse` (`ksparser.py:209-298`); `none` is an error, or that the nesting of includes is
deeper than `fuel`. -/
def parseFile (w : World) : Nat → Str → KState → Option KState
  | 0, _, _ => none
  | fuel + 1, path, s =>
    match w.file path with
    | none => none
    | some lines => parseLinesWith w (parseFile w fuel) lines s

/-- `KickStart(confpath)` (`ksparser.py:138-207`): the partitions and the boot loader. -/
def kickStart (w : World) (fuel : Nat) (path : Str) : Option (List (Parsed × Nat) × Bootloader) :=
  (parseFile w fuel path {}).map fun s => (s.partitions, s.bootloader.getD {})

/-! ## Sizes (`partition.py`) -/

/-- `get_extra_block_count` (`partition.py:69-89`). -/
def extraBlockCount (size current : Int) : Int :=
  if size = 0 then 0 else if size > current then size - current else 0

/-- `get_rootfs_size` (`partition.py:91-116`); the overhead factor is `num / den`; `none` is
`WicError`. -/
def rootfsSize (size fixedSize extraSpace : Int) (num den : Nat) (actual : Int) : Option Int :=
  if fixedSize ≠ 0 then
    if actual > fixedSize then none else some fixedSize
  else
    let extra := extraBlockCount size actual
    let extra := if extra < extraSpace then extraSpace else extra
    some (((actual + extra) * num).tdiv den)

/-- `disk_size` (`partition.py:118-125`). -/
def diskSize (size fixedSize : Int) : Int := if fixedSize ≠ 0 then fixedSize else size

/-- The check at the end of `prepare` (`partition.py:202-205`). -/
def checkFixed (size fixedSize : Int) : Bool := !(fixedSize ≠ 0 && size > fixedSize)

end Isar.Wic.Ks
