import Verif.Bb.UrlModel
import Verif.Meta.FeaturesModel
import Verif.Meta.WksModel
import Verif.Py.Path
/-!
# Unpacking sources

Model of bitbake/lib/bb/fetch2/__init__.py: `FetchMethod.unpack` (1502-1624) and `Fetch.unpack` (1963-1986), of
fetch2/local.py: `localfile_searchpaths`, and of meta/classes-global/base.bbclass: `do_unpack`.  The file system is a list
of files with the components of their paths, the first entry for a path counts.  Simplifications: no links and no empty
directories, so that a directory is there if a file is below it; the part of an `.rpm` that is named with `extract` is not
unpacked in turn; what the programs do with the content of a file is a parameter.
-/

namespace Bb.Unpack

open Py

abbrev Fs := List (List Str × Str)

/-- What is known of a URL: where the file is, whether the type is `file`, its path, its parameters. -/
structure Ud where
  file : Str
  isFile : Bool
  path : Str
  parm : Str → Option Str

/-- What is to be run. -/
inductive Cmd where
  | tar (tool : Str) (strip : Option Str) (file : Str)
  | decompress (tool file out : Str)
  | seven (file : Str)
  | unzip (dos : Bool) (file : Str)
  | rpm (file : Str) (part : Option Str)
  | deb (strip : Option Str) (file data : Str)
  | cp (file dir : Str)
deriving DecidableEq

/-- How a file is unpacked. -/
inductive Kind where
  | tar (tool : Str)
  | decompress (tool : Str)
  | seven
  | zip
  | rpm
  | deb
deriving DecidableEq

/-- fetch2/__init__.py:1523-1549, 1559, 1567: the suffixes in the order of the tests. -/
def kinds : List (Str × Kind) :=
  [(".tar".toList, .tar []),
   (".tgz".toList, .tar "gzip".toList), (".tar.gz".toList, .tar "gzip".toList), (".tar.Z".toList, .tar "gzip".toList),
   (".tbz".toList, .tar "bzip2".toList), (".tbz2".toList, .tar "bzip2".toList), (".tar.bz2".toList, .tar "bzip2".toList),
   (".gz".toList, .decompress "gzip".toList), (".Z".toList, .decompress "gzip".toList), (".z".toList, .decompress "gzip".toList),
   (".bz2".toList, .decompress "bzip2".toList),
   (".txz".toList, .tar "xz".toList), (".tar.xz".toList, .tar "xz".toList),
   (".xz".toList, .decompress "xz".toList),
   (".tar.lz".toList, .tar "lzip".toList),
   (".lz".toList, .decompress "lzip".toList),
   (".tar.7z".toList, .tar "7z".toList),
   (".7z".toList, .seven),
   (".tzst".toList, .tar "zstd".toList), (".tar.zst".toList, .tar "zstd".toList),
   (".zst".toList, .decompress "zstd".toList),
   (".zip".toList, .zip), (".jar".toList, .zip),
   (".rpm".toList, .rpm), (".srpm".toList, .rpm),
   (".deb".toList, .deb), (".ipk".toList, .deb)]

/-- fetch2/__init__.py:1523-1567: the first suffix of the list. -/
def kindOf (file : Str) : Option Kind := (kinds.find? fun k => endsWith file k.1).map (·.2)

/-- `os.path.splitext(s)[1]` -/
def ext (s : Str) : Str := s.drop (splitextRoot s).length

/-- fetch2/__init__.py:1512-1516: where a compressed file goes to. -/
def outFile (rootdir file : Str) : Str :=
  if ext file ∈ [".gz".toList, ".bz2".toList, ".Z".toList, ".xz".toList, ".lz".toList] then
    pathJoin rootdir (basename (splitextRoot file))
  else file

/-- fetch2/__init__.py:1568-1578: the part of a package that has the files. -/
def dataFile (listing : List Str) : Option Str := listing.find? fun l => startsWith l "data.tar.".toList

/-- What may go wrong before a command is run. -/
inductive Err where
  | fatal
  | unpack
deriving DecidableEq

/-- fetch2/__init__.py:1506-1510, 1550-1554: a parameter that is a boolean. -/
def boolParm (v : Option Str) (default : Bool) : Except Err Bool :=
  match Isar.Features.toBoolean v with
  | .ok (some b) => .ok b
  | .ok none => .ok default
  | .error _ => .error .fatal

/-- fetch2/__init__.py:1523-1579: the command for one kind. -/
def commandOf (listing : Str → List Str) (ud : Ud) (rootdir : Str) : Kind → Except Err Cmd
  | .tar t => .ok (.tar t (ud.parm "striplevel".toList) ud.file)
  | .decompress t => .ok (.decompress t ud.file (outFile rootdir ud.file))
  | .seven => .ok (.seven ud.file)
  | .zip =>
    match boolParm (ud.parm "dos".toList) false with
    | .ok d => .ok (.unzip d ud.file)
    | .error e => .error e
  | .rpm => .ok (.rpm ud.file (ud.parm "extract".toList))
  | .deb =>
    match dataFile (listing ud.file) with
    | some f => .ok (.deb (ud.parm "striplevel".toList) ud.file f)
    | none => .error .unpack

/-- fetch2/__init__.py:1519-1579: the command, if the file is to be unpacked and if its suffix is known. -/
def command (listing : Str → List Str) (ud : Ud) (rootdir : Str) (unpack : Bool) : Except Err (Option Cmd) :=
  if unpack then
    match kindOf ud.file with
    | none => .ok none
    | some k =>
      match commandOf listing ud rootdir k with
      | .ok c => .ok (some c)
      | .error e => .error e
  else .ok none

/-- fetch2/__init__.py:1581-1592: where it is unpacked. -/
def unpackDir (realpath : Str → Str) (ud : Ud) (rootdir : Str) : Except Err Str :=
  match ud.parm "subdir".toList with
  | none => .ok rootdir
  | some s =>
    if isabs s then
      if startsWith (realpath s) (realpath rootdir) then .ok s else .error .unpack
    else .ok (pathJoin rootdir s)

/-- `s.rstrip('/')` -/
def rstripSlash (s : Str) : Str := (s.reverse.dropWhile (· == '/')).reverse

/-- `s.rsplit("/", 1)[0]` if there is a slash; fetch2/__init__.py:1607. -/
def beforeSlash (s : Str) : Str := (s.reverse.dropWhile (· != '/')).reverse.dropLast

/-- fetch2/__init__.py:1599-1608: where a file is copied to, from the directory. -/
def copyDir (ud : Ud) : Str :=
  if ud.isFile && ((rstripSlash ud.path).dropWhile (· == '/')).contains '/' then
    beforeSlash ((rstripSlash ud.path).dropWhile (· == '/')) ++ ['/']
  else ['.']

/-- fetch2/__init__.py:1594-1609: the copy, unless the file is there already.  `same` is `samefile`. -/
def copy (same : Str → Str → Bool) (ud : Ud) (dir : Str) : Option Cmd :=
  let dest := pathJoin dir (basename ud.file)
  if ud.file ≠ dest ∧ same ud.file dest = false then some (.cp ud.file (copyDir ud)) else none

/-- What the world knows: what is in a package, real paths, which files are the same, and what the programs do. -/
structure World where
  listing : Str → List Str
  realpath : Str → Str
  same : Str → Str → Bool
  /-- The content after a program; `none` if it fails. -/
  plain : Str → Str → Option Str
  /-- The files of an archive: their components and their contents; `none` if it cannot be read. -/
  files : Cmd → Str → Option (List (List Str × Str))

/-- fetch2/__init__.py:1506-1609: the directory and the command. -/
def plan (w : World) (ud : Ud) (rootdir : Str) : Except Err (Str × Option Cmd) :=
  match boolParm (ud.parm "unpack".toList) true with
  | .error e => .error e
  | .ok unpack =>
    match command w.listing ud rootdir unpack with
    | .error e => .error e
    | .ok c =>
      match unpackDir w.realpath ud rootdir with
      | .error e => .error e
      | .ok dir =>
        match c with
        | some c => .ok (dir, some c)
        | none => .ok (dir, copy w.same ud dir)

/-- All files at or below a path, with their places from there. -/
def tree (fs : Fs) (src : List Str) : List (List Str × Str) :=
  fs.filterMap fun e => if src.isPrefixOf e.1 then some (e.1.drop src.length, e.2) else none

/-- Whether a file is in the way of a path: where a directory should be, or below it. -/
def inWay (fs : Fs) (p : List Str) : Bool := fs.any fun e => e.1 ≠ p && (e.1.isPrefixOf p || p.isPrefixOf e.1)

/-- Writing files below a directory; `none` if something is in the way. -/
def put (fs : Fs) (dir : List Str) (l : List (List Str × Str)) : Option Fs :=
  if l.any fun e => inWay fs (dir ++ e.1) then none else some (l.map (fun e => (dir ++ e.1, e.2)) ++ fs)

/-- The file of an archive. -/
def Cmd.source : Cmd → Str
  | .tar _ _ f => f
  | .decompress _ f _ => f
  | .seven f => f
  | .unzip _ f => f
  | .rpm f _ => f
  | .deb _ f _ => f
  | .cp f _ => f

/-- An archive is unpacked in a directory. -/
def runArchive (w : World) (fs : Fs) (dir : Str) (c : Cmd) : Fs × Bool :=
  match fs.lookup (normComps c.source) with
  | none => (fs, false)
  | some s =>
    match w.files c s with
    | none => (fs, false)
    | some l =>
      match put fs (normComps dir) l with
      | none => (fs, false)
      | some fs' => (fs', true)

/-- `tool -dc file > out`: the shell empties `out` before the program reads. -/
def runDecompress (w : World) (fs : Fs) (tool file out : Str) : Fs × Bool :=
  let fs1 := (normComps out, []) :: fs
  if inWay fs (normComps out) then (fs, false) else
  match fs1.lookup (normComps file) with
  | none => (fs1, false)
  | some s =>
    match w.plain tool s with
    | none => (fs1, false)
    | some r => ((normComps out, r) :: fs, true)

/-- `cp -fpPRH file dir` in a directory. -/
def runCp (fs : Fs) (cwd file dir : Str) : Fs × Bool :=
  match tree fs (normComps file) with
  | [] => (fs, false)
  | l =>
    match put fs (normComps (pathJoin (pathJoin cwd dir) (basename file))) l with
    | none => (fs, false)
    | some fs' => (fs', true)

/-- fetch2/__init__.py:1620: the command is run; the files then, and whether it succeeded. -/
def run (w : World) (fs : Fs) (dir : Str) : Cmd → Fs × Bool
  | .decompress t f o => runDecompress w fs t f o
  | .cp f d => runCp fs dir f d
  | c => runArchive w fs dir c

/-- fetch2/__init__.py:1502-1623: one URL; the files then, and whether it succeeded. -/
def unpackOne (w : World) (rootdir : Str) (fs : Fs) (ud : Ud) : Fs × Bool :=
  match plan w ud rootdir with
  | .error _ => (fs, false)
  | .ok (_, none) => (fs, true)
  | .ok (dir, some c) => run w fs dir c

/-- fetch2/__init__.py:1963-1987, base.bbclass:255-267: all URLs, until the first failure. -/
def unpackAll (w : World) (rootdir : Str) : Fs → List Ud → Fs × Bool
  | fs, [] => (fs, true)
  | fs, u :: us =>
    match unpackOne w rootdir fs u with
    | (fs1, true) => unpackAll w rootdir fs1 us
    | (fs1, false) => (fs1, false)

/-- A path exists. -/
def there (fs : Fs) (p : Str) : Bool := tree fs (normComps p) ≠ []

/-- utils.py:959-990, local.py:50-62: the last path that was tried, which is the first one that exists; without directories
this is an error, here the empty path. -/
def searched (fs : Fs) : List Str → Str → Str
  | [], _ => []
  | [d], p => pathJoin d p
  | d :: ds, p => if there fs (pathJoin d p) then pathJoin d p else searched fs ds p

/-- local.py:40-62: where a local file is. -/
def localPath (fs : Fs) (filespath : List Str) (decoded : Str) : Str :=
  if isabs decoded then decoded else searched fs filespath decoded

/-- fetch2/__init__.py:1291-1389, local.py:30-44: what is known of a URL of type `file`. -/
def localUd (fs : Fs) (filespath : List Str) (path : Str) (parm : Str → Option Str) : Ud :=
  { file := localPath fs filespath path, isFile := true, path := path, parm := parm }

/-- `s.split("://")[0]` -/
def untilScheme : Str → Str
  | [] => []
  | c :: s => if startsWith (c :: s) "://".toList then [] else c :: untilScheme s

/-- local.py:32: the path that is looked for. -/
def decodedUrl (url : Str) : Str :=
  match Url.afterColon (url.dropWhile (· ≠ ':')) with
  | none => []
  | some r => Url.unquote ((untilScheme r).takeWhile (· ≠ ';'))

/-- fetch2/__init__.py:1291-1389, local.py:30-44: the text of a URL of type `file`. -/
def urlUd (fs : Fs) (filespath : List Str) (url : Str) : Option Ud :=
  match Url.decodeurl url with
  | .error _ => none
  | .ok u => some { file := localPath fs filespath (decodedUrl url), isFile := true, path := u.path, parm := fun k => List.lookup k u.parm }

/-- base.bbclass:255-267: `do_unpack` for local files: the URLs are looked up when it is their turn. -/
def unpackLocal (w : World) (rootdir : Str) (filespath : List Str) : Fs → List (Str × (Str → Option Str)) → Fs × Bool
  | fs, [] => (fs, true)
  | fs, u :: us =>
    match unpackOne w rootdir fs (localUd fs filespath u.1 u.2) with
    | (fs1, true) => unpackLocal w rootdir filespath fs1 us
    | (fs1, false) => (fs1, false)

/-- dpkg-prebuilt.bbclass:14-15: `ensure_unpack_false` -/
def ensureUnpackFalse (uri : Str) : Str :=
  join [';'] ((splitOn ';' uri).filter (fun x => !startsWith x "unpack=".toList) ++ ["unpack=false".toList])

end Bb.Unpack
