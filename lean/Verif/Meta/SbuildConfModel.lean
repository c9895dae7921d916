import Verif.Meta.SchrootModel
/-!
# The configuration of sbuild

Model of `sbuild_export` and `sbuild_add_env_filter` in `meta/classes-recipe/sbuild.bbclass`, and of the part of
`dpkg_runbuild` in `dpkg.bbclass` that uses them.

A file is a list of lines.  Parameters: what `sed` makes of the text of the command `a`, and whether `grep` finds an
expression at the beginning of a line.  Left out: the warnings.
-/

namespace Meta.SbuildConf
open Py

/-- sbuild.bbclass:92 -/
def envHead : Str := "$build_environment = {".toList
/-- sbuild.bbclass:78 -/
def filterHead : Str := "$environment_filter = [".toList

/-- `sed -i -e "/.../d" -e "/^head.*/a text"`: one pass over the file. -/
def sed (drop : Str → Bool) (head text : Str) (file : List Str) : List Str :=
  file.flatMap fun l => if drop l then [] else if startsWith l head then [l, text] else [l]

/-- `if ! grep -q "^head" file; then echo first >> file; echo last >> file; fi` -/
def block (head first last : Str) (file : List Str) : List Str :=
  if file.any fun l => startsWith l head then file else file ++ [first, last]

/-- sbuild.bbclass:97 -/
def entry (var val : Str) : Str := '\'' :: var ++ "' => '".toList ++ val ++ "',".toList

/-- sbuild.bbclass:88-101, `sbuild_export`.  The file is named twice, so that `sed` goes over it twice. -/
def exportVar (sedText : Str → Str) (file : List Str) (var val : Str) : List Str :=
  let pass := sed (fun l => startsWith l ('\'' :: var ++ "' =>".toList)) "$build_environment =".toList (sedText (entry var val))
  pass (pass (block "$build_environment =".toList envHead "};".toList file))

/-- sbuild.bbclass:85, without the comma -/
def quoted (filter : Str) : Str := '\'' :: '^' :: filter ++ ['$']

/-- sbuild.bbclass:74-86, `sbuild_add_env_filter` -/
def addFilter (sedText : Str → Str) (file : List Str) (filter : Str) : List Str :=
  sed (isSub (quoted filter)) "$environment_filter =".toList (sedText (quoted filter ++ "',".toList))
    (block "$environment_filter =".toList filterHead "];".toList file)

/-- `read -r`: spaces at the ends are not kept. -/
def blank (c : Char) : Bool := c == ' ' || c == '\t'
def readLine (l : Str) : Str := ((l.dropWhile blank).reverse.dropWhile blank).reverse

/-- `cut -d '=' -f1` -/
def cutName (l : Str) : Str := l.takeWhile (· ≠ '=')
/-- `cut -d '=' -f2-` -/
def cutValue (l : Str) : Str := if '=' ∈ l then (l.dropWhile (· ≠ '=')).drop 1 else l

/-- dpkg.bbclass:48-57: one line of the environment. -/
def envLine (sedText : Str → Str) (grep : Str → Str → Bool) (ref : List Str) (file : List Str) (l : Str) : List Str :=
  if ref.any (grep (readLine l)) then file
  else if startsWith (readLine l) "HOME=".toList then file
  else if startsWith (readLine l) "PWD=".toList then file
  else if startsWith (readLine l) "SOURCE_DATE_EPOCH=".toList then file
  else exportVar sedText file (cutName (readLine l)) (cutValue (readLine l))

/-- dpkg.bbclass:99-104 -/
def filters : List Str := ["PATH".toList, "http_proxy".toList, "HTTP_PROXY".toList, "https_proxy".toList, "HTTPS_PROXY".toList,
  "ftp_proxy".toList, "FTP_PROXY".toList, "no_proxy".toList, "NO_PROXY".toList]

/-- dpkg.bbclass:18-24, `expand_sbuild_pt_additions`: the variables that have a value. -/
def additions (get : Str → Option Str) (names : List Str) : List (Str × Str) :=
  names.filterMap fun n => (get n).map fun v => (n, v)

/-- dpkg.bbclass:45-108: the file that `sbuild` reads. -/
def config (sedText : Str → Str) (grep : Str → Str → Bool) (env ref : List Str) (get : Str → Option Str) (names : List Str)
    (timeout : Str) : List Str :=
  (additions get names).foldl (fun f a => exportVar sedText f a.1 a.2)
      (filters.foldl (addFilter sedText) (env.foldl (envLine sedText grep ref) [])) ++
    ["$apt_keep_downloaded_packages = 1;".toList, "$stalled_pkg_timeout = ".toList ++ timeout ++ [';']]

end Meta.SbuildConf
