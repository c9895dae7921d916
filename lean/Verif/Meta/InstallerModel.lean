import Verif.Py.Str

/-
The installer (meta-isar/recipes-installer/deploy-image/files/usr): lib/deploy-image-wic/handle-config.sh, bin/sys_api.sh and
bin/deploy-image-wic.sh.
-/

namespace Meta.Installer
open Py

/-! ### Configuration -/

structure Config where
  unattended : Bool := false
  abortEnable : Bool := false
  image : Str := []
  target : Str := []
  overwrite : Str := []
deriving DecidableEq

/-- What the scripts see of the system. -/
structure Env where
  /-- `[ -b … ]` -/
  isBlock : Str → Bool
  /-- `[ -f … ]` -/
  isFile : Str → Bool
  /-- handle-config.sh:39: the device of `/` or of `/boot`. -/
  bootDevice : Str
  /-- deploy-image-wic.sh:7 -/
  installdata : Str

/-- handle-config.sh:14-24: the file `auto.install`, if it is there, its lines being read in turn.  The time of the countdown is not
modelled, nor are blanks around lines. -/
def readAuto : Option (List Str) → Config
  | none => {}
  | some ls => ⟨true, ls[3]?.getD [] = "true".toList, ls[0]?.getD [], ls[1]?.getD [], ls[2]?.getD []⟩

/-- handle-config.sh:38: commas and colons are blanks. -/
def devList (s : Str) : List Str := words (s.map fun c => if c = ',' ∨ c = ':' then ' ' else c)

/-- handle-config.sh:37-45: the first device that is one and not the boot device, or else the whole value.  Patterns of file names
in the value are not modelled. -/
def chooseDev (env : Env) (s : Str) : Str := ((devList s).find? fun d => env.isBlock d && d ≠ env.bootDevice).getD s

/-- handle-config.sh:27-59: one word of the kernel command line. -/
def kernelArg (env : Env) (c : Config) (x : Str) : Config :=
  if x = "installer.unattended".toList then { c with unattended := true }
  else if startsWith x "installer.image.uri=".toList then { c with image := x.drop 20, unattended := true }
  else if startsWith x "installer.target.dev=".toList then { c with target := chooseDev env (x.drop 21), unattended := true }
  else if startsWith x "installer.target.overwrite".toList then { c with overwrite := "OVERWRITE".toList, unattended := true }
  else if x = "installer.unattended.abort.enable".toList then { c with abortEnable := true }
  else c

/-- handle-config.sh:14-59. -/
def readConfig (env : Env) (auto : Option (List Str)) (cmdline : List Str) : Config := cmdline.foldl (kernelArg env) (readAuto auto)

/-- handle-config.sh:61-103: the checks; `none` is an exit with 1. -/
def checkConfig (env : Env) (c : Config) : Option Config :=
  if c.unattended then
    if c.image ≠ [] ∧ c.target ≠ [] ∧ c.overwrite ≠ [] then
      if c.overwrite = "OVERWRITE".toList ∨ c.overwrite = "ABORT".toList then
        if env.isBlock c.target then
          if env.isFile c.image then some c
          else if env.isFile (env.installdata ++ ['/'] ++ c.image) then some { c with image := env.installdata ++ ['/'] ++ c.image }
          else none
        else none
      else none
    else none
  else some c

/-! ### Which devices are offered -/

/-- What the kernel tells about block devices. -/
structure Sys where
  /-- The names in `/sys/block`. -/
  devices : List Str
  slaves : Str → List Str
  holders : Str → List Str
  /-- The state of an array, for names that are arrays. -/
  mdState : Str → Option Str
  /-- `findmnt / -o fstype` -/
  nfs : Bool
  /-- The device of `/` without `/dev/`. -/
  root : Str

/-- `${x%p[0-9]*}`: without the shortest end that is a p, a digit and anything. -/
def cutPart : Str → Str
  | [] => []
  | c :: r =>
    if cutPart r = r then match c, r with
      | 'p', d :: _ => if d.isDigit then [] else c :: r
      | _, _ => c :: r
    else c :: cutPart r

/-- `${x%%[0-9]*}`: up to the first digit. -/
def cutDigits (s : Str) : Str := s.takeWhile fun c => !c.isDigit

/-- sys_api.sh:131-135 -/
def rootBase (r : Str) : Str := if startsWith r "mmcblk".toList || startsWith r "nvme".toList then cutPart r else cutDigits r

def nonEmpty (s : Str) : List Str := if s = [] then [] else [s]

/-- sys_api.sh:118-152: names that are not offered. -/
def excluded (sys : Sys) : List Str :=
  if sys.nfs then ["nfs".toList]
  else sys.root :: nonEmpty (rootBase sys.root) ++ (sys.slaves sys.root).flatMap fun s => s :: nonEmpty (cutDigits s)

/-- `mmcblk[0-9]` -/
def mmcOne (d : Str) : Bool := startsWith d "mmcblk".toList && d.length = 7 && (d.drop 6).all Char.isDigit

/-- sys_api.sh:158-160: names are taken in the order of `find`, and cards after the others.  Names in capitals are not modelled. -/
def listed (sys : Sys) : List Str := (sys.devices.filter fun d => !startsWith d "mmcblk".toList) ++ sys.devices.filter mmcOne

/-- sys_api.sh:163-181: a member of an array. -/
def isMember (sys : Sys) (d : Str) : Bool :=
  (sys.mdState d).isNone && (sys.holders d).any fun h => startsWith h "md".toList && ((h.drop 2).head?.any Char.isDigit)

/-- sys_api.sh:183-196: an array that is not active. -/
def badArray (sys : Sys) (d : Str) : Bool :=
  startsWith d "md".toList && !(sys.mdState d = some "active".toList || sys.mdState d = some "clean".toList)

/-- sys_api.sh:198-202. -/
def virtual (d : Str) : Bool := ["dm-", "loop", "mtd", "sr", "ram", "zram"].any fun k => startsWith d k.toList

/-- sys_api.sh:204-210. -/
def skipped (sys : Sys) (d : Str) : Bool := (excluded sys).any fun ex => startsWith d ex

/-- sys_api.sh:162-215: the devices that are offered. -/
def offered (sys : Sys) : List Str :=
  ((listed sys).filter fun d => !isMember sys d && !badArray sys d && !virtual d && !skipped sys d).map fun d => "/dev/".toList ++ d

/-! ### The run -/

/-- What the user answers. -/
structure User where
  /-- A key is pressed during the countdown. -/
  key : Bool
  image : Option Str
  device : Option Str
  confirmInstall : Bool
  confirmOverwrite : Bool

/-- What happens: the image that is written and the device it is written to, the status, and whether the user is told that it was a success. -/
structure Out where
  wrote : Option (Str × Str)
  status : Nat
  success : Bool
deriving DecidableEq

inductive Step where
  | go (image target : Str)
  | cancel
  | fail
deriving DecidableEq

/-- deploy-image-wic.sh:38-63: the image; the menu lists files of the directory. -/
def chooseImage (env : Env) (c : Config) (u : User) : Step :=
  if c.image ≠ [] ∧ env.isFile (env.installdata ++ ['/'] ++ c.image) then .go c.image []
  else match u.image with
    | none => .cancel
    | some i => if env.isFile (env.installdata ++ ['/'] ++ i) then .go i [] else .fail

/-- deploy-image-wic.sh:65-91: the device, from a menu if there are several. -/
def chooseTarget (sys : Sys) (u : User) : Step := match offered sys with
  | [] => .fail
  | [d] => .go [] d
  | ds => match u.device with
    | none => .cancel
    | some d => if d ∈ ds then .go [] d else .fail

/-- deploy-image-wic.sh:33-100. -/
def attended (env : Env) (sys : Sys) (c : Config) (u : User) : Step := match chooseImage env c u with
  | .cancel => .cancel
  | .fail => .fail
  | .go i _ => match chooseTarget sys u with
    | .cancel => .cancel
    | .fail => .fail
    | .go _ t => if u.confirmInstall then .go (env.installdata ++ ['/'] ++ i) t else .cancel

/-- deploy-image-wic.sh:113-131: 0, 1 or 2.  `empty` says whether the first mebibyte of a device is zero. -/
def policy (empty : Str → Bool) (unattended : Bool) (overwrite target : Str) (u : User) : Nat :=
  if empty target then 0
  else if !unattended then if u.confirmOverwrite then 0 else 2
  else if overwrite ≠ "OVERWRITE".toList then 1 else 0

/-- sys_api.sh:287-350 and deploy-image-wic.sh:188-201: the image is written if the lock is free; otherwise the script waits for the other one.
A failure to make the pipe is not modelled, nor is the display. -/
def install (lockFree : Bool) (copyOk : Bool) (image target : Str) : Out :=
  if lockFree then if copyOk then ⟨some (image, target), 0, true⟩ else ⟨some (image, target), 1, false⟩
  else ⟨none, 0, true⟩

/-- deploy-image-wic.sh:172-201. -/
def finish (empty : Str → Bool) (lockFree copyOk unattended : Bool) (overwrite image target : Str) (u : User) : Out :=
  match policy empty unattended overwrite target u with
  | 0 => install lockFree copyOk image target
  | 2 => ⟨none, 0, false⟩
  | _ => ⟨none, 1, false⟩

/-- deploy-image-wic.sh:139-202: the flow; `copyOk` is whether `bmaptool` succeeds. -/
def flow (env : Env) (sys : Sys) (empty : Str → Bool) (lockFree copyOk : Bool) (c : Config) (u : User) : Out :=
  let unattended := c.unattended && !(c.abortEnable && u.key)
  if unattended then finish empty lockFree copyOk true c.overwrite c.image c.target u
  else match attended env sys c u with
    | .cancel => ⟨none, 0, false⟩
    | .fail => ⟨none, 1, false⟩
    | .go i t => finish empty lockFree copyOk false c.overwrite i t u

/-- deploy-image-wic.sh: all of it. -/
def installer (env : Env) (sys : Sys) (empty : Str → Bool) (lockFree copyOk : Bool) (auto : Option (List Str)) (cmdline : List Str) (u : User) : Out :=
  match checkConfig env (readConfig env auto cmdline) with
  | none => ⟨none, 1, false⟩
  | some c => flow env sys empty lockFree copyOk c u

end Meta.Installer
