import Verif.Base.Res
import Verif.Model.Locator
import Verif.Model.TempName
/-!
Where temporary files go.

Sources: src/util.c:1334-1453, src/util.h:436-444, 703-705.

Strings are lists of bytes other than zero.
-/
namespace Casync.TmpDir
open Casync

/-- `startswith()`, src/util.h:436-444. -/
def startsWith (p pre : Bytes) : Bool := p.take pre.length = pre

/-- `strstr()`: is there such a part? No repo lines. -/
def strstr : Bytes → Bytes → Bool
  | [], x => x = []
  | a :: p, x => startsWith (a :: p) x || strstr p x

/-- `path_is_absolute()`, src/util.h:703-705. -/
def pathIsAbsolute (p : Bytes) : Bool := p.head? = some 47

/-- `path_is_safe()`, src/util.c:1422-1437. `PATH_MAX` is 4096. -/
def pathIsSafe (p : Bytes) : Bool :=
  if p = [] then false
  else if TempName.dotOrDotDot p then false
  else if startsWith p [46, 46, 47] || Locator.endsWith p [47, 46, 46] || strstr p [47, 46, 46, 47] then false
  else if p.length + 1 > 4096 then false
  else true

/-- What `is_dir()` with `follow` set, src/util.c:1439-1453, says about a path: is it a directory, or the error of `stat()`. No repo lines. -/
abbrev Stat := Bytes → Except Errno Bool

/-- One round of the loop of `getenv_tmp_dir()`, src/util.c:1343-1371, when the variable is set to `e`. -/
def usable (stat : Stat) (e : Bytes) : Except Errno Unit :=
  if !pathIsAbsolute e then .error .ENOTDIR
  else if !pathIsSafe e then .error .EPERM
  else match stat e with
    | .error x => .error x
    | .ok false => .error .ENOTDIR
    | .ok true => .ok ()

/-- The loop of `getenv_tmp_dir()`, src/util.c:1341-1378, over the values of the variables that are left (`none`: not set), where `ret` is the first
error so far. -/
def getenvLoop (stat : Stat) : List (Option Bytes) → Option Errno → Except Errno (Option Bytes)
  | [], some e => .error e
  | [], none => .ok none
  | none :: vs, ret => getenvLoop stat vs ret
  | some e :: vs, ret =>
    match usable stat e with
    | .ok _ => .ok (some e)
    | .error r => getenvLoop stat vs (match ret with | some x => some x | none => some r)

/-- The values of `TMPDIR`, `TEMP` and `TMP`, in this order, src/util.c:1343. No repo lines. -/
structure Env where
  tmpdir : Option Bytes
  temp : Option Bytes
  tmp : Option Bytes

/-- `getenv_tmp_dir()`, src/util.c:1334-1379. -/
def getenvTmpDir (stat : Stat) (env : Env) : Except Errno (Option Bytes) := getenvLoop stat [env.tmpdir, env.temp, env.tmp] none

/-- `tmp_dir_internal()`, src/util.c:1381-1402. -/
def tmpDirInternal (stat : Stat) (env : Env) (dflt : Bytes) : Except Errno Bytes :=
  let r := getenvTmpDir stat env
  match r with
  | .ok (some e) => .ok e
  | r =>
    let k := match stat dflt with
      | .error x => some x
      | .ok false => some .ENOTDIR
      | .ok true => none
    match k, r with
    | none, _ => .ok dflt
    | some _, .error x => .error x
    | some k, _ => .error k

/-- `var_tmp_dir()`, src/util.c:1404-1412: "/var/tmp". -/
def varTmpDir (stat : Stat) (env : Env) : Except Errno Bytes := tmpDirInternal stat env [47, 118, 97, 114, 47, 116, 109, 112]

/-- `tmp_dir()`, src/util.c:1414-1420: "/tmp". -/
def tmpDir (stat : Stat) (env : Env) : Except Errno Bytes := tmpDirInternal stat env [47, 116, 109, 112]

end Casync.TmpDir
