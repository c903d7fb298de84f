import Verif.Base.Res
import Verif.Base.Bytes
/-!
Locators (cautil.c): the classification of what the user gives as path, URL or SSH target, and what caremote.c makes of it.

Strings are byte lists without their terminating zero byte; none of the functions here reads past it unless said so.
-/
namespace Casync.Locator
open Casync

/-- `ALPHABET_LOWER`, `URL_PROTOCOL_FIRST`, util.h:415, 422. -/
def isLower (b : UInt8) : Bool := 97 ≤ b.toNat && b.toNat ≤ 122
/-- `ALPHABET_UPPER`, util.h:416. -/
def isUpper (b : UInt8) : Bool := 65 ≤ b.toNat && b.toNat ≤ 90
/-- `DIGITS`, util.h:418. -/
def isDigit (b : UInt8) : Bool := 48 ≤ b.toNat && b.toNat ≤ 57
/-- `URL_PROTOCOL_CHARSET`, util.h:423. -/
def isProto (b : UInt8) : Bool := isLower b || isDigit b || b = 43 || b = 46 || b = 45
/-- `HOSTNAME_CHARSET`, util.h:424. -/
def isHost (b : UInt8) : Bool := isLower b || isUpper b || isDigit b || b = 45 || b = 95 || b = 46 || b = 37
/-- `HOSTNAME_CHARSET "@:[]"`, cautil.c:59. -/
def isUrlHost (b : UInt8) : Bool := isHost b || b = 64 || b = 58 || b = 91 || b = 93

/-- `ca_is_definitely_path()`, cautil.c:10-31. -/
def isDefinitelyPath (s : Bytes) : Bool :=
  match s with
  | 47 :: _ => true
  | [46] => true
  | 46 :: 47 :: _ => true
  | [46, 46] => true
  | _ => false

/-- `ca_is_url()`, cautil.c:33-66.  On the empty string `strchr()` finds the terminating byte and the function reads past the end. -/
def isUrl (s : Bytes) : Res Bool :=
  if isDefinitelyPath s then .ok false
  else match s with
    | [] => .ub
    | b :: s' =>
      if !isLower b then .ok false
      else match s'.dropWhile isProto with
        | 58 :: 47 :: 47 :: e =>
          if (e.takeWhile isUrlHost).length ≤ 0 then .ok false
          else match e.dropWhile isUrlHost with
            | [] => .ok true
            | c :: _ => .ok (c = 47 || c = 59 || c = 63)
        | _ => .ok false

/-- `ca_is_ssh_path()`, cautil.c:68-103. -/
def isSsh (s : Bytes) : Bool :=
  if isDefinitelyPath s then false
  else if (s.takeWhile isHost).length ≤ 0 then false
  else match s.dropWhile isHost with
    | 64 :: t =>
      if (t.takeWhile isHost).length ≤ 0 then false
      else match t.dropWhile isHost with
        | 58 :: rest => !rest.isEmpty
        | _ => false
    | 58 :: rest => !rest.isEmpty
    | _ => false

/-- `CaLocatorClass`, cautil.h:11-16. -/
inductive Class
  | path
  | ssh
  | url
  deriving DecidableEq, Repr

/-- `ca_classify_locator()`, cautil.c:105-116; `none` is `_CA_LOCATOR_CLASS_INVALID`. -/
def classify (s : Bytes) : Res (Option Class) :=
  if s = [] then .ok none
  else match isUrl s with
    | .ok true => .ok (some .url)
    | .ok false => if isSsh s then .ok (some .ssh) else .ok (some .path)
    | .err e => .err e
    | .ub => .ub

/-- `endswith()`, util.c:299-312. -/
def endsWith (p suffix : Bytes) : Bool := suffix.length ≤ p.length && p.drop (p.length - suffix.length) = suffix

/-- The offset `strrchr()` finds. -/
def strrchr (c : UInt8) (p : Bytes) : Option Nat :=
  if p.contains c then some (p.length - 1 - (p.reverse.takeWhile (· ≠ c)).length) else none

/-- `ca_locator_has_suffix()`, cautil.c:166-203. -/
def hasSuffix (p suffix : Bytes) : Res Bool :=
  if suffix = [] then .ok true
  else if p = [] then .ok false
  else match isUrl p with
    | .ok true =>
      let e := match strrchr 63 p with
        | some e => e
        | none => match strrchr 59 p with
          | some e => e
          | none => p.length
      if e < suffix.length then .ok false
      else .ok ((p.drop (e - suffix.length)).take suffix.length = suffix)
    | .ok false =>
      let e := match strrchr 47 p with
        | some e => p.drop (e + 1)
        | none => p
      .ok (endsWith e suffix && e.length ≠ suffix.length)
    | .err e => .err e
    | .ub => .ub

/-- `unhexchar()`, util.c:413-425. -/
def unhex (b : UInt8) : Option Nat :=
  if 48 ≤ b.toNat ∧ b.toNat ≤ 57 then some (b.toNat - 48)
  else if 97 ≤ b.toNat ∧ b.toNat ≤ 102 then some (b.toNat - 97 + 10)
  else if 65 ≤ b.toNat ∧ b.toNat ≤ 70 then some (b.toNat - 65 + 10)
  else none

/-- The loop of `ca_strip_file_url()`, cautil.c:145-160, up to the terminating zero byte: all bytes written to the buffer. -/
def unescape : Bytes → Bytes
  | [] => []
  | [a] => [a]
  | [a, b] => [a, b]
  | a :: b :: c :: rest =>
    if a = 37 then
      match unhex b, unhex c with
      | some x, some y => UInt8.ofNat (x * 16 + y) :: unescape rest
      | _, _ => a :: unescape (b :: c :: rest)
    else a :: unescape (b :: c :: rest)

/-- `ca_strip_file_url()`, cautil.c:118-164.  The result is a C string: it ends at the first zero byte of the buffer. -/
def stripFileUrl (p : Bytes) : Bytes :=
  match p with
  | 102 :: 105 :: 108 :: 101 :: 58 :: 47 :: 47 :: e =>
    match e with
    | 47 :: _ => (unescape e).takeWhile (· ≠ 0)
    | 108 :: 111 :: 99 :: 97 :: 108 :: 104 :: 111 :: 115 :: 116 :: 47 :: e' => (unescape (47 :: e')).takeWhile (· ≠ 0)
    | _ => p
  | _ => p

/-! ### What the remote does with a locator -/

/-- What a remote is started as: a helper program for a protocol, or `ssh`; with the part of the locator that names the host. -/
structure Start where
  callout : Option Bytes
  urlPrefix : Bytes
  deriving DecidableEq, Repr

/-- `ca_remote_url_prefix_install()` on a fresh remote, caremote.c:382-435. -/
def urlPrefixInstall (url : Bytes) : Res Start :=
  match url with
  | 47 :: _ => .err .EINVAL
  | 46 :: 47 :: _ => .err .EINVAL
  | [] => .ub
  | b :: s' =>
    if !isLower b then .err .EINVAL
    else match s'.dropWhile isProto with
      | 58 :: 47 :: 47 :: e =>
        let n := 1 + (s'.takeWhile isProto).length
        let k := (e.takeWhile isUrlHost).length
        if k ≤ 0 then .err .EINVAL
        else match e.dropWhile isUrlHost with
          | [] => .ok ⟨some (url.take n), url.take (n + 3 + k)⟩
          | c :: _ => if c ≠ 47 then .err .EINVAL else .ok ⟨some (url.take n), url.take (n + 3 + k)⟩
      | _ => .err .EINVAL

/-- `ca_remote_ssh_prefix_install()` on a fresh remote, caremote.c:437-486. -/
def sshPrefixInstall (url : Bytes) : Res Start :=
  match url with
  | 47 :: _ => .err .EINVAL
  | 46 :: 47 :: _ => .err .EINVAL
  | _ =>
    let n := (url.takeWhile isHost).length
    if n ≤ 0 then .err .EINVAL
    else match url.dropWhile isHost with
      | 64 :: t =>
        let k := (t.takeWhile isHost).length
        if k ≤ 0 then .err .EINVAL
        else match t.dropWhile isHost with
          | 58 :: _ => .ok ⟨none, url.take (n + 1 + k + 1)⟩
          | _ => .err .EINVAL
      | 58 :: _ => .ok ⟨none, url.take (n + 1)⟩
      | _ => .err .EINVAL

/-- `ca_remote_any_prefix_install()`, caremote.c:488-499, as `ca_remote_set_{index,archive,store}_url()` call it. -/
def anyPrefixInstall (url : Bytes) : Res Start :=
  match urlPrefixInstall url with
  | .err .EINVAL => sshPrefixInstall url
  | r => r

/-- The program started and its first arguments, caremote.c:1003-1031: `casync-PROTOCOL` in the helper directory (the directory is left out), or
`ssh HOST`. -/
def command (s : Start) : List Bytes :=
  match s.callout with
  | some c => [[99, 97, 115, 121, 110, 99, 45] ++ c]
  | none => [[115, 115, 104], s.urlPrefix.take (s.urlPrefix.length - 1)]

/-! ### The default store next to an index -/

/-- `ca_locator_patch_last_component()`, cautil.c:260-354.  `dirname` is the C library's function.  The protocol of a
URL has no colon, so the first `://` is at the first colon. -/
def patchLast (dirname : Bytes → Bytes) (locator last : Bytes) : Res Bytes :=
  let join (d : Bytes) := if endsWith d [47] then d ++ last else d ++ [47] ++ last
  match classify locator with
  | .ok none => .err .EINVAL
  | .ok (some .url) =>
    -- protocol and host: up to the first of / ; ? after ://
    let proto := locator.takeWhile (· ≠ 58)
    let e := (locator.dropWhile (· ≠ 58)).drop 3
    let host := e.takeWhile fun b => !(b = 47 || b = 59 || b = 63)
    let path := (e.dropWhile fun b => !(b = 47 || b = 59 || b = 63)).takeWhile fun b => !(b = 59 || b = 63)
    let dir := (path.reverse.dropWhile (· ≠ 47)).reverse
    .ok (join (proto ++ [58, 47, 47] ++ host ++ dir))
  | .ok (some .ssh) =>
    let pre := locator.takeWhile (· ≠ 58) ++ [58]
    let p := (locator.dropWhile (· ≠ 58)).drop 1
    if p.contains 47 then .ok (pre ++ join (dirname p)) else .ok (pre ++ last)
  | .ok (some .path) => if locator.contains 47 then .ok (join (dirname locator)) else .ok last
  | .err e => .err e
  | .ub => .ub

/-! ### Extended attribute names -/

/-- `ca_xattr_name_is_valid()`, cautil.c:206-227. -/
def xattrNameValid (s : Bytes) : Bool :=
  if s = [] then false
  else match s.dropWhile (· ≠ 46) with
    | [] => false
    | _ :: rest =>
      if (s.takeWhile (· ≠ 46)).length = 0 then false
      else if rest = [] then false
      else decide (s.length ≤ 255)

/-- `ca_xattr_name_store()`, cautil.c:229-241. -/
def xattrNameStore (s : Bytes) : Bool :=
  xattrNameValid s && ([117, 115, 101, 114, 46].isPrefixOf s || [116, 114, 117, 115, 116, 101, 100, 46].isPrefixOf s)

end Casync.Locator
