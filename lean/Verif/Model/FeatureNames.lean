import Verif.Model.Flags
import Verif.Base.Bytes
/-!
Feature flags by name: `ca_with_feature_flags_parse_one()` and `ca_with_feature_flags_format()` (caformat-util.c), and how the tool combines `--with=` and
`--without=` (casync-tool.c).
-/
namespace Casync.FeatureNames
open Casync Flags

/-- `CA_FORMAT_WITH_BEST`, caformat.h:132-159: all but 16-bit UIDs, the coarser times, read-only and permissions. -/
abbrev withBest : Word := with32BitUids ||| withUserNames ||| withNsecTime ||| withSymlinks ||| withDeviceNodes ||| withFifos ||| withSockets ||| withFlagHidden ||| withFlagSystem |||
  withFlagArchive ||| withFlagAppend ||| withFlagNoatime ||| withFlagCompr ||| withFlagNocow ||| withFlagNodump ||| withFlagDirsync ||| withFlagImmutable ||| withFlagSync |||
  withFlagNocomp ||| withFlagProjinherit ||| withSubvolume ||| withSubvolumeRo ||| withXattrs ||| withAcl ||| withSelinux ||| withFcaps ||| withQuotaProjid
/-- `CA_FORMAT_WITH_UNIX`, caformat.h:161-168. -/
abbrev withUnix : Word := with16BitUids ||| withPermissions ||| withSecTime ||| withSymlinks ||| withDeviceNodes ||| withFifos ||| withSockets
/-- `CA_FORMAT_WITH_FAT`, caformat.h:170-175. -/
abbrev withFat : Word := with2SecTime ||| withReadOnly ||| withFlagHidden ||| withFlagSystem ||| withFlagArchive
/-- `CA_FORMAT_WITH_CHATTR`, caformat.h:177-187. -/
abbrev withChattr : Word := withFlagAppend ||| withFlagNoatime ||| withFlagCompr ||| withFlagNocow ||| withFlagNodump ||| withFlagDirsync ||| withFlagImmutable ||| withFlagSync |||
  withFlagNocomp ||| withFlagProjinherit
/-- `CA_FORMAT_WITH_FAT_ATTRS`, caformat.h:189-192. -/
abbrev withFatAttrs : Word := withFlagHidden ||| withFlagSystem ||| withFlagArchive
/-- `CA_FORMAT_WITH_PRIVILEGED`, caformat.h:194-207. -/
abbrev withPrivileged : Word := with16BitUids ||| with32BitUids ||| withUserNames ||| withDeviceNodes ||| withFlagSystem ||| withFlagAppend ||| withFlagImmutable ||| withSubvolume |||
  withSubvolumeRo ||| withAcl ||| withSelinux ||| withFcaps ||| withQuotaProjid
/-- `CA_FORMAT_WITH_FUSE`, caformat.h:209-224. -/
abbrev withFuse : Word := with16BitUids ||| with32BitUids ||| withSecTime ||| withUsecTime ||| withNsecTime ||| with2SecTime ||| withReadOnly ||| withPermissions ||| withSymlinks |||
  withDeviceNodes ||| withFifos ||| withSockets ||| withFatAttrs ||| withChattr ||| withXattrs

/-- `with_feature_map`, caformat-util.c:77-122; names as bytes. -/
def featureMap : List (Bytes × Word) :=
  [
   ([49, 54, 98, 105, 116, 45, 117, 105, 100, 115], with16BitUids),  -- 16bit-uids
   ([51, 50, 98, 105, 116, 45, 117, 105, 100, 115], with32BitUids),  -- 32bit-uids
   ([117, 115, 101, 114, 45, 110, 97, 109, 101, 115], withUserNames),  -- user-names
   ([115, 101, 99, 45, 116, 105, 109, 101], withSecTime),  -- sec-time
   ([117, 115, 101, 99, 45, 116, 105, 109, 101], withUsecTime),  -- usec-time
   ([110, 115, 101, 99, 45, 116, 105, 109, 101], withNsecTime),  -- nsec-time
   ([50, 115, 101, 99, 45, 116, 105, 109, 101], with2SecTime),  -- 2sec-time
   ([114, 101, 97, 100, 45, 111, 110, 108, 121], withReadOnly),  -- read-only
   ([112, 101, 114, 109, 105, 115, 115, 105, 111, 110, 115], withPermissions),  -- permissions
   ([115, 121, 109, 108, 105, 110, 107, 115], withSymlinks),  -- symlinks
   ([100, 101, 118, 105, 99, 101, 45, 110, 111, 100, 101, 115], withDeviceNodes),  -- device-nodes
   ([102, 105, 102, 111, 115], withFifos),  -- fifos
   ([115, 111, 99, 107, 101, 116, 115], withSockets),  -- sockets
   ([102, 108, 97, 103, 45, 104, 105, 100, 100, 101, 110], withFlagHidden),  -- flag-hidden
   ([102, 108, 97, 103, 45, 115, 121, 115, 116, 101, 109], withFlagSystem),  -- flag-system
   ([102, 108, 97, 103, 45, 97, 114, 99, 104, 105, 118, 101], withFlagArchive),  -- flag-archive
   ([102, 108, 97, 103, 45, 97, 112, 112, 101, 110, 100], withFlagAppend),  -- flag-append
   ([102, 108, 97, 103, 45, 110, 111, 97, 116, 105, 109, 101], withFlagNoatime),  -- flag-noatime
   ([102, 108, 97, 103, 45, 99, 111, 109, 112, 114], withFlagCompr),  -- flag-compr
   ([102, 108, 97, 103, 45, 110, 111, 99, 111, 119], withFlagNocow),  -- flag-nocow
   ([102, 108, 97, 103, 45, 110, 111, 100, 117, 109, 112], withFlagNodump),  -- flag-nodump
   ([102, 108, 97, 103, 45, 100, 105, 114, 115, 121, 110, 99], withFlagDirsync),  -- flag-dirsync
   ([102, 108, 97, 103, 45, 105, 109, 109, 117, 116, 97, 98, 108, 101], withFlagImmutable),  -- flag-immutable
   ([102, 108, 97, 103, 45, 115, 121, 110, 99], withFlagSync),  -- flag-sync
   ([102, 108, 97, 103, 45, 110, 111, 99, 111, 109, 112], withFlagNocomp),  -- flag-nocomp
   ([102, 108, 97, 103, 45, 112, 114, 111, 106, 105, 110, 104, 101, 114, 105, 116], withFlagProjinherit),  -- flag-projinherit
   ([115, 117, 98, 118, 111, 108, 117, 109, 101], withSubvolume),  -- subvolume
   ([115, 117, 98, 118, 111, 108, 117, 109, 101, 45, 114, 111], withSubvolumeRo),  -- subvolume-ro
   ([120, 97, 116, 116, 114, 115], withXattrs),  -- xattrs
   ([97, 99, 108], withAcl),  -- acl
   ([115, 101, 108, 105, 110, 117, 120], withSelinux),  -- selinux
   ([102, 99, 97, 112, 115], withFcaps),  -- fcaps
   ([113, 117, 111, 116, 97, 45, 112, 114, 111, 106, 105, 100], withQuotaProjid),  -- quota-projid
   ([98, 101, 115, 116], withBest),  -- best
   ([117, 110, 105, 120], withUnix),  -- unix
   ([102, 97, 116], withFat),  -- fat
   ([99, 104, 97, 116, 116, 114], withChattr),  -- chattr
   ([102, 97, 116, 45, 97, 116, 116, 114, 115], withFatAttrs),  -- fat-attrs
   ([112, 114, 105, 118, 105, 108, 101, 103, 101, 100], withPrivileged),  -- privileged
   ([102, 117, 115, 101], withFuse),  -- fuse
   ([97, 108, 108], withMask)  -- all
  ]

/-- `ca_with_feature_flags_parse_one()`, caformat-util.c:124-134. -/
def parseOne (map : List (Bytes × Word)) (name : Bytes) : Res Word :=
  match map.find? (fun x => x.1 == name) with
  | some x => .ok x.2
  | none => .err .ENXIO

/-- `strextend(&s, s ? " " : "", name, NULL)`, caformat-util.c:160. -/
def joined (s : Option Bytes) (name : Bytes) : Bytes :=
  match s with
  | some s => s ++ [32] ++ name
  | none => name

/-- The loop of `ca_with_feature_flags_format()`, caformat-util.c:147-167: `s` is the string so far (`none`: `NULL`).  Delivers it and what is left
of `features`.  Allocation does not fail here. -/
def formatLoop : List (Bytes × Word) → Word → Option Bytes → Option Bytes × Word
  | [], features, s => (s, features)
  | (name, f) :: r, features, s =>
    if features = 0#64 then (s, features)
    else if features &&& f ≠ f then formatLoop r features s
    else formatLoop r (features &&& ~~~f) (some (joined s name))

/-- `ca_with_feature_flags_format()`, caformat-util.c:136-173.  `none` is a `NULL` string. -/
def format (features : Word) : Res (Option Bytes) :=
  if features &&& ~~~flagsMax ≠ 0#64 then .err .EINVAL
  else
    let x := formatLoop featureMap (features &&& withMask) none
    if x.2 = 0#64 then .ok x.1 else .ub

/-- One of the options, casync-tool.c:476-503. -/
inductive Option_
  | with_ (name : Bytes)
  | without (name : Bytes)
  deriving DecidableEq

/-- `arg_with` and `arg_without`, casync-tool.c:69-70. -/
structure Args where
  with_ : Word := 0#64
  without : Word := 0#64
  deriving DecidableEq

/-- The cases `ARG_WITH` and `ARG_WITHOUT` of `parse_argv()`, casync-tool.c:476-503, but for `help`. -/
def parseArgs : List Option_ → Args → Res Args
  | [], a => .ok a
  | .with_ n :: r, a =>
    match parseOne featureMap n with
    | .ok u => parseArgs r { a with with_ := a.with_ ||| u }
    | .err e => .err e
    | .ub => .ub
  | .without n :: r, a =>
    match parseOne featureMap n with
    | .ok u => parseArgs r { a with without := a.without ||| u }
    | .err e => .err e
    | .ub => .ub

/-- `combined_with_flags()`, casync-tool.c:741-743. -/
def combined (a : Args) (dflt : Word) : Word := (if a.with_ = 0#64 then dflt else a.with_) &&& ~~~a.without

/-- The flags that `load_feature_flags()` asks for, casync-tool.c:751-760; `sha512` is `arg_digest`. -/
def load (a : Args) (dflt : Word) (nodump submounts file sha512 : Bool) : Word :=
  let f := combined a dflt
  let f := if nodump then f ||| excludeNodump else f
  let f := if submounts then f ||| excludeSubmounts else f
  let f := if file then f ||| excludeFile else f
  if sha512 then f ||| sha512_256 else f

end Casync.FeatureNames
