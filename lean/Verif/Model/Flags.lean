import Verif.Base.Res
/-!
Model of the feature flag functions of `src/caformat-util.c` (flag values: `src/caformat.h`).
Flag words are `uint64_t`, here `BitVec 64`.
-/
namespace Casync.Flags
open Casync

abbrev Word := BitVec 64

/- caformat.h:82-132 -/
abbrev with16BitUids : Word := 0x1#64
abbrev with32BitUids : Word := 0x2#64
abbrev withUserNames : Word := 0x4#64
abbrev withSecTime : Word := 0x8#64
abbrev withUsecTime : Word := 0x10#64
abbrev withNsecTime : Word := 0x20#64
abbrev with2SecTime : Word := 0x40#64
abbrev withReadOnly : Word := 0x80#64
abbrev withPermissions : Word := 0x100#64
abbrev withSymlinks : Word := 0x200#64
abbrev withDeviceNodes : Word := 0x400#64
abbrev withFifos : Word := 0x800#64
abbrev withSockets : Word := 0x1000#64
abbrev withFlagHidden : Word := 0x2000#64
abbrev withFlagSystem : Word := 0x4000#64
abbrev withFlagArchive : Word := 0x8000#64
abbrev withFlagAppend : Word := 0x10000#64
abbrev withFlagNoatime : Word := 0x20000#64
abbrev withFlagCompr : Word := 0x40000#64
abbrev withFlagNocow : Word := 0x80000#64
abbrev withFlagNodump : Word := 0x100000#64
abbrev withFlagDirsync : Word := 0x200000#64
abbrev withFlagImmutable : Word := 0x400000#64
abbrev withFlagSync : Word := 0x800000#64
abbrev withFlagNocomp : Word := 0x1000000#64
abbrev withFlagProjinherit : Word := 0x2000000#64
abbrev withSubvolume : Word := 0x4000000#64
abbrev withSubvolumeRo : Word := 0x8000000#64
abbrev withXattrs : Word := 0x10000000#64
abbrev withAcl : Word := 0x20000000#64
abbrev withSelinux : Word := 0x40000000#64
abbrev withFcaps : Word := 0x80000000#64
abbrev withQuotaProjid : Word := 0x100000000#64
abbrev excludeFile : Word := 0x1000000000000000#64
abbrev sha512_256 : Word := 0x2000000000000000#64
abbrev excludeSubmounts : Word := 0x4000000000000000#64
abbrev excludeNodump : Word := 0x8000000000000000#64

/-- `CA_FORMAT_WITH_MASK`, caformat.h:233-266: all 33 `WITH` bits, i.e. bits 0..32. -/
abbrev withMask : Word := 0x1ffffffff#64
/-- `CA_FORMAT_FEATURE_FLAGS_MAX`, caformat.h:274-279 -/
abbrev flagsMax : Word := 0xf0000001ffffffff#64
/-- `CA_FORMAT_DEFAULT`, caformat.h:268-272: BEST without NODUMP, plus EXCLUDE_NODUMP, EXCLUDE_FILE and
SHA512_256. BEST (caformat.h:134-161) is every WITH bit but 16BIT_UIDS, the three coarser times,
READ_ONLY and PERMISSIONS. -/
abbrev default : Word := 0xb0000001ffeffe26#64
/-- `UINT64_MAX` -/
abbrev none64 : Word := 0xffffffffffffffff#64

/-- `flags & m` as a C truth value -/
def has (f m : Word) : Bool := (f &&& m) != 0#64

/-- `if (c) flags &= ~m;` -/
def clearIf (c : Bool) (m f : Word) : Word := if c then f &&& ~~~m else f
/-- `if (c) flags |= m;` -/
def setIf (c : Bool) (m f : Word) : Word := if c then f ||| m else f

/-- `ca_feature_flags_normalize` after its validity checks, caformat-util.c:184-207, one statement per
line. -/
def normalizeBody (f0 : Word) : Word :=
  let f := f0
  let f := setIf (has f withAcl && !has f (with16BitUids ||| with32BitUids ||| withUserNames))
    (with32BitUids ||| withUserNames) f
  let f := clearIf (has f with32BitUids) with16BitUids f
  let f := clearIf (has f withNsecTime) (withUsecTime ||| withSecTime ||| with2SecTime) f
  let f := clearIf (has f withUsecTime) (withSecTime ||| with2SecTime) f
  let f := clearIf (has f withSecTime) with2SecTime f
  let f := clearIf (has f withAcl) (withPermissions ||| withReadOnly) f
  let f := clearIf (has f withPermissions) withReadOnly f
  let f := clearIf (has f excludeNodump) withFlagNodump f
  let f := setIf (has f withSubvolumeRo) withSubvolume f
  f

/-- `ca_feature_flags_normalize`, caformat-util.c:172-211 -/
def normalize (flags : Word) : Res Word :=
  if flags = none64 then .err .EINVAL
  else if (flags &&& ~~~flagsMax) ≠ 0#64 then .err .EOPNOTSUPP
  else .ok (normalizeBody flags)

/-- `ca_feature_flags_are_normalized`, caformat-util.c:213-257 -/
def areNormalized (f : Word) : Res Bool :=
  if f = none64 then .err .EINVAL
  else if (f &&& ~~~flagsMax) ≠ 0#64 then .err .EOPNOTSUPP
  else if has f withNsecTime && has f (withUsecTime ||| withSecTime ||| with2SecTime) then .ok false
  else if has f withUsecTime && has f (withSecTime ||| with2SecTime) then .ok false
  else if has f withSecTime && has f with2SecTime then .ok false
  else if (f &&& (with16BitUids ||| with32BitUids)) == (with16BitUids ||| with32BitUids) then .ok false
  else if has f withPermissions && has f withReadOnly then .ok false
  else if has f withAcl && has f (withPermissions ||| withReadOnly) then .ok false
  else if has f withAcl && !has f (with16BitUids ||| with32BitUids ||| withUserNames) then .ok false
  else if has f excludeNodump && has f withFlagNodump then .ok false
  else if has f withSubvolumeRo && !has f withSubvolume then .ok false
  else .ok true

/-- `ca_feature_flags_time_granularity_nsec`, caformat-util.c:289-311 -/
def granularity (f : Word) : Res Nat :=
  if (f &&& ~~~flagsMax) ≠ 0#64 then .err .EOPNOTSUPP
  else if has f withNsecTime then .ok 1
  else if has f withUsecTime then .ok 1000
  else if has f withSecTime then .ok 1000000000
  else if has f with2SecTime then .ok 2000000000
  else .err .ENODATA

/-- `ca_feature_flags_normalize_mask`, caformat-util.c:259-287 -/
def normalizeMask (mask : Word) : Word :=
  if mask = none64 then none64
  else
    let f := mask &&& flagsMax
    let f := setIf (has f (with16BitUids ||| with32BitUids)) (with16BitUids ||| with32BitUids) f
    let f := setIf (has f (withSecTime ||| withUsecTime ||| withNsecTime ||| with2SecTime))
      (withSecTime ||| withUsecTime ||| withNsecTime ||| with2SecTime) f
    let f := setIf (has f withPermissions) withReadOnly f
    let f := setIf (has f withAcl) (withPermissions ||| withReadOnly) f
    let f := setIf (has f withSubvolumeRo) withSubvolume f
    f

end Casync.Flags
