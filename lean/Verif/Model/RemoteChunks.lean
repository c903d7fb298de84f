import Verif.Model.Remote
/-!
Model of the functions of `src/caremote.c` that hand received chunks to the caller.
-/
namespace Casync.Remote
open Casync Os ChunkFile Store

/-- The fields of `struct CaRemote` that validation uses, src/caremote.c:73-79: the configured digest type (`none` is
`_CA_DIGEST_TYPE_INVALID`), the type of `validate_digest` if it is allocated, and the compression type. -/
structure V where
  digestType : Option Nat
  cur : Option Nat
  compressionType : Nat
  deriving DecidableEq, Repr

/-- src/caremote.c:116-117. -/
def V.new : V := ⟨none, none, compressionDefault⟩

/-- `ca_remote_set_digest_type`, src/caremote.c:2790-2811; `none` is a negative type. -/
def V.setDigestType (v : V) : Option Nat → Res V
  | none => .ok { v with digestType := none }
  | some t =>
    if t ≥ digestTypes.length then .err .EOPNOTSUPP
    else .ok { v with digestType := some t, cur := if v.cur.isSome then some t else none }

/-- src/caremote.c:2064-2105, the digest part of `ca_remote_validate_chunk`; `Store.tryOthers` is the loop (2086-2100), which is the
same as that of `ca_store_get`. -/
def checkDigest (dg : Digest) (v : V) (id u : Bytes) : Bool × V :=
  let cur := v.cur.getD (v.digestType.getD digestDefault)
  if ChunkId.equal id (dg cur u) then (true, { v with cur := some cur })
  else if v.digestType.isSome then (false, { v with cur := some cur })
  else
    let r := tryOthers dg id u cur cur digestTypes
    (r.1, { v with cur := some r.2 })

/-- `ca_remote_validate_chunk`, src/caremote.c:2023-2106. -/
def checkChunk (cd : Codec) (dg : Digest) (v : V) (id : Bytes) (eff : Compression) (d : Bytes) : Res Unit × V :=
  if eff = .asIs then (.err .EINVAL, v)
  else if d.length < 1 then (.err .EINVAL, v)
  else if d.length > MAX then (.err .EINVAL, v)
  else match (if eff = .compressed then decompress cd d else .ok d) with
    | .err e => (.err e, v)
    | .ub => (.ub, v)
    | .ok u =>
      let x := checkDigest dg v id u
      if x.1 then (.ok (), x.2) else (.err .EBADMSG, x.2)

/-- `ca_remote_request`, src/caremote.c:2108-2172. `root` is the cache directory; that opening it (`ca_remote_init_cache`) may fail
is not modelled, nor are the two counters. -/
def request (cd : Codec) (dg : Digest) (root : Bytes) (r : R) (v : V) (id : Bytes) (high : Bool) (des : Compression) :
    Prog (Res (Bytes × Compression) × R × V) :=
  if !has r.localFlags PULL_CHUNKS then .ret (.err .ENOTTY, r, v)
  else if r.state = .eof then .ret (.err .EPIPE, r, v)
  else
    let r := { r with queue := { r.queue with cache := true } }
    Prog.bind (fileLoad cd root id des v.compressionType) fun
      | .err .ENOENT =>
        let x := enqueue r.queue id high true
        .ret ((match x.1 with
          | .ok true => .err .EAGAIN
          | .ok false => .err .EALREADY
          | .err e => .err e
          | .ub => .ub), { r with queue := x.2 }, v)
      | .err .EADDRNOTAVAIL => .ret (.err .ENOENT, r, v)
      | .err e => .ret (.err e, r, v)
      | .ub => .ret (.ub, r, v)
      | .ok (d, eff) =>
        let x := checkChunk cd dg v id eff d
        .ret ((match x.1 with
          | .ok () => .ok (d, eff)
          | .err e => .err e
          | .ub => .ub), r, x.2)

/-- `ca_remote_next_chunk` with a place for the data, src/caremote.c:2615-2668: the id, the data and its compression. -/
def nextChunk (cd : Codec) (dg : Digest) (root : Bytes) (r : R) (v : V) (des : Compression) :
    Prog (Res (Bytes × Bytes × Compression) × V) :=
  match r.lastChunk with
  | none => .ret (.err .ENODATA, v)
  | some id =>
    if r.state = .eof then .ret (.err .EPIPE, v)
    else if !r.queue.cache then .ret (.err .ENODATA, v)
    else Prog.bind (fileLoad cd root id des v.compressionType) fun
      | .err e => .ret (.err e, v)
      | .ub => .ret (.ub, v)
      | .ok (d, eff) =>
        let x := checkChunk cd dg v id eff d
        .ret ((match x.1 with
          | .ok () => .ok (id, d, eff)
          | .err e => .err e
          | .ub => .ub), x.2)

/-- The validation state of an object in a running program: any sequence of configuration calls, requests and deliveries, with any
object, disk and failures. No repo lines. -/
inductive VReach (cd : Codec) (dg : Digest) : V → Prop
  | new : VReach cd dg V.new
  | setDigestType {v v' t} : VReach cd dg v → v.setDigestType t = .ok v' → VReach cd dg v'
  | setCompressionType {v} (t : Nat) : VReach cd dg v → VReach cd dg { v with compressionType := t }
  | request {root r v id high des res r' v'} : VReach cd dg v → Outcome (request cd dg root r v id high des) (res, r', v') → VReach cd dg v'
  | nextChunk {root r v des res v'} : VReach cd dg v → Outcome (nextChunk cd dg root r v des) (res, v') → VReach cd dg v'

end Casync.Remote
