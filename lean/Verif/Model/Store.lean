import Verif.Model.ChunkFile
/-!
Model of `src/castore.c`.
-/
namespace Casync.Store
open Casync Os ChunkFile

/-- Digests: an arbitrary function from digest type and data to an id (src/cadigest.c, `ca_chunk_id_make`
src/cachunkid.c:65-86). -/
abbrev Digest := Nat → Bytes → Bytes

/-- Number of digest types (`_CA_DIGEST_TYPE_MAX`, src/cadigest.h); type 0 is SHA256, type 1 SHA512/256. -/
abbrev digestTypes : List Nat := [0, 1]
/-- `CA_DIGEST_DEFAULT`, src/cadigest.h. -/
abbrev digestDefault : Nat := 1

/-- src/castore.c:20-36 `struct CaStore`: `cur` is the type of `validate_digest`, if allocated; `digestType = none` is
`_CA_DIGEST_TYPE_INVALID`. The buffers and the two counters are not modelled. -/
structure Store where
  root : Option Bytes
  isCache : Bool
  mkdirDone : Bool
  digestType : Option Nat
  cur : Option Nat
  compression : Compression
  compressionType : Nat
  deriving DecidableEq, Repr

/-- `CA_COMPRESSION_DEFAULT`, src/cacompression.h (zstd if compiled in; which number it has does not matter). -/
abbrev compressionDefault : Nat := 2
/-- `_CA_COMPRESSION_TYPE_MAX`, src/cacompression.h. -/
abbrev compressionTypeMax : Nat := 3

/-- `ca_store_new`, src/castore.c:45-58. -/
def new : Store := ⟨none, false, false, none, none, .compressed, compressionDefault⟩

/-- `ca_store_new_cache`, src/castore.c:60-72: the digest type is left at 0, which is SHA256. -/
def newCache : Store := ⟨none, true, false, some 0, none, .asIs, compressionDefault⟩

/-- `ca_store_set_path`, src/castore.c:89-107. -/
def setPath (s : Store) (path : Bytes) : Res Store :=
  if s.root.isSome then .err .EBUSY
  else .ok { s with root := some (if path.getLast? = some 47 then path else path ++ [47]) }

/-- `ca_store_set_compression`, src/castore.c:109-119. -/
def setCompression (s : Store) (c : Compression) : Store := { s with compression := c }

/-- `ca_store_set_compression_type`, src/castore.c:121-131. -/
def setCompressionType (s : Store) (t : Nat) : Res Store :=
  if t ≥ compressionTypeMax then .err .EOPNOTSUPP else .ok { s with compressionType := t }

/-- `ca_store_set_digest_type`, src/castore.c:303-324; `none` is a negative type. -/
def setDigestType (s : Store) (t : Option Nat) : Res Store :=
  match t with
  | none => .ok { s with digestType := none }
  | some t =>
    if t ≥ digestTypes.length then .err .EOPNOTSUPP
    else .ok { s with digestType := some t, cur := if s.cur.isSome then some t else none }

/-- src/castore.c:187-205, the loop over the other digest types: whether one matches, and the type the digest object has
afterwards. -/
def tryOthers (dg : Digest) (id v : Bytes) (old cur : Nat) : List Nat → Bool × Nat
  | [] => (false, cur)
  | i :: is =>
    if i = old then tryOthers dg id v old cur is
    else if ChunkId.equal id (dg i v) then (true, i)
    else tryOthers dg id v old i is

/-- src/castore.c:163-210, the verification in `ca_store_get` of the uncompressed data `v`: accepted or not, and the store
afterwards. -/
def verify (dg : Digest) (s : Store) (id v : Bytes) : Bool × Store :=
  let cur := s.cur.getD (s.digestType.getD digestDefault)
  if ChunkId.equal id (dg cur v) then (true, { s with cur := some cur })
  else if s.digestType.isSome then (false, { s with cur := some cur })
  else
    let r := tryOthers dg id v cur cur digestTypes
    (r.1, { s with cur := some r.2 })

/-- `ca_decompress`, src/cachunk.c:385-443, on top of the decoder. -/
def decompress (cd : Codec) (d : Bytes) : Res Bytes :=
  if d.length < 1 ∨ d.length > MAX then .err .EINVAL
  else match cd.dec d with
    | .ok u => if u.length ≥ MAX then .err .EINVAL else if u.length < 1 then .err .EINVAL else .ok u
    | .err e => .err e
    | .ub => .ub

/-- src/castore.c:147-220, `ca_store_get` behind the load. -/
def finish (cd : Codec) (dg : Digest) (s : Store) (id : Bytes) (d : Bytes) (eff : Compression) :
    Res (Bytes × Compression) × Store :=
  let v := if eff = .compressed then decompress cd d else .ok d
  match v with
  | .err e => (.err e, s)
  | .ub => (.ub, s)
  | .ok v =>
    let r := verify dg s id v
    if r.1 then (.ok (d, eff), r.2) else (.err .EBADMSG, r.2)

/-- `ca_store_get`, src/castore.c:121-220: data, effective compression, and the store afterwards. -/
def get (cd : Codec) (dg : Digest) (s : Store) (id : Bytes) (des : Compression) :
    Prog (Res (Bytes × Compression) × Store) :=
  match s.root with
  | none => .ret (.err (if s.isCache then .ENOENT else .EUNATCH), s)
  | some root =>
    Prog.bind (fileLoad cd root id des s.compressionType) fun
      | .err e => .ret (.err e, s)
      | .ub => .ret (.ub, s)
      | .ok (d, eff) => .ret (finish cd dg s id d eff)

/-- `ca_store_has`, src/castore.c:222-230. -/
def has (s : Store) (id : Bytes) : Prog (Res Bool) :=
  match s.root with
  | none => .ret (.err (if s.isCache then .ENOENT else .EUNATCH))
  | some root => fileTest root id

/-- `ca_store_put`, src/castore.c:232-273. `fresh` is the name of the directory that a cache without one makes up
(`<tmpdir>/<random>.castr/`, lines 246-251), `tmp` is the temporary suffix of the chunk file. The result comes with the
store afterwards. -/
def put (cd : Codec) (s : Store) (fresh : Bytes) (id : Bytes) (eff : Compression) (tmp data : Bytes) :
    Prog (Res Unit × Store) :=
  if s.root = none ∧ s.isCache = false then .ret (.err .EUNATCH, s)
  else
    let root := s.root.getD fresh
    let s := { s with root := some root }
    let save (s : Store) : Prog (Res Unit × Store) :=
      Prog.bind (fileSave cd root id eff s.compression s.compressionType tmp data) fun r => .ret (r, s)
    if s.mkdirDone then save s
    else .call (.mkdir root) fun
      | .err e => if e ≠ .EEXIST then .ret (.err e, s) else save { s with mkdirDone := true }
      | _ => save { s with mkdirDone := true }

/-- Stores that exist in a running program: made by one of the constructors, configured, and used for any number of gets and
puts, with any disk contents and any failures. No repo lines: this is the order in which users may call the functions. -/
inductive Reachable (cd : Codec) (dg : Digest) : Store → Prop
  | new : Reachable cd dg new
  | newCache : Reachable cd dg newCache
  | setPath {s s' path} : Reachable cd dg s → setPath s path = .ok s' → Reachable cd dg s'
  | setCompression {s c} : Reachable cd dg s → Reachable cd dg (setCompression s c)
  | setCompressionType {s s' t} : Reachable cd dg s → setCompressionType s t = .ok s' → Reachable cd dg s'
  | setDigestType {s s' t} : Reachable cd dg s → setDigestType s t = .ok s' → Reachable cd dg s'
  | get {s s' id des r} : Reachable cd dg s → Outcome (get cd dg s id des) (r, s') → Reachable cd dg s'
  | put {s s' fresh id eff tmp data r} : Reachable cd dg s → Outcome (put cd s fresh id eff tmp data) (r, s') →
      Reachable cd dg s'

end Casync.Store
