import Verif.Base.Bytes
import Verif.Base.Res
/-!
Model of `src/compressor.c` and of the compression loops of `src/cachunk.c`: the signature check, one call of the encoder and
of the decoder, and the five loops that feed a library block by block (`ca_load_and_decompress_fd`, `ca_decompress`,
`ca_save_and_decompress_fd`, `ca_load_and_compress_fd`, `ca_compress`; `ca_save_and_compress_fd` is `ca_compress` with a
different sink).

liblzma, zlib and libzstd are a parameter (`Lib`): a state machine that is handed a block of input and room for output.
Simplifications: all three libraries are compiled in and their initialisation succeeds, memory allocation succeeds, NULL
arguments are left out. A loop of the C code that has not come to its end after a given number of rounds is `none`.
-/
namespace Casync.Stream
open Casync

/-- `CaCompressionType`, src/cacompression.h:6-21. -/
inductive Kind
  | xz | gzip | zstd
  deriving DecidableEq, Repr

/-- `CA_CHUNK_SIZE_LIMIT_MAX`, src/cachunk.h:11. -/
abbrev LIMIT : Nat := 128 * 1024 * 1024
/-- `BUFFER_SIZE`, src/def.h:8. -/
abbrev BLOCK : Nat := 64 * 1024

/-- What a library says about a call. For liblzma and zlib `fin` is `LZMA_STREAM_END` / `Z_STREAM_END`, `more` `LZMA_OK` /
`Z_OK`; for libzstd `fin` is the return value 0 and `more` any other that is no error. No repo lines. -/
inductive Answer
  | fin | more | bad
  deriving DecidableEq, Repr

/-- `COMPRESSOR_EOF`, `COMPRESSOR_MORE`, `COMPRESSOR_GOOD`, src/compressor.h:62-66. -/
inductive Ret
  | eof | more | good
  deriving DecidableEq, Repr

/-- One call of a library: how much of the input it used up, what it wrote, its answer, its new state. No repo lines. -/
structure Step (σ : Type) where
  used : Nat
  out : Bytes
  answer : Answer
  next : σ

/-- The compression libraries: fresh decoder and encoder states, `lzma_code(LZMA_RUN)` / `inflate` / `ZSTD_decompressStream` on
a decoder, and `lzma_code` / `deflate` / `ZSTD_compressStream`, `ZSTD_endStream` on an encoder (`true`: finish). No repo
lines. -/
structure Lib (σ : Type) where
  decoder : Kind → σ
  encoder : Kind → σ
  decode : σ → Bytes → Nat → Step σ
  encode : σ → Bool → Bytes → Nat → Step σ

/-- `xz_signature`, `gzip_signature`, `zstd_signature`, src/compressor.c:12-22. -/
def signature : Kind → Bytes
  | .xz => [0xfd, 0x37, 0x7a, 0x58, 0x5a, 0x00]
  | .gzip => [0x1f, 0x8b]
  | .zstd => [0x28, 0xb5, 0x2f, 0xfd]

/-- `size >= sizeof(signature) && memcmp(buffer, signature, sizeof(signature)) == 0`, src/compressor.c:24-34. -/
def hasSignature (b : Bytes) (k : Kind) : Bool :=
  decide (b.length ≥ (signature k).length) && decide (b.take (signature k).length = signature k)

/-- `detect_compression`, src/compressor.c:11-40. -/
def detect (b : Bytes) : Res Kind :=
  if hasSignature b .xz = true then .ok .xz
  else if hasSignature b .gzip = true then .ok .gzip
  else if hasSignature b .zstd = true then .ok .zstd
  else if b.length < 6 then .err .EAGAIN
  else .err .EBADMSG

/-- `CompressorContext`, src/compressor.h:28-48, for one operation: the library's state and the input not yet used up
(`next_in`, `avail_in`; `input.src + input.pos`). No repo lines for `kind`: which libraries' conventions apply. -/
structure Ctx (σ : Type) where
  kind : Kind
  state : σ
  pending : Bytes

section
variable {σ : Type}

/-- `compressor_start_decode`, src/compressor.c:57-112. -/
def startDecode (L : Lib σ) (k : Kind) : Ctx σ := ⟨k, L.decoder k, []⟩

/-- `compressor_start_encode`, src/compressor.c:114-169. -/
def startEncode (L : Lib σ) (k : Kind) : Ctx σ := ⟨k, L.encoder k, []⟩

/-- `compressor_input`, src/compressor.c:212-255: the new input replaces what is left of the old one. -/
def input (c : Ctx σ) (p : Bytes) : Ctx σ := { c with pending := p }

/-- `compressor_decode`, src/compressor.c:257-371, with room for `BUFFER_SIZE` bytes: the verdict, the bytes delivered and the
context. The three libraries differ in names only. -/
def decode (L : Lib σ) (c : Ctx σ) : Res (Ret × Bytes × Ctx σ) :=
  if c.pending.length > 0 then
    let s := L.decode c.state c.pending BLOCK
    let c' : Ctx σ := ⟨c.kind, s.next, c.pending.drop s.used⟩
    match s.answer with
    | .bad => .err .EIO
    | .fin => if c'.pending.length > 0 then .err .EBADMSG else .ok (.eof, s.out, c')
    | .more => if c'.pending.length > 0 then .ok (.more, s.out, c') else .ok (.good, s.out, c')
  else .ub

/-- Which call `compressor_encode` makes, src/compressor.c:394, 419, 447-452: liblzma and zlib are told to finish as soon as
the caller says so, libzstd once its input is used up; not to finish then is an assertion. -/
def action (c : Ctx σ) (finalize : Bool) : Res Bool :=
  match c.kind with
  | .zstd => if c.pending.length > 0 then .ok false else if finalize = true then .ok true else .ub
  | _ => .ok finalize

/-- The verdict of `compressor_encode`, src/compressor.c:395-407, 420-432, 453-462. -/
def encodeRet (k : Kind) (a : Answer) (left : Bytes) : Res Ret :=
  match a with
  | .bad => .err .EIO
  | .fin =>
    match k with
    | .zstd => if left.length > 0 then .ok .more else .ok .eof
    | _ => if left.length > 0 then .ub else .ok .eof
  | .more => if left.length > 0 then .ok .more else .ok .good

/-- `compressor_encode`, src/compressor.c:373-473, with room for `BUFFER_SIZE` bytes. -/
def encode (L : Lib σ) (c : Ctx σ) (finalize : Bool) : Res (Ret × Bytes × Ctx σ) := do
  let a ← action c finalize
  let s := L.encode c.state a c.pending BLOCK
  let r ← encodeRet c.kind s.answer (c.pending.drop s.used)
  .ok (r, s.out, ⟨c.kind, s.next, c.pending.drop s.used⟩)

/-- The loop of `ca_decompress`, src/cachunk.c:418-438: `buf` is the buffer, `count` is `dcount`. -/
def decompressLoop (L : Lib σ) : Nat → Ctx σ → Bytes → Nat → Option (Res Bytes)
  | 0, _, _, _ => none
  | n + 1, c, buf, count =>
    match decode L c with
    | .err e => some (.err e)
    | .ub => some .ub
    | .ok (r, out, c') =>
      if count + out.length ≥ LIMIT then some (.err .EINVAL)
      else match r with
        | .eof => some (if count + out.length < 1 then .err .EINVAL else .ok (buf ++ out))
        | _ => decompressLoop L n c' (buf ++ out) (count + out.length)

/-- `ca_decompress`, src/cachunk.c:389-444; `buf` is what the buffer holds already. -/
def decompress (L : Lib σ) (n : Nat) (z buf : Bytes) : Option (Res Bytes) :=
  if z.length < 1 then some (.err .EINVAL)
  else if z.length > LIMIT then some (.err .EINVAL)
  else match detect z with
    | .err .EAGAIN => some (.err .EBADMSG)
    | .err e => some (.err e)
    | .ub => some .ub
    | .ok k => decompressLoop L n (input (startDecode L k) z) buf 0

/-- The loop of `ca_save_and_decompress_fd`, src/cachunk.c:311-331: `file` is what has been written, `io` what becomes of each
write (`some e`: `loop_write` fails; what a failing one has written is not modelled). -/
def saveDecompressLoop (L : Lib σ) (io : Nat → Option Errno) : Nat → Ctx σ → Bytes → Nat → Nat → Option (Res Bytes)
  | 0, _, _, _, _ => none
  | n + 1, c, file, count, i =>
    match decode L c with
    | .err e => some (.err e)
    | .ub => some .ub
    | .ok (r, out, c') =>
      match io i with
      | some e => some (.err e)
      | none =>
        if count + out.length ≥ LIMIT then some (.err .EINVAL)
        else match r with
          | .eof => some (if count + out.length < 1 then .err .EINVAL else .ok (file ++ out))
          | _ => saveDecompressLoop L io n c' (file ++ out) (count + out.length) (i + 1)

/-- `ca_save_and_decompress_fd`, src/cachunk.c:282-337, on an empty file. -/
def saveDecompress (L : Lib σ) (io : Nat → Option Errno) (n : Nat) (z : Bytes) : Option (Res Bytes) :=
  if z.length < 1 then some (.err .EINVAL)
  else if z.length > LIMIT then some (.err .EINVAL)
  else match detect z with
    | .err .EAGAIN => some (.err .EBADMSG)
    | .err e => some (.err e)
    | .ub => some .ub
    | .ok k => saveDecompressLoop L io n (input (startDecode L k) z) [] 0 0

/-- What a `read()` does: fails, or delivers up to so many bytes (at least one unless the file is at its end). No repo lines. -/
inductive Chop
  | fail (e : Errno)
  | give (n : Nat)

/-- `read(fd, buf, size)` on a file of which `rest` has not been read yet: what it delivers and what is left then. No repo
lines. -/
def read (rest : Bytes) (size : Nat) : Chop → Res (Bytes × Bytes)
  | .fail e => .err e
  | .give n => .ok (rest.take (max 1 (min n size)), rest.drop (max 1 (min n size)))

/-- The first loop of `ca_load_and_decompress_fd`, src/cachunk.c:67-88: read until the algorithm is known; `got` is what
`fd_buffer` holds, `io` the reads to come. -/
def sniff (io : Nat → Chop) : Nat → Bytes → Bytes → Nat → Option (Res (Kind × Bytes × Bytes × Nat))
  | 0, _, _, _ => none
  | n + 1, rest, got, i =>
    if got.length < BLOCK then
      match read rest (BLOCK - got.length) (io i) with
      | .err e => some (.err e)
      | .ub => some .ub
      | .ok (l, rest') =>
        if l.length = 0 then some (.err .EPIPE)
        else match detect (got ++ l) with
          | .ok k => some (.ok (k, got ++ l, rest', i + 1))
          | .err .EAGAIN => sniff io n rest' (got ++ l) (i + 1)
          | .err e => some (.err e)
          | .ub => some .ub
    else some .ub

/-- The second loop of `ca_load_and_decompress_fd`, src/cachunk.c:90-136, one round being one call of `compressor_decode` with
the reading that follows it: `ccount` and `dcount` are `cc` and `dc`. `compressor_input` does not fail, see the head of this
file. -/
def loadDecompressLoop (L : Lib σ) (io : Nat → Chop) : Nat → Ctx σ → Bytes → Bytes → Nat → Nat → Nat → Option (Res Bytes)
  | 0, _, _, _, _, _, _ => none
  | n + 1, c, rest, buf, cc, dc, i =>
    match decode L c with
    | .err e => some (.err e)
    | .ub => some .ub
    | .ok (r, out, c') =>
      if dc + out.length ≥ LIMIT then some (.err .EBADMSG)
      else match r with
        | .more => loadDecompressLoop L io n c' rest (buf ++ out) cc (dc + out.length) i
        | _ =>
          match read rest BLOCK (io i) with
          | .err e => some (.err e)
          | .ub => some .ub
          | .ok (l, rest') =>
            if l.length = 0 then
              if r = .eof then some (if cc < 1 ∨ dc + out.length < 1 then .err .EBADMSG else .ok (buf ++ out))
              else some (.err .EPIPE)
            else if r = .eof then some (.err .EBADMSG)
            else if cc + l.length ≥ LIMIT then some (.err .EBADMSG)
            else loadDecompressLoop L io n (input c' l) rest' (buf ++ out) (cc + l.length) (dc + out.length) (i + 1)

/-- `ca_load_and_decompress_fd`, src/cachunk.c:53-142, on a file with content `z`; `buf` is what the buffer holds already. -/
def loadDecompress (L : Lib σ) (io : Nat → Chop) (n : Nat) (z buf : Bytes) : Option (Res Bytes) :=
  match sniff io n z [] 0 with
  | none => none
  | some (.err e) => some (.err e)
  | some .ub => some .ub
  | some (.ok (k, got, rest, i)) =>
    loadDecompressLoop L io n (input (startDecode L k) got) rest buf got.length 0 i

/-- The loop of `ca_compress`, src/cachunk.c:361-381 (and of `ca_save_and_compress_fd`, 254-274, which writes each block to a
file instead of a buffer). -/
def compressLoop (L : Lib σ) : Nat → Ctx σ → Bytes → Nat → Option (Res Bytes)
  | 0, _, _, _ => none
  | n + 1, c, buf, count =>
    match encode L c true with
    | .err e => some (.err e)
    | .ub => some .ub
    | .ok (r, out, c') =>
      if count + out.length ≥ LIMIT then some (.err .EINVAL)
      else match r with
        | .eof => some (if count + out.length < 1 then .err .EINVAL else .ok (buf ++ out))
        | _ => compressLoop L n c' (buf ++ out) (count + out.length)

/-- `ca_compress`, src/cachunk.c:339-387; `buf` is what the buffer holds already. -/
def compress (L : Lib σ) (k : Kind) (n : Nat) (d buf : Bytes) : Option (Res Bytes) :=
  if d.length < 1 then some (.err .EINVAL)
  else if d.length > LIMIT then some (.err .EINVAL)
  else compressLoop L n (input (startEncode L k) d) buf 0

/-- The loop of `ca_load_and_compress_fd`, src/cachunk.c:162-207: `fresh` says that a read comes next, `eof` that the last one
delivered less than a full buffer. -/
def loadCompressLoop (L : Lib σ) (io : Nat → Chop) : Nat → Ctx σ → Bool → Bool → Bytes → Bytes → Nat → Nat → Nat → Option (Res Bytes)
  | 0, _, _, _, _, _, _, _, _ => none
  | n + 1, c, true, _, rest, buf, cc, dc, i =>
    match read rest BLOCK (io i) with
    | .err e => some (.err e)
    | .ub => some .ub
    | .ok (l, rest') =>
      if dc + l.length ≥ LIMIT then some (.err .EBADMSG)
      else loadCompressLoop L io n (input c l) false (decide (l.length < BLOCK)) rest' buf cc (dc + l.length) (i + 1)
  | n + 1, c, false, eof, rest, buf, cc, dc, i =>
    match encode L c eof with
    | .err e => some (.err e)
    | .ub => some .ub
    | .ok (r, out, c') =>
      if cc + out.length ≥ LIMIT then some (.err .EBADMSG)
      else match r with
        | .more => loadCompressLoop L io n c' false eof rest (buf ++ out) (cc + out.length) dc i
        | .good => loadCompressLoop L io n c' true eof rest (buf ++ out) (cc + out.length) dc i
        | .eof => some (if cc + out.length < 1 ∨ dc < 1 then .err .EBADMSG else .ok (buf ++ out))

/-- `ca_load_and_compress_fd`, src/cachunk.c:144-213, on a file with content `d`. -/
def loadCompress (L : Lib σ) (io : Nat → Chop) (k : Kind) (n : Nat) (d buf : Bytes) : Option (Res Bytes) :=
  loadCompressLoop L io n (startEncode L k) true false d buf 0 0 0

end
end Casync.Stream
