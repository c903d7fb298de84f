import Verif.Model.Compressor
/-!
Vocabulary for C61: stream formats and what is asked of a compression library.
-/
namespace Casync.Stream
open Casync

/-- The bytes every file of a format begins with (xz file format 2.1.1.1, RFC 1952, RFC 8878). No repo lines. -/
def Magic : Kind → Bytes
  | .xz => [253, 55, 122, 88, 90, 0]
  | .gzip => [31, 139]
  | .zstd => [40, 181, 47, 253]

/-- `fmt k z d`: `z` is one complete stream of format `k`, and `d` is what it contains. No repo lines. -/
abbrev Format := Kind → Bytes → Bytes → Prop

/-- What is asked of a family of formats: streams begin with their magic bytes, and none is the beginning of a longer one. -/
structure Format.Ok (fmt : Format) : Prop where
  magic : ∀ k z d, fmt k z d → Magic k <+: z
  once : ∀ k z d w u, fmt k z d → fmt k (z ++ w) u → w = [] ∧ u = d

/-- One list is a beginning of the other. -/
def Comparable (a b : Bytes) : Prop := a <+: b ∨ b <+: a

/-- What is asked of a decoder: `At k s z d` says that in state `s` it has taken `z` and delivered `d`, and is not done. -/
structure Decodes {σ : Type} (L : Lib σ) (fmt : Format) (At : Kind → σ → Bytes → Bytes → Prop) : Prop where
  /-- A fresh decoder has taken and delivered nothing. -/
  fresh : ∀ k, At k (L.decoder k) [] []
  /-- It keeps to its input and to the room for its output. -/
  bounds : ∀ k s z d inp room, At k s z d → inp ≠ [] → room > 0 →
    (L.decode s inp room).used ≤ inp.length ∧ (L.decode s inp room).out.length ≤ room
  /-- It goes on only when it has taken or delivered something. -/
  more : ∀ k s z d inp room, At k s z d → inp ≠ [] → room > 0 → (L.decode s inp room).answer = .more →
    At k (L.decode s inp room).next (z ++ inp.take (L.decode s inp room).used) (d ++ (L.decode s inp room).out) ∧
      (0 < (L.decode s inp room).used ∨ (L.decode s inp room).out ≠ [])
  /-- It is done only at the end of a stream, and what it has delivered is the content. -/
  fin : ∀ k s z d inp room, At k s z d → inp ≠ [] → room > 0 → (L.decode s inp room).answer = .fin →
    fmt k (z ++ inp.take (L.decode s inp room).used) (d ++ (L.decode s inp room).out)
  /-- On a stream of the format it does not fail, does not read past the end, does not take the last byte without being done
  (zlib and liblzma check the trailer there, libzstd holds the last byte back), and delivers nothing but the content. -/
  whole : ∀ k s z d w u inp room, At k s z d → w ≠ [] → fmt k (z ++ w) u → inp ≠ [] → Comparable inp w → room > 0 →
    (L.decode s inp room).answer ≠ .bad ∧ (L.decode s inp room).used ≤ w.length ∧
      ((L.decode s inp room).answer = .more → (L.decode s inp room).used < w.length ∧ d ++ (L.decode s inp room).out <+: u)

/-- What is asked of an encoder: `At k s d z f` says that in state `s` it has taken `d` and delivered `z`; `f` is `none` as long
as it has not been told to finish, and else what it still has to take: from then on it must be told to finish on that input
every time. -/
structure Encodes {σ : Type} (L : Lib σ) (fmt : Format) (At : Kind → σ → Bytes → Bytes → Option Bytes → Prop) : Prop where
  fresh : ∀ k, At k (L.encoder k) [] [] none
  /-- Told to go on, it takes or delivers something, and does not end. -/
  run : ∀ k s d z inp room, At k s d z none → inp ≠ [] → room > 0 →
    (L.encode s false inp room).used ≤ inp.length ∧ (L.encode s false inp room).answer ≠ .fin ∧
      ((L.encode s false inp room).answer = .more →
        At k (L.encode s false inp room).next (d ++ inp.take (L.encode s false inp room).used) (z ++ (L.encode s false inp room).out) none ∧
          (0 < (L.encode s false inp room).used ∨ (L.encode s false inp room).out ≠ []))
  /-- Told to finish, it takes or delivers something, and when it ends it has taken everything and delivered a stream. -/
  finish : ∀ k s d z f inp room, At k s d z f → (f = none ∨ f = some inp) → room > 0 →
    (L.encode s true inp room).used ≤ inp.length ∧
      ((L.encode s true inp room).answer = .fin →
        (L.encode s true inp room).used = inp.length ∧ fmt k (z ++ (L.encode s true inp room).out) (d ++ inp)) ∧
      ((L.encode s true inp room).answer = .more →
        At k (L.encode s true inp room).next (d ++ inp.take (L.encode s true inp room).used) (z ++ (L.encode s true inp room).out)
            (some (inp.drop (L.encode s true inp room).used)) ∧
          (0 < (L.encode s true inp room).used ∨ (L.encode s true inp room).out ≠ []))

/-- An encoder that never fails (as for lack of memory). -/
def NeverBad {σ : Type} (L : Lib σ) : Prop := ∀ s f inp room, (L.encode s f inp room).answer ≠ .bad

/-- No read fails. -/
def NoFail (io : Nat → Chop) : Prop := ∀ i e, io i ≠ .fail e

/-- No read delivers less than asked for unless the file ends. -/
def FullReads (io : Nat → Chop) : Prop := ∀ i n, io i = .give n → n ≥ 65536

/-- No output of the encoder on the way to the stream of `D` reaches the limit. -/
structure Small {σ : Type} (fmt : Format) (At : Kind → σ → Bytes → Bytes → Option Bytes → Prop) (D : Bytes) : Prop where
  way : ∀ k s d z f, At k s d z f → d <+: D → z.length < 134217728
  whole : ∀ k z, fmt k z D → z.length < 134217728

end Casync.Stream
