import Verif.Model.BlockDevice
/-!
Vocabulary for C53: the messages of the network block device protocol, and what a reader of the device sees.
-/
namespace Casync.Nbd.Spec
open Casync Casync.Nbd

/-- A 32 bit number, most significant byte first. -/
def be32 (n : Nat) : Bytes := [UInt8.ofNat (n / 2 ^ 24), UInt8.ofNat (n / 2 ^ 16), UInt8.ofNat (n / 2 ^ 8), UInt8.ofNat n]

/-- A 64 bit number, most significant byte first. -/
def be64 (n : Nat) : Bytes := be32 (n / 2 ^ 32) ++ be32 n

/-- The message with which the kernel asks for `len` bytes at offset `start`; `handle` is its name for the request. -/
def request (handle : Bytes) (start len : Nat) : Bytes :=
  be32 0x25609513 ++ be32 0 ++ handle ++ be64 start ++ be32 len

/-- The fields have the sizes they have in the message, and at least one byte is asked for. -/
structure WellFormed (handle : Bytes) (start len : Nat) : Prop where
  handle : handle.length = 8
  start : start < 2 ^ 64
  pos : 0 < len
  len : len < 2 ^ 32

/-- The bytes of the device at `start`: those of the image, and zeros behind its end. -/
def content (image : Bytes) (start len : Nat) : Bytes := (List.range len).map fun i => image.getD (start + i) 0

/-- The message that answers the request: no error, the same name, and the data. -/
def reply (image : Bytes) (handle : Bytes) (start len : Nat) : Bytes :=
  be32 0x67446698 ++ be32 0 ++ handle ++ content image start len

/-- What passes over the socket: each request is answered with its reply before the next is read. The last one may be unanswered, or its answer
may be cut short; anything else than a request for data is the end. -/
inductive Exchanges (image : Bytes) : List Obs → Prop
  | none : Exchanges image []
  | refused (m : Bytes) (h : ∀ handle start len, WellFormed handle start len → m ≠ request handle start len) : Exchanges image [.received m]
  | unanswered (handle : Bytes) (start len : Nat) (h : WellFormed handle start len) : Exchanges image [.received (request handle start len)]
  | broken (handle : Bytes) (start len : Nat) (h : WellFormed handle start len) (w : Bytes) (hw : w <+: reply image handle start len) :
      Exchanges image [.received (request handle start len), .wrote w]
  | answered (handle : Bytes) (start len : Nat) (h : WellFormed handle start len) (rest : List Obs) (hr : Exchanges image rest) :
      Exchanges image (.received (request handle start len) :: .wrote (reply image handle start len) :: rest)

/-- What is seen of the tool: nothing, or a device with the smallest number of sectors that holds the image, and then the exchanges. -/
inductive Session (image : Bytes) : List Obs → Prop
  | nothing : Session image []
  | device (sectors : Nat) (h1 : image.length ≤ 512 * sectors) (h2 : ∀ k, image.length ≤ 512 * k → sectors ≤ k) (h3 : 0 < sectors)
      (rest : List Obs) (hr : Exchanges image rest) : Session image (.attached (512 * sectors) :: rest)

end Casync.Nbd.Spec

namespace Casync.Nbd
open Casync

/-- Whatever is answered for the id of a piece of the image is this piece, and no callback fails an assertion. -/
def Choice.Genuine (H : Bytes → Bytes) (xs : List Bytes) : Choice → Prop
  | .decode _ answer _ _ => (∀ x ∈ xs, ∀ y, answer (H x) = .ok y → y = x) ∧ ∀ id, answer id ≠ .ub
  | .prefetch _ has ask => (∀ id, has id ≠ .ub) ∧ ∀ id, ask id ≠ .ub
  | _ => True

/-- A round in which nothing fails and nothing is missing: the decoder runs, the seeds are ready, every piece of the image is available. -/
structure Env.Helpful (H : Bytes → Bytes) (xs : List Bytes) (e : Env) : Prop where
  choice : ∃ answer short, e.choice = .decode true answer short none ∧ ∀ x ∈ xs, answer (H x) = .ok x
  write : e.writeError = none

end Casync.Nbd
