import Verif.Model.Remote
/-!
What the remote protocol is supposed to be: how a byte stream is cut into frames (C32), what the messages look like (C48), what a
file transfer is (C49). See doc and src/caprotocol.h.
-/
namespace Casync.Remote.Spec
open Casync Casync.Remote ChunkFile

/-- A frame begins with its own length, which is between 16 bytes and 16 MiB. -/
def IsFrame (f : Bytes) : Prop := 16 ≤ f.length ∧ f.length ≤ 16777216 ∧ f.take 8 = le64 f.length

/-- A byte stream is a sequence of frames, and something left over. -/
def Split (s : Bytes) (fs : List Bytes) (rest : Bytes) : Prop := s = fs.flatten ++ rest ∧ ∀ f ∈ fs, IsFrame f

/-- No frame is complete at the start of these bytes. -/
def Incomplete (s : Bytes) : Prop := ∀ f, f <+: s → ¬ IsFrame f

/-- The numbers that stand for the messages, src/caprotocol.h. -/
def typeOf : Msg → Nat
  | .hello _ => 0x3c71d0948ca5fbee
  | .file false _ => 0xb32a91dd2b3e27f8
  | .fileEof false => 0x4f0932f1043718f5
  | .file true _ => 0x95d6428a69eddcc5
  | .fileEof true => 0x450bef663f24cbad
  | .request _ _ => 0x8ab427e0f89d9210
  | .chunk _ _ _ => 0x5213dd180a84bc8c
  | .missing _ => 0xd010f9fac82b7b6c
  | .goodbye => 0xad205dbf1a3686c3
  | .abort _ _ => 0xe7d9136b7efea352

/-- What follows the length and the type. -/
def body : Msg → Bytes
  | .hello flags => le64 flags
  | .file _ data => data
  | .fileEof _ => []
  | .request high ids => le64 (if high then 1 else 0) ++ ids.flatten
  | .chunk id compressed data => le64 (if compressed then 1 else 0) ++ id ++ data
  | .missing id => id
  | .goodbye => []
  | .abort error reason => le64 error ++ reason ++ [0]

/-- A message as a frame. -/
def encode (m : Msg) : Bytes := le64 (16 + (body m).length) ++ le64 (typeOf m) ++ body m

/-- Messages that make sense: flags are given and not empty, files are sent in non-empty pieces, ids have 32 bytes, a request has
at least one id, a chunk is not empty, the text of an abort is printable. -/
def WF : Msg → Prop
  | .hello flags => flags ≠ 0 ∧ flags < 2 ^ 64 - 1
  | .file _ data => data ≠ []
  | .fileEof _ => True
  | .request _ ids => ids ≠ [] ∧ ∀ id ∈ ids, id.length = 32
  | .chunk id _ data => id.length = 32 ∧ data ≠ []
  | .missing id => id.length = 32
  | .goodbye => True
  | .abort error reason => error < 2 ^ 31 - 1 ∧ ∀ b ∈ reason, 32 ≤ b

/-- A connection as an observer sees it: the object, the world, all bytes received, the frames taken from them, all bytes
handed to the transport, and what the caller (or the file that is being sent) gave to be sent. -/
structure Conn (W : Type) where
  r : R
  w : W
  received : Bytes
  log : List Bytes
  sent : Bytes
  said : List Msg

/-- What `read` adds to the received bytes. -/
def arrived : Act → Rc → Bytes
  | .read (some d), .ok .step => d
  | _, _ => []

/-- The frame that was consumed. -/
def consumed (before after : R) : Act → Rc → List Bytes
  | .message, .ok .poll => []
  | .message, .ok _ => [before.input.take (before.input.length - after.input.length)]
  | _, _ => []

/-- What `write` took from the output. -/
def departed (before after : R) : Act → Bytes
  | .write _ => before.output.take (before.output.length - after.output.length)
  | _ => []

/-- The message that a successful call is meant to send; `sendRequest` takes its message from the queue and is not listed. -/
def speaks (before : R) : Act → Rc → List Msg
  | .sendHello, .ok .step => [.hello before.localFlags]
  | .sendFile a (.ok d), .ok .step => [if d = [] then .fileEof a else .file a d]
  | .putChunk id c d, .ok .step => [.chunk id (c = .compressed) d]
  | .putMissing id, .ok .step => [.missing id]
  | .putFile a d, .ok .step => [.file a d]
  | .putFileEof a, .ok .step => [.fileEof a]
  | .goodbye, .ok .step => [.goodbye]
  | .abort x s, .ok .step => [.abort x s]
  | _, _ => []

/-- One call. -/
def Conn.act {W} (e : World W) (c : Conn W) (a : Act) : Conn W :=
  let x := Remote.act e c.w c.r a
  ⟨x.2.1, x.2.2, c.received ++ arrived a x.1, c.log ++ consumed c.r x.2.1 a x.1, c.sent ++ departed c.r x.2.1 a,
    c.said ++ speaks c.r a x.1⟩

/-- A history of calls, whatever they return. -/
def Conn.run {W} (e : World W) (c : Conn W) : List Act → Conn W
  | [] => c
  | a :: as => (c.act e a).run e as

/-- A new connection. -/
def Conn.new {W} (w : W) (r : R) : Conn W := ⟨r, w, [], [], [], []⟩

/-- The calls have sensible arguments: ids have 32 bytes, the text of an abort is printable and fits in a frame. -/
def Sensible : Act → Prop
  | .putChunk id _ _ => id.length = 32
  | .putMissing id => id.length = 32
  | .abort _ s => s.length + 25 ≤ 16777216 ∧ ∀ b ∈ s, 32 ≤ b
  | _ => True

/-- Requests are sent from the queue, everything else because of a call. -/
def isRequest : Msg → Bool
  | .request _ _ => true
  | _ => false

/-- The pieces of the index (`false`) or archive (`true`) in a sequence of messages, joined. -/
def fileData (a : Bool) (ms : List Msg) : Bytes :=
  (ms.map fun m => match m with | .file a' d => if a' = a then d else [] | _ => []).flatten

/-- The end of this file was announced. -/
def Ended (a : Bool) (ms : List Msg) : Prop := Msg.fileEof a ∈ ms

/-- What is in the two files that are being received (`content`) and under their final names (`final`), as far as the operations
of the engine have to do with it. -/
structure Laws {W : Type} (e : World W) (content : W → Bool → Bytes) (final : W → Bool → Option Bytes) : Prop where
  save_content : ∀ w id c d, content (e.save w id c d).2 = content w
  save_final : ∀ w id c d, final (e.save w id c d).2 = final w
  missing_content : ∀ w id, content (e.missing w id).2 = content w
  missing_final : ∀ w id, final (e.missing w id).2 = final w
  write_ok : ∀ w a d w', e.write w a d = (.ok (), w') → content w' = fun x => if x = a then content w x ++ d else content w x
  write_other : ∀ w a d, content (e.write w a d).2 (!a) = content w (!a)
  write_final : ∀ w a d, final (e.write w a d).2 = final w
  rename_content : ∀ w a, content (e.rename w a).2 = content w
  rename_ok : ∀ w a w', e.rename w a = (.ok (), w') → final w' = fun x => if x = a then some (content w a) else final w x
  rename_err : ∀ w a, (e.rename w a).1 ≠ .ok () → final (e.rename w a).2 = final w

/-- A history as the programs produce it: they stop when a frame was not accepted, and the file to be received is open when
frames are processed on a running connection. -/
def Orderly {W} (e : World W) (a : Bool) (c : Conn W) : List Act → Prop
  | [] => True
  | x :: xs => (x = .message → (∃ s, (Remote.act e c.w c.r x).1 = .ok s) ∧ (c.r.state = .running → receivesFile c.r a = true → (c.r.file a).fd = true)) ∧
      Orderly e a (c.act e x) xs

/-- The effect of frames that come one after the other. -/
def deliver {W} (e : World W) (w : W) (r : R) : List Bytes → R × W
  | [] => (r, w)
  | f :: fs => deliver e (dispatch e w r f).2.2 (dispatch e w r f).2.1 fs

/-- Everything this side wants to do (bits 6-10 and 12: pull or push chunks, index, archive) the other side offers (bits 0-5: readable
or writable store, index, archive). -/
def Served (ops services : Nat) : Prop :=
  (ops.testBit 6 → services.testBit 0) ∧ (ops.testBit 7 → services.testBit 2) ∧ (ops.testBit 8 → services.testBit 4) ∧
  (ops.testBit 9 → services.testBit 1) ∧ (ops.testBit 10 → services.testBit 3) ∧ (ops.testBit 12 → services.testBit 5)

/-- The peer may send this message now. -/
def Permitted (state : State) (localFlags remoteFlags : Nat) : Msg → Prop
  | .hello _ => state = .hello
  | .file false _ | .fileEof false => state = .running ∧ (localFlags.testBit 7 ∨ remoteFlags.testBit 10)
  | .file true _ | .fileEof true => state = .running ∧ (localFlags.testBit 8 ∨ remoteFlags.testBit 12)
  | .request _ _ => state = .running ∧ (localFlags.testBit 9 ∨ remoteFlags.testBit 6)
  | .chunk _ _ _ | .missing _ => state = .running ∧ (localFlags.testBit 6 ∨ remoteFlags.testBit 9)
  | .goodbye => state = .running
  | .abort _ _ => True

end Casync.Remote.Spec
