import Verif.Model.Http
import Verif.Spec.Remote
/-!
What a client is to get from the helper `casync-http`.
-/
namespace Casync.Http
open Casync Remote Remote.Spec ChunkFile

/-- The greeting, which is not of interest here. -/
def isHello : Msg → Bool
  | .hello _ => true
  | _ => false

/-- What is said besides the greeting. -/
def talk (ms : List Msg) : List Msg := ms.filter fun m => !isHello m

/-- The server delivered all that it has under this address, within nine attempts. -/
def Success (p : Protocol) (t : Transfer) : Prop :=
  t.refused < 9 ∧ ∃ s, t.status = some s ∧ ((p = .http ∧ s = 200) ∨ (p = .ftp ∧ 200 ≤ s ∧ s < 300) ∨ (p = .sftp ∧ s = 0))

instance (p : Protocol) (t : Transfer) : Decidable (Success p t) :=
  decidable_of_iff (t.refused < 9 ∧ ∃ s ∈ t.status, (p = .http ∧ s = 200) ∨ (p = .ftp ∧ 200 ≤ s ∧ s < 300) ∨ (p = .sftp ∧ s = 0)) Iff.rfl

/-- What the server delivered. -/
def body (t : Transfer) : Bytes := t.pieces.flatten

/-- The answer to a request for a chunk. -/
def reply (p : Protocol) (id : Bytes) (t : Transfer) : Msg := if Success p t then .chunk id true (body t) else .missing id

/-- The answers to these requests, from the n-th transfer on. -/
def replies (p : Protocol) (server : Nat → Bytes → Transfer) (url : Bytes → Bytes) : Nat → List Bytes → List Msg
  | _, [] => []
  | n, id :: ids => reply p id (server n (url id)) :: replies p server url (n + 1) ids

/-- What is said about a file: a beginning of it; the whole and its end, if it was delivered; a beginning of what was delivered and an
abort, if the server said that it is something else: `ENOMEDIUM` if there is no such file, else `EBADR`. -/
inductive FileTalk (p : Protocol) (a : Bool) (t : Transfer) : (complete : Bool) → List Msg → Prop
  | some {ds : List Bytes} : ds.flatten <+: body t → FileTalk p a t false (ds.map (.file a))
  | all {ds : List Bytes} : ds.flatten = body t → Success p t → FileTalk p a t true (ds.map (.file a) ++ [.fileEof a])
  | abort {ds : List Bytes} {s x : Nat} {text : Bytes} : ds.flatten <+: body t → t.status = some s → ¬ Success p t → x = (if p = .http ∧ s = 404 then 123 else 53) → FileTalk p a t false (ds.map (.file a) ++ [.abort x text])

/-- What is said about an optional file. -/
def FileTalk? (p : Protocol) (a : Bool) (t : Option Transfer) (complete : Bool) (ms : List Msg) : Prop :=
  match t with
  | none => complete = true ∧ ms = []
  | some t => FileTalk p a t complete ms

/-- All that is said besides the greeting, when these ids were answered: first the archive, then the index, then chunks from the first store; nothing
after a file that is not complete. The transfers are numbered. -/
def Tells (p : Protocol) (archive index : Option Bytes) (stores : List Bytes) (server : Nat → Bytes → Transfer) (ids : List Bytes) (ms : List Msg) : Prop :=
  ∃ A I a i, ms = A ++ I ++ replies p server (chunkUrl (stores.headD [])) (archive.toList.length + index.toList.length) ids ∧
    FileTalk? p true (archive.map (server 0)) a A ∧ FileTalk? p false (index.map (server archive.toList.length)) i I ∧
    (a = false → I = [] ∧ ids = []) ∧ (i = false → ids = []) ∧ (stores = [] → ids = [])

/-- The address of a chunk: that of the store up to the first `?` or `;`, without slashes at its end, a slash, four digits, a slash, all digits, and the
suffix `.cacnk`. -/
def IsAddress (store id url : Bytes) : Prop :=
  ∃ base slashes args, store = base ++ slashes ++ args ∧ (∀ b ∈ base ++ slashes, b ≠ 63 ∧ b ≠ 59) ∧ (∀ b, args.head? = some b → b = 63 ∨ b = 59) ∧
    (∀ b ∈ slashes, b = 47) ∧ base.getLast? ≠ some 47 ∧ url = ChunkId.formatPath (base ++ [47]) id [46, 99, 97, 99, 110, 107]

/-- The address can be named in a message. -/
def Printable (u : Bytes) : Prop := u.length ≤ 1048576 ∧ ∀ b ∈ u, 32 ≤ b

/-- What is usual: there is something to do, addresses can be named in messages, a status is a `long`, and libcurl does not deliver the archive in
empty pieces. -/
structure Usual (archive index : Option Bytes) (stores : List Bytes) (server : Nat → Bytes → Transfer) : Prop where
  something : archive ≠ none ∨ index ≠ none ∨ stores ≠ []
  printable : ∀ u, archive = some u ∨ index = some u → Printable u
  status : ∀ n u s, (server n u).status = some s → s < 2 ^ 63
  pieces : ∀ u, archive = some u → ∀ d ∈ (server 0 u).pieces, d ≠ []

/-- The requests in messages, with their priority. -/
def requests (ms : List Msg) : List (Bytes × Bool) :=
  ms.flatMap fun
    | .request h ids => ids.map fun id => (id, h)
    | _ => []

/-- A history of a request queue in which these ids were asked for, and nothing was asked for again or forgotten. -/
def asks (os : List Op) : List (Bytes × Bool) :=
  os.filterMap fun
    | .enqueue id h _ => some (id, h)
    | _ => none

/-- The history of a queue that is filled by the requests of a peer. -/
def Plain (os : List Op) : Prop := ∀ o ∈ os, o = .dequeue none ∨ ∃ id h, o = .enqueue id h false

/-- The ids handed out by a queue, in order. -/
def handed (outs : List Out) : List Bytes :=
  outs.filterMap fun
    | .dequeued (.ok (id, _)) => some id
    | _ => none

end Casync.Http
