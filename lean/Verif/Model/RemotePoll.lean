import Verif.Model.Remote
/-!
Waiting for the other side of the protocol.

Sources: src/caremote.c:333-380, 1982-2020; src/casync.c:3775-3846.

The descriptors are connected. What `ppoll()` is asked is modelled, the timeout and the signal mask are not.
-/
namespace Casync.Remote
open Casync

/-- `ca_remote_get_io_events()`, src/caremote.c:360-380: is `POLLIN` asked for, is `POLLOUT`? -/
def ioEvents (r : R) : Bool × Bool := (r.input.length < readSize r, !r.output.isEmpty)

/-- What `ppoll()` waits for at one descriptor: that of the input or that of the output of a peer. No repo lines. -/
inductive PollFd
  | input (wanted : Bool)
  | output (wanted : Bool)
  deriving DecidableEq, Repr

/-- `ca_remote_poll()`, src/caremote.c:1982-2020: what `ppoll()` is called with; `none`: the function returns at once, without waiting. -/
def pollSet (r : R) : Res (Option (List PollFd)) :=
  if r.state = .eof then .err .EPIPE
  else
    let a := if r.input.length < readSize r then [PollFd.input true] else []
    let b := if r.output.length > 0 then [PollFd.output true] else []
    if a ++ b = [] then .ok none else .ok (some (a ++ b))

/-- `ca_sync_add_pollfd()`, src/casync.c:3775-3794. -/
def addPollFd (r : R) : List PollFd := [.input (ioEvents r).1, .output (ioEvents r).2]

/-- `ca_sync_poll()`, src/casync.c:3796-3846: what `ppoll()` is called with, for each remote in turn (archive, index, store to write, stores to
read, as far as they are remote). -/
def syncPollSet (rs : List R) : Res (List (Nat × PollFd)) :=
  if rs = [] then .err .EUNATCH
  else .ok (rs.zipIdx.flatMap fun x => (addPollFd x.1).map fun p => (x.2, p))

end Casync.Remote
