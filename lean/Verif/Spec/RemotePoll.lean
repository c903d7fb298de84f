import Verif.Model.RemotePoll
import Verif.Spec.Remote
/-!
When a process that waits for the other side is woken.
-/
namespace Casync.Remote.Spec
open Casync Casync.Remote

/-- This is how `ca_remote_step()` left the object when it said "poll". -/
def Waiting {W} (e : World W) (r : R) : Prop := ∃ w r0 a, (step' e w r0 a).1 = .ok .poll ∧ (step' e w r0 a).2.1 = r

/-- The descriptor is ready: bytes have arrived that were not read, or bytes may be written. -/
def Ready (incoming : Bytes) (room : Bool) : PollFd → Prop
  | .input wanted => wanted = true ∧ incoming ≠ []
  | .output wanted => wanted = true ∧ room = true

/-- `ca_remote_poll()` goes on waiting. -/
def Blocked (r : R) (incoming : Bytes) (room : Bool) : Prop := ∃ ps, pollSet r = .ok (some ps) ∧ ∀ p ∈ ps, ¬ Ready incoming room p

end Casync.Remote.Spec
