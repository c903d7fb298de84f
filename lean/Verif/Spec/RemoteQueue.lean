import Verif.Model.RemoteQueue
/-!
What the request queue is supposed to be (C33): two lists of waiting ids, one per priority, first come first served, and for
each priority the ids that were handed out.
-/
namespace Casync.Remote.Spec
open Casync Casync.Remote

/-- `waiting p` in order of arrival; `sent p` those handed out with priority `p` (`true` is high). -/
structure S where
  waiting : Bool → List Bytes
  sent : Bool → List Bytes

def S.empty : S := ⟨fun _ => [], fun _ => []⟩

/-- The id has been asked for with priority `p` (and was neither upgraded nor forgotten since). -/
def S.Known (s : S) (p : Bool) (id : Bytes) : Prop := id ∈ s.waiting p ∨ id ∈ s.sent p

instance (s : S) (p : Bool) (id : Bytes) : Decidable (s.Known p id) := inferInstanceAs (Decidable (_ ∨ _))

/-- Without this id. -/
def S.remove (s : S) (id : Bytes) : S :=
  ⟨fun p => (s.waiting p).filter (· ≠ id), fun p => (s.sent p).filter (· ≠ id)⟩

/-- With this id at the end of the queue. -/
def S.add (s : S) (p : Bool) (id : Bytes) : S :=
  { s with waiting := fun x => if x = p then s.waiting x ++ [id] else s.waiting x }

/-- Asking for an id: nothing happens if it was already asked for with the same or higher priority. A high priority request
upgrades a waiting low priority one, and repeats one that was already handed out only if that is wished. -/
def enqueue (s : S) (id : Bytes) (high requeue : Bool) : Bool × S :=
  if s.Known true id then (false, s)
  else if s.Known false id then
    if high ∧ (id ∈ s.waiting false ∨ requeue) then (true, (s.remove id).add true id) else (false, s)
  else (true, s.add high id)

/-- Take the oldest id of priority `p`. -/
def take (s : S) (p : Bool) : Option (Bytes × S) :=
  match s.waiting p with
  | [] => none
  | id :: rest =>
    some (id, ⟨fun x => if x = p then rest else s.waiting x, fun x => if x = p then s.sent x ++ [id] else s.sent x⟩)

/-- The next request: the oldest one of high priority, if there is none the oldest of low priority. `only` restricts to one
priority. -/
def dequeue (s : S) (only : Option Bool) : Option (Bytes × Bool) × S :=
  match (if only = some false then none else take s true) with
  | some (id, s') => (some (id, true), s')
  | none => match (if only = some true then none else take s false) with
    | some (id, s') => (some (id, false), s')
    | none => (none, s)

/-- A chunk file that does not exist is as good as removed. -/
def rmRes : Res Unit → Res Unit
  | .err .ENOENT => .ok ()
  | r => r

/-- One call: what it returns and the state behind it. Forgetting succeeds if the removal of the chunk file does (a missing
file is no error). -/
def step (s : S) : Op → Out × S
  | .enqueue id h r => (.enqueued (.ok (enqueue s id h r).1), (enqueue s id h r).2)
  | .dequeue o => (.dequeued (match (dequeue s o).1 with | some x => .ok x | none => .err .ENODATA), (dequeue s o).2)
  | .forget id rm => (.forgotten (rmRes rm), s.remove id)

def run (s : S) : List Op → List Out × S
  | [] => ([], s)
  | o :: os => let x := step s o; let y := run x.2 os; (x.1 :: y.1, y.2)

/-- The calls are used properly: ids have 32 bytes, and only ids that were asked for are forgotten. -/
def Proper (s : S) : List Op → Prop
  | [] => True
  | o :: os => (match o with
      | .enqueue id _ _ => id.length = 32
      | .dequeue _ => True
      | .forget id _ => id.length = 32 ∧ (s.Known true id ∨ s.Known false id)) ∧ Proper (step s o).2 os

end Casync.Remote.Spec
