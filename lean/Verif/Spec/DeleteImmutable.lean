import Verif.Spec.Delete
/-!
Files and directories that are marked immutable (`chattr +i`), and what Linux does with them.
-/
namespace Casync.Delete
open Casync

/-- What the kernel says if the objects `im` are immutable and everything else works: a name can be removed neither if its object nor if
the directory it is in is immutable (`may_delete()`); clearing the flag of an object that does not have it is what `unlinkat_immutable`
takes for a failure (src/rm-rf.c:52-53). -/
def locked (im : List Bytes → Bool) : Fail := fun path s =>
  match s with
  | .unlink => if im path || im path.dropLast then some .EPERM else none
  | .clear => if im path then none else some .EPERM
  | .unlinkAgain => if im path.dropLast then some .EPERM else none
  | _ => none

mutual
/-- No directory with entries is immutable in the object at `path`, and nothing that has no such flag. -/
def Obj.free (im : List Bytes → Bool) (path : List Bytes) : Obj → Prop
  | .leaf reg _ => im path = true → reg = true
  | .dir _ kids => kids.free im path
def Dir.free (im : List Bytes → Bool) (path : List Bytes) : Dir → Prop
  | .nil => True
  | .cons name o rest => im path = false ∧ o.free im (path ++ [name]) ∧ rest.free im path
end

end Casync.Delete
