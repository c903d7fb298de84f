import Verif.Model.Delete
/-!
What deletion may do to a directory.
-/
namespace Casync.Delete
open Casync

/-- The entries as a list. -/
def Dir.list : Dir → List (Bytes × Obj)
  | .nil => []
  | .cons n o r => (n, o) :: r.list

/-- The entries that the archive lists. -/
def kept (dirents : List Bytes) (d : Dir) : List (Bytes × Obj) := d.list.filter fun x => decide (x.1 ∈ dirents)

mutual
/-- Nothing in the object is on another device than `dev`. -/
def Obj.onDevice (dev : Nat) : Obj → Prop
  | .leaf _ _ => True
  | .dir d kids => d = dev ∧ kids.onDevice dev
def Dir.onDevice (dev : Nat) : Dir → Prop
  | .nil => True
  | .cons _ o r => o.onDevice dev ∧ r.onDevice dev
end

/-- An object that is not a mixture of file systems. -/
def Obj.uniform : Obj → Prop
  | .leaf _ _ => True
  | .dir d kids => kids.onDevice d

mutual
/-- The second object with some entries removed inside, all on device `dev`. -/
inductive ObjLess (dev : Nat) : Obj → Obj → Prop
  | same {o} : ObjLess dev o o
  | dir {kids' kids} : DirLess dev kids' kids → ObjLess dev (.dir dev kids') (.dir dev kids)
/-- The second directory with some entries removed, all on device `dev`. -/
inductive DirLess (dev : Nat) : Dir → Dir → Prop
  | nil : DirLess dev .nil .nil
  | drop {n o a b} : o.onDevice dev → DirLess dev a b → DirLess dev a (.cons n o b)
  | keep {n o' o a b} : ObjLess dev o' o → DirLess dev a b → DirLess dev (.cons n o' a) (.cons n o b)
end

/-- What may become of a target directory: listed entries stay exactly as they are; the others stay, go, or lose something inside that
is on the device of the entry itself. -/
inductive Allowed (dirents : List Bytes) : Dir → Dir → Prop
  | nil : Allowed dirents .nil .nil
  | same {n o a b} : Allowed dirents a b → Allowed dirents (.cons n o a) (.cons n o b)
  | gone {n o a b} : n ∉ dirents → o.uniform → Allowed dirents a b → Allowed dirents a (.cons n o b)
  | less {n dev kids' kids a b} : n ∉ dirents → DirLess dev kids' kids → Allowed dirents a b →
      Allowed dirents (.cons n (.dir dev kids') a) (.cons n (.dir dev kids) b)

/-- Strictly ascending, as the encoder writes the names of a directory. -/
def Ascending (l : List Bytes) : Prop := l.Pairwise fun a b => Archive.strLt a b = true

end Casync.Delete
