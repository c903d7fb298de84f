import Verif.Model.Os
/-!
What the crash and concurrency theorems assume about the file system and about other processes, and what they guarantee.
-/
namespace Casync.Os
open Casync

/-- Every file has an inode number that has been handed out. -/
def WF (fs : FS) : Prop := ∀ p i, fs.names p = some (.file i) → i < fs.next

/-- Interference by other processes that leave the temporary file `t` alone: they may do anything to other names, but
do not rename, remove, write or link the file named `t`. -/
structure Rely (t : Path) (fs fs' : FS) : Prop where
  rename2 : fs'.hasRename2 = fs.hasRename2
  link : fs'.hasLink = fs.hasLink
  next : fs.next ≤ fs'.next
  wf : WF fs → WF fs'
  own : ∀ i, fs.names t = some (.file i) → fs'.names t = some (.file i) ∧ fs'.data i = fs.data i ∧
    ∀ p, fs'.names p = some (.file i) ↔ fs.names p = some (.file i)

/-- A directory appeared or disappeared, or nothing happened to a name that is not a file. -/
def DirChange (a b : Option Node) : Prop := (a = none ∨ a = some .dir) ∧ (b = none ∨ b = some .dir)

/-- What one system call of a saver may do to a name `p` other than its temporary name `t`: nothing; make or remove the
directory `d`; let the final name `fin` appear with the complete contents (replacing an existing file only if the file
system supports neither `renameat2` nor `linkat` and others interfered, `busy`); take its own file away again. -/
inductive Change (busy : Prop) (n0 : Nat) (t fin d : Path) (complete : Bytes) (fs fs' : FS) (p : Path) : Prop
  | same (h : fs'.names p = fs.names p) (hc : content fs' p = content fs p)
  | dir (hp : p = d) (h : DirChange (fs.names p) (fs'.names p))
  | install (hp : p = fin) (hn : fs'.names p = fs.names t) (hc : content fs' p = some complete)
      (hl : fs'.names t = none ∨ fs.hasLink = true)
      (ho : fs.names p = none ∨ (busy ∧ fs.hasRename2 = false ∧ fs.hasLink = false))
  | takeBack (hp : p = fin) (hl : fs.hasLink = true) (i : Nat) (hi : n0 ≤ i) (ht : fs.names t = some (.file i)) (hn : fs.names p = some (.file i))
      (hn' : fs'.names p = none)

/-- What one system call of a saver guarantees. -/
structure Guarantee (busy : Prop) (n0 : Nat) (t fin d : Path) (complete : Bytes) (fs fs' : FS) : Prop where
  rename2 : fs'.hasRename2 = fs.hasRename2
  link : fs'.hasLink = fs.hasLink
  next : fs.next ≤ fs'.next
  wf : WF fs → WF fs'
  temp : fs'.names t = fs.names t ∨ fs'.names t = none ∨
    (fs.names t = none ∧ fs'.names t = some (.file fs.next))
  others : ∀ p, p ≠ t → Change busy n0 t fin d complete fs fs' p

/-- Several processes; process `j` is the program `P j`. A schedule is a list of process numbers with the environment's
choice for the system call that process makes. A process that is never scheduled again has crashed. -/
noncomputable def runPar {α : Type} : List (Nat × Choice) → FS → (Nat → Prog α) → FS × (Nat → Prog α)
  | [], fs, P => (fs, P)
  | (j, ch) :: l, fs, P =>
    match P j with
    | .ret _ => runPar l fs P
    | .call c k =>
      let r := sem fs c ch
      runPar l r.2 (fun i => if i = j then k r.1 else P i)

end Casync.Os
