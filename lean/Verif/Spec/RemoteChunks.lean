import Verif.Model.RemoteChunks
import Verif.Spec.Remote
import Verif.Spec.Store
import Verif.Spec.Os
/-!
The protocol engine on top of the operating system model (C34).
-/
namespace Casync.Remote.Spec
open Casync Casync.Remote Os ChunkFile

/-- The world of the engine: the file system with the cache directory, a counter of the calls so far, and whatever the index and the
archive file are. -/
structure Sys (F : Type) where
  k : Nat
  fs : FS
  files : F

/-- Chunks and "missing" marks go to the cache directory `root`; `tmp` are the random temporary suffixes, `env` what the operating
system does during the calls; index and archive are somewhere else (`f`). -/
noncomputable def osWorld {F} (cd : Codec) (root : Bytes) (tmp : Nat → Bytes) (env : Nat → Nat → Choice) (f : World F) : World (Sys F) where
  save s id c d :=
    let x := exec (env s.k) 0 s.fs (fileSave cd root id c .asIs Store.compressionDefault (tmp s.k) d)
    (x.1, ⟨s.k + 1, x.2, s.files⟩)
  missing s id :=
    let x := exec (env s.k) 0 s.fs (fileMarkMissing root id)
    (x.1, ⟨s.k + 1, x.2, s.files⟩)
  write s a d := ((f.write s.files a d).1, ⟨s.k, s.fs, (f.write s.files a d).2⟩)
  rename s a := ((f.rename s.files a).1, ⟨s.k, s.fs, (f.rename s.files a).2⟩)

end Casync.Remote.Spec
