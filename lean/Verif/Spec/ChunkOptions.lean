import Verif.Model.ChunkOptions
/-!
The sizes a chunker should have after `--chunk-size=`.
-/
namespace Casync.ChunkOptions
open Casync

/-- The sizes that are used, given those that were asked for (0: not given): a quarter of and four times the average, within the limits,
where nothing was asked for. -/
structure Used (s : Sizes) (mn av mx : Nat) : Prop where
  avg : av = if s.avg = 0 then 65536 else s.avg
  min : mn = if s.min = 0 then Nat.max 1 (av / 4) else s.min
  max : mx = if s.max = 0 then Nat.min 134217728 (av * 4) else s.max

end Casync.ChunkOptions
