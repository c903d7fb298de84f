import Verif.Props.CacheMakeFindings
/-!
C50: bytes that are emitted twice.
-/
namespace Casync.CacheMake
open Resume
open Location (Location)

set_option maxRecDepth 4000

/-! ### Two entries end in one record -/

/-- `/a`, with an extended attribute. -/
def exBig : Obj :=
  exDirOf [] (.cons true [97] (.leaf (.file { ff := 0x322#64, mode := 0x81a4#64, flags := 0, uid := 1000, gid := 100, mtime := 1700000000123456789 }
    { xattrs := [([117, 115, 101, 114, 46, 120], exContent)] } false [1])) .nil)

theorem exBig_fine : Fine exEnv exBig where
  root := .inl rfl
  names := by
    have s1 := safe_one 97 (by decide) (by decide) (by decide)
    simp [exBig, exDirOf, Obj.Named, Objs.Named, Objs.Has, s1]
  rules := by simp [exBig, exDirOf, Obj.Local, Objs.Local, Obj.isDir]
  depth := by decide +kernel
  size := by decide +kernel

def firstBig : Drv := ended exCfg exBig noHit

/-- The second session, with half of the cache. -/
def secondBig : Drv := ended exCfg exBig (fromPuts (firstBig.puts.take 3))

/-- What there is to compute. -/
def factsBig : Bool :=
  match run exCfg noHit 100 (dStart exCfg exBig true) with
  | none => false
  | some d =>
    decide (d.puts.length = 6) &&
    (match run exCfg (fromPuts (d.puts.take 3)) 100 (dStart exCfg exBig true) with
    | none => false
    | some d' => decide ((archiveOf exEnv exBig).length < (d'.index.map (·.2)).sum))

theorem factsBig_hold : factsBig = true := by decide +kernel

theorem firstBig_some {d : Drv} (h : run exCfg noHit 100 (dStart exCfg exBig true) = some d) : firstBig = d := by unfold firstBig ended; rw [h]; rfl

theorem secondBig_some {d : Drv} (h : run exCfg (fromPuts (firstBig.puts.take 3)) 100 (dStart exCfg exBig true) = some d) : secondBig = d := by unfold secondBig ended; rw [h]; rfl

/-- **C50** is false: bytes are emitted twice.  The tree did not change, and the cache has the first three of the six entries that were made for it.
The second and the third chunk end in the same record; the bytes of both are in the buffer when the fourth one is not found, but only those of the third are left out (src/casync.c:2225): the bytes of the second chunk are emitted
again.  The index is longer than the archive. -/
theorem C50_again_violated : Fine exEnv exBig ∧ Session exCfg exBig true (fun look => ∀ l, look l = .err .ENOENT) firstBig ∧ firstBig.eof = true ∧ firstBig.puts.length = 6 ∧
    ∃ d, Session exCfg exBig true (fun look => look = fromPuts (firstBig.puts.take 3)) d ∧ d.eof = true ∧ (archiveOf exEnv exBig).length < (d.index.map (·.2)).sum := by
  have h := factsBig_hold
  unfold factsBig at h
  cases h1 : run exCfg noHit 100 (dStart exCfg exBig true) with
  | none => rw [h1] at h; cases h
  | some d =>
    rw [h1] at h
    simp only [Bool.and_eq_true, decide_eq_true_eq] at h
    have e1 := firstBig_some h1
    rw [← e1] at h h1
    cases h2 : run exCfg (fromPuts (firstBig.puts.take 3)) 100 (dStart exCfg exBig true) with
    | none => rw [h2] at h; exact absurd h.2 (by simp)
    | some d' =>
      rw [h2] at h
      have e2 := secondBig_some h2
      rw [← e2] at h h2
      simp only [decide_eq_true_eq] at h
      have k1 := run_session (K := fun look => ∀ l, look l = .err .ENOENT) (fun _ => rfl) .start h1
      have k2 := run_session (K := fun look => look = fromPuts (firstBig.puts.take 3)) rfl .start h2
      exact ⟨exBig_fine, k1.1, k1.2, h.1, secondBig, k2.1, k2.2, h.2⟩

end Casync.CacheMake
