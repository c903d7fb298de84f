import Verif.Props.CacheMake
import Verif.Props.ResumeFindings
/-!
C50: examples, and where making an index with the cache goes wrong.
-/
namespace Casync.CacheMake
open Resume
open Location (Location)

/-! ### Running a session -/

def safe (d : Drv) : Bool :=
  match d.cst, d.hit with
  | .failed, some h => !d.sought && h.start.designator != 110
  | _, _ => true

theorem safe_seek {d : Drv} (h : safe d = true) : SafeSeek d := by
  intro x hx hc
  unfold safe at h
  rw [hc, hx] at h
  simp only [Bool.and_eq_true, Bool.not_eq_true', bne_iff_ne, ne_eq] at h
  exact ⟨h.1, fun hh => absurd hh h.2⟩

/-- Steps until the end. -/
def run (cfg : Cfg) (look : Look) : Nat → Drv → Option Drv
  | 0, _ => none
  | n + 1, d =>
    if safe d then
      match dStep cfg look d with
      | .ok (d', _) => if d'.eof then some d' else run cfg look n d'
      | _ => none
    else none

theorem run_session {cfg : Cfg} {R : Obj} {use : Bool} {K : Look → Prop} {look : Look} (hK : K look) : ∀ {n : Nat} {d d' : Drv}, Session cfg R use K d → run cfg look n d = some d' →
    Session cfg R use K d' ∧ d'.eof = true
  | 0, _, _, _, h => by cases h
  | n + 1, d, d', hs, h => by
    unfold run at h
    split at h
    · rename_i hsafe
      split at h
      · rename_i d1 ev hd
        have hs1 : Session cfg R use K d1 := .step hs hK (safe_seek hsafe) hd
        split at h
        · rename_i he
          injection h with h
          subst h
          exact ⟨hs1, he⟩
        · exact run_session hK hs1 h
      · cases h
    · cases h

/-- An empty cache. -/
def noHit : Look := fun _ => .err .ENOENT

/-- The entry begins at `l`. -/
def startsAt (l : Location) (p : Origin.Origin × Bytes) : Bool :=
  match p.1.items with
  | f :: _ => Location.equal l f Cache.withState
  | [] => false

/-- A cache with these entries. -/
def fromPuts (ps : List (Origin.Origin × Bytes)) : Look := fun l =>
  match ps.find? (startsAt l) with
  | some p => .ok (p.2, p.1)
  | none => .err .ENOENT

/-- Small chunks. -/
def exChunker : Chunker.Chunker := { h := 0, wsize := 0, csize := 0, min := 48, max := 256, avg := 64, discr := 50, window := List.replicate 48 0 }

theorem exChunker_fresh : Chunker.Spec.Fresh exChunker := by decide

/-- Chunks are their own ids: no collisions. -/
def exCfg : Cfg := ⟨exEnv, id, exChunker⟩

def ended (cfg : Cfg) (R : Obj) (look : Look) : Drv := (run cfg look 100 (dStart cfg R true)).getD (dStart cfg R true)

theorem ended_session {cfg : Cfg} {R : Obj} {K : Look → Prop} {look : Look} (hK : K look) (h : (run cfg look 100 (dStart cfg R true)).isSome = true) :
    Session cfg R true K (ended cfg R look) ∧ (ended cfg R look).eof = true := by
  cases hr : run cfg look 100 (dStart cfg R true) with
  | none => rw [hr] at h; cases h
  | some d =>
    have := run_session hK (.start (K := K)) hr
    unfold ended
    rw [hr]
    exact this

/-! ### A file is rewritten -/

def exContent : Bytes := (List.range 300).map fun i => UInt8.ofNat (i * i * 7 + i / 3 + 11)

/-- `/a` and `/b`. -/
def exOld : Obj := exDirOf [] (.cons true [97] (exFileOf [1]) (.cons true [98] (exFileOf exContent) .nil))

/-- The same, after a byte was appended to `/a`. -/
def exNew : Obj := exDirOf [] (.cons true [97] (exFileOf [1, 2]) (.cons true [98] (exFileOf exContent) .nil))

/-- The time stamp of `/a` is a later one.  The time stamp of the directory is the same: its entries did not change. -/
def newEnv : Env := { exEnv with stamp := fun p => if p = [97] then (1800000000, 4711, none) else exEnv.stamp p }

def newCfg : Cfg := ⟨newEnv, id, exChunker⟩

set_option maxRecDepth 4000

theorem exPair_fine (env : Env) (a b : Bytes) (h1 : (view env [] (exDirOf [] (.cons true [97] (exFileOf a) (.cons true [98] (exFileOf b) .nil)))).height ≤ 64)
    (h2 : (archiveOf env (exDirOf [] (.cons true [97] (exFileOf a) (.cons true [98] (exFileOf b) .nil)))).length < u64max) :
    Fine env (exDirOf [] (.cons true [97] (exFileOf a) (.cons true [98] (exFileOf b) .nil))) where
  root := .inl rfl
  names := by
    have s1 := safe_one 97 (by decide) (by decide) (by decide)
    have s2 := safe_one 98 (by decide) (by decide) (by decide)
    simp [exDirOf, exFileOf, Obj.Named, Objs.Named, Objs.Has, s1, s2]
  rules := by simp [exDirOf, exFileOf, Obj.Local, Objs.Local, Obj.isDir]
  depth := h1
  size := h2

theorem exOld_fine : Fine exEnv exOld := exPair_fine _ _ _ (by decide +kernel) (by decide +kernel)
theorem exNew_fine : Fine newEnv exNew := exPair_fine _ _ _ (by decide +kernel) (by decide +kernel)

/-- The first session: the cache is empty, and is filled. -/
def first : Drv := ended exCfg exOld noHit

/-- The second session, after the change. -/
def second : Drv := ended newCfg exNew (fromPuts first.puts)

/-- What there is to compute. -/
def facts : Bool :=
  match run exCfg noHit 100 (dStart exCfg exOld true) with
  | none => false
  | some d =>
    decide (d.puts.length = 7) &&
    (match run newCfg (fromPuts d.puts) 100 (dStart newCfg exNew true) with
    | none => false
    | some d' => decide (d'.again = 0) && !decide ((d'.index.map (·.1)).flatten = archiveOf newEnv exNew) && decide ((d'.index.map (·.1)).flatten.length = (archiveOf newEnv exNew).length))

theorem facts_hold : facts = true := by decide +kernel

theorem first_some {d : Drv} (h : run exCfg noHit 100 (dStart exCfg exOld true) = some d) : first = d := by unfold first ended; rw [h]; rfl

theorem second_some {d : Drv} (h : run newCfg (fromPuts first.puts) 100 (dStart newCfg exNew true) = some d) : second = d := by unfold second ended; rw [h]; rfl

theorem facts_split : (Session exCfg exOld true (fun look => ∀ l, look l = .err .ENOENT) first ∧ first.eof = true) ∧ first.puts.length = 7 ∧
    (Session newCfg exNew true (fun look => look = fromPuts first.puts) second ∧ second.eof = true) ∧ second.again = 0 ∧ (second.index.map (·.1)).flatten ≠ archiveOf newEnv exNew ∧
      (second.index.map (·.1)).flatten.length = (archiveOf newEnv exNew).length := by
  have h := facts_hold
  unfold facts at h
  cases h1 : run exCfg noHit 100 (dStart exCfg exOld true) with
  | none => rw [h1] at h; cases h
  | some d =>
    rw [h1] at h
    simp only [Bool.and_eq_true, decide_eq_true_eq] at h
    have e1 := first_some h1
    rw [← e1] at h h1
    cases h2 : run newCfg (fromPuts first.puts) 100 (dStart newCfg exNew true) with
    | none => rw [h2] at h; exact absurd h.2 (by simp)
    | some d' =>
      rw [h2] at h
      have e2 := second_some h2
      rw [← e2] at h h2
      simp only [Bool.and_eq_true, decide_eq_true_eq, Bool.not_eq_true', decide_eq_false_iff_not] at h
      exact ⟨run_session (K := fun look => ∀ l, look l = .err .ENOENT) (fun _ => rfl) .start h1, h.1, run_session (K := fun look => look = fromPuts first.puts) rfl .start h2, h.2.1.1, h.2.1.2, h.2.2⟩

/-- The hypotheses of `C50_filling` are met by the first session: seven chunks. -/
example : first.puts.length = 7 ∧ ∃ chunks : List Bytes, chunks.flatten = archiveOf exEnv exOld ∧ first.index = chunks.map (fun c => (c, c.length)) ∧ ∀ c, c ∈ chunks ↔ c ∈ first.stored :=
  ⟨facts_split.2.1, (C50_filling exOld_fine sortItems_sorts exChunker_fresh facts_split.1.1).1 facts_split.1.2⟩

/-- **C50** is false: the cache does not notice that the table at the end of a directory is out of date.  The cache was filled when `/a` had one byte.
Then a byte is appended to `/a`, and its time stamp changes.  The index that is made now ends with two chunks from the cache, the second one with the end of the old
table: the chunks together are not the archive of the tree. -/
theorem C50_goodbye_violated : Fine exEnv exOld ∧ Fine newEnv exNew ∧ newEnv.stamp [97] ≠ exEnv.stamp [97] ∧
    Session exCfg exOld true (fun look => ∀ l, look l = .err .ENOENT) first ∧ first.eof = true ∧
    ∃ d, Session newCfg exNew true (fun look => look = fromPuts first.puts) d ∧ d.eof = true ∧ d.again = 0 ∧ (d.index.map (·.1)).flatten ≠ archiveOf newEnv exNew ∧
      (d.index.map (·.1)).flatten.length = (archiveOf newEnv exNew).length := by
  obtain ⟨⟨h1, h2⟩, _, ⟨h3, h4⟩, h5, h6, h7⟩ := facts_split
  exact ⟨exOld_fine, exNew_fine, by decide, h1, h2, second, h3, h4, h5, h6, h7⟩

end Casync.CacheMake
