import Verif.Props.CacheMakeAgain
/-!
C50: examples with hits.
-/
namespace Casync.CacheMake
open Resume
open Location (Location)

set_option maxRecDepth 4000

/-! ### A session that uses the cache -/

/-- Chunks with the same length have the same id. -/
def lenCfg : Cfg := ⟨exEnv, fun c => le64 c.length, exChunker⟩

instance (l : Location) : Decidable (Sized l) := by unfold Sized; infer_instance

def entry (p : Origin.Origin × Bytes) : Bool :=
  decide (p.1.items ≠ []) && decide (p.1.nBytes ≠ 0) && p.1.items.all (fun x => decide (Sized x)) && decide (p.1.nBytes = CacheSpec.total p.1.items) && decide (p.1.nBytes < u64max) && decide (p.2 = le64 p.1.nBytes)

theorem honest_of {ps : List (Origin.Origin × Bytes)} (h : ps.all entry = true) {R : Obj} (hf : Fine exEnv R) : Honest lenCfg R (fromPuts ps) := by
  intro l id o hl
  unfold fromPuts at hl
  cases hx : ps.find? (startsAt l) with
  | none => rw [hx] at hl; cases hl
  | some p =>
    rw [hx] at hl
    simp only at hl
    injection hl with hl
    injection hl with hl1 hl2
    subst hl1 hl2
    have he := List.all_eq_true.1 h _ (List.mem_of_find?_eq_some hx)
    have hs := List.find?_some hx
    unfold startsAt at hs
    unfold entry at he
    simp only [Bool.and_eq_true, decide_eq_true_eq, List.all_eq_true] at he
    obtain ⟨⟨⟨⟨⟨h1, h0⟩, h2⟩, h3⟩, h4⟩, h5⟩ := he
    refine ⟨?_, h2, h3, h4, ?_⟩
    · cases hi : p.1.items with
      | nil => exact absurd hi h1
      | cons f r =>
        rw [hi] at hs
        exact ⟨f, r, rfl, (Cache.equal_same _ _).1 hs⟩
    · intro a hc
      obtain ⟨l', q, k1, _⟩ := hc (p.1.nBytes - 1) (by omega)
      have := (k1.std hf sortItems_sorts).2
      show le64 (slice (archiveOf exEnv R) _ _).length = _
      rw [slice_length (by omega), h5]

/-- The first session with these ids. -/
def firstLen : Drv := ended lenCfg exOld noHit

/-- The third entry of the cache is lost. -/
def kept : List (Origin.Origin × Bytes) := firstLen.puts.take 2 ++ firstLen.puts.drop 3

def secondLen : Drv := ended lenCfg exOld (fromPuts kept)

/-- What there is to compute. -/
def factsLen : Bool :=
  match run lenCfg noHit 100 (dStart lenCfg exOld true) with
  | none => false
  | some d =>
    (d.puts.take 2 ++ d.puts.drop 3).all entry &&
    (match run lenCfg (fromPuts (d.puts.take 2 ++ d.puts.drop 3)) 100 (dStart lenCfg exOld true) with
    | none => false
    | some d' => decide (d'.again = 0) && decide (d'.index.length = 7) && decide (d'.stored.length = 3))

theorem factsLen_hold : factsLen = true := by decide +kernel

theorem firstLen_some {d : Drv} (h : run lenCfg noHit 100 (dStart lenCfg exOld true) = some d) : firstLen = d := by unfold firstLen ended; rw [h]; rfl

theorem secondLen_some {d : Drv} (h : run lenCfg (fromPuts kept) 100 (dStart lenCfg exOld true) = some d) : secondLen = d := by unfold secondLen ended; rw [h]; rfl

theorem factsLen_split : kept.all entry = true ∧ (Session lenCfg exOld true (fun look => look = fromPuts kept) secondLen ∧ secondLen.eof = true) ∧
    secondLen.again = 0 ∧ secondLen.index.length = 7 ∧ secondLen.stored.length = 3 := by
  have h := factsLen_hold
  unfold factsLen at h
  cases h1 : run lenCfg noHit 100 (dStart lenCfg exOld true) with
  | none => rw [h1] at h; cases h
  | some d =>
    rw [h1] at h
    simp only [Bool.and_eq_true] at h
    have e1 := firstLen_some h1
    rw [← e1] at h
    have e3 : firstLen.puts.take 2 ++ firstLen.puts.drop 3 = kept := by unfold kept; with_reducible rfl
    rw [e3] at h
    cases h2 : run lenCfg (fromPuts kept) 100 (dStart lenCfg exOld true) with
    | none => rw [h2] at h; exact absurd h.2 (by simp)
    | some d' =>
      rw [h2] at h
      have e2 := secondLen_some h2
      rw [← e2] at h h2
      simp only [Bool.and_eq_true, decide_eq_true_eq] at h
      exact ⟨h.1, run_session (K := fun look => look = fromPuts kept) rfl .start h2, h.2.1.1, h.2.1.2, h.2.2⟩

theorem kept_entries : kept.all entry = true := factsLen_split.1
theorem secondLen_session : Session lenCfg exOld true (fun look => look = fromPuts kept) secondLen ∧ secondLen.eof = true := factsLen_split.2.1
theorem secondLen_facts : secondLen.again = 0 ∧ secondLen.index.length = 7 ∧ secondLen.stored.length = 3 := factsLen_split.2.2

/-- The hypotheses of `C50_index_partial` are met: of seven chunks, three are stored, the others are found in the cache. -/
example : secondLen.index.length = 7 ∧ secondLen.stored.length = 3 ∧
    ∃ chunks : List Bytes, chunks.flatten = archiveOf exEnv exOld ∧ secondLen.index = chunks.map (fun c => (le64 c.length, c.length)) ∧
      (∀ c ∈ chunks, c ∈ secondLen.stored ∨ ∃ look l o, look = fromPuts kept ∧ look l = .ok (le64 c.length, o)) ∧ ∀ c ∈ secondLen.stored, c ∈ chunks :=
  ⟨secondLen_facts.2.1, secondLen_facts.2.2, C50_index_partial exOld_fine sortItems_sorts exChunker_fresh (fun look hl => by rw [hl]; exact honest_of kept_entries exOld_fine) secondLen_session.1 secondLen_session.2 secondLen_facts.1⟩

/-- The hypotheses of `C50_progress_partial` are met at the beginning of the session. -/
example : (∃ d' ev, dStep lenCfg (fromPuts kept) (dStart lenCfg exOld true) = .ok (d', ev)) ∨
    (∃ l e, e ≠ .ENOENT ∧ fromPuts kept l = .err e ∧ dStep lenCfg (fromPuts kept) (dStart lenCfg exOld true) = .err e) ∨
    (∃ l, fromPuts kept l = .ub ∧ dStep lenCfg (fromPuts kept) (dStart lenCfg exOld true) = .ub) :=
  C50_progress_partial (K := fun look => look = fromPuts kept) (use := true) exOld_fine sortItems_sorts exChunker_fresh (fun look hl => by rw [hl]; exact honest_of kept_entries exOld_fine)
    (by decide +kernel) .start rfl (by intro h hh; cases hh) rfl

/-! ### A cache for another tree -/

def sevens (n : Nat) : Obj := exFileOf (List.replicate n 7)

theorem sevens_fine (n : Nat) (h2 : (archiveOf exEnv (sevens n)).length < u64max) (h1 : (view exEnv [] (sevens n)).height ≤ 64) : Fine exEnv (sevens n) where
  root := .inr ⟨_, _, _, _, rfl⟩
  names := by simp [sevens, exFileOf, Obj.Named]
  rules := by simp [sevens, exFileOf, Obj.Local]
  depth := h1
  size := h2

def sevensEnd : Drv := ended exCfg (sevens 100) noHit

theorem sevensEnd_ran : (run exCfg noHit 100 (dStart exCfg (sevens 100) true)).isSome = true := by decide +kernel

theorem sevensEnd_puts : sevensEnd.puts ≠ [] := by decide +kernel

theorem sevens_archive (n : Nat) : archiveOf exEnv (sevens n) = List.replicate n 7 := by rfl

theorem sevens_get {n i : Nat} (h : i < (archiveOf exEnv (sevens n)).length) : (archiveOf exEnv (sevens n))[i]? = some 7 := by
  rw [sevens_archive] at h ⊢
  rw [List.length_replicate] at h
  rw [List.getElem?_replicate, if_pos h]

/-- The hypotheses of `C50_kept` are met: a file of 100 equal bytes grew to 120 bytes, the entries that were made are true of the new file. -/
example : sevensEnd.puts ≠ [] ∧ ∀ o id, (o, id) ∈ sevensEnd.puts → Truthful exCfg (sevens 120) id o := by
  refine ⟨sevensEnd_puts, fun o id h => ?_⟩
  have f1 : Fine exCfg.env (sevens 100) := sevens_fine 100 (by decide +kernel) (by decide +kernel)
  have f2 : Fine exCfg.env (sevens 120) := sevens_fine 120 (by decide +kernel) (by decide +kernel)
  have hs := ended_session (K := fun look => ∀ l, look l = .err .ENOENT) (cfg := exCfg) (R := sevens 100) (look := noHit) (fun _ => rfl) sevensEnd_ran
  obtain ⟨_, a, h1, h2, h3⟩ := (C50_filling f1 sortItems_sorts exChunker_fresh hs.1).2 o id h
  rw [h3]
  refine C50_kept (cfg := exCfg) (cfg' := exCfg) rfl f2 sortItems_sorts h2 h1 fun i i' l l' k k' _ => ?_
  exact (sevens_get (k.std f1 sortItems_sorts).2).trans (sevens_get (k'.std f2 sortItems_sorts).2).symm

end Casync.CacheMake
