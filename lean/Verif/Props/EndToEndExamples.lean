import Verif.Props.EndToEnd
/-!
C51: an example for the extraction of a tree whose index was made with the cache.
-/
namespace Casync.EndToEnd
open Resume CacheMake
open Flags (Word areNormalized none64)

set_option maxRecDepth 4000

/-- A digest without collisions for these chunks. -/
def tagOf (cs : List Bytes) (x : Bytes) : Bytes :=
  match cs.findIdx? (fun c => c == x) with
  | some i => List.replicate 32 (UInt8.ofNat (i + 1))
  | none => List.replicate 32 0

theorem findIdx_get {x : Bytes} : ∀ {cs : List Bytes} {i : Nat}, cs.findIdx? (fun c => c == x) = some i → cs[i]? = some x
  | [], i, h => by cases h
  | c :: cs, i, h => by
    rw [List.findIdx?_cons] at h
    by_cases hc : (c == x) = true
    · rw [if_pos hc] at h
      injection h with h
      subst h
      show some c = some x
      rw [beq_iff_eq.1 hc]
    · rw [if_neg hc] at h
      cases hj : cs.findIdx? (fun c => c == x) with
      | none => rw [hj] at h; cases h
      | some j =>
        rw [hj] at h
        injection h with h
        subst h
        show cs[j]? = some x
        exact findIdx_get hj

theorem findIdx_lt {x : Bytes} {cs : List Bytes} {i : Nat} (h : cs.findIdx? (fun c => c == x) = some i) : i < cs.length := by
  have := findIdx_get h
  exact (List.getElem?_eq_some_iff.1 this).1

theorem tag_inj {cs : List Bytes} (hl : cs.length < 255) {x y : Bytes} (hx : x ∈ cs) (h : tagOf cs y = tagOf cs x) : y = x := by
  unfold tagOf at h
  cases hi : cs.findIdx? (fun c => c == x) with
  | none =>
    have := List.findIdx?_eq_none_iff.1 hi x hx
    simp at this
  | some i =>
    rw [hi] at h
    have h1 := findIdx_lt hi
    cases hj : cs.findIdx? (fun c => c == y) with
    | none =>
      rw [hj] at h
      have e := (List.cons.inj h).1
      have := congrArg UInt8.toNat e
      rw [UInt8.toNat_ofNat'] at this
      simp only [UInt8.toNat_zero] at this
      omega
    | some j =>
      rw [hj] at h
      have h2 := findIdx_lt hj
      have e := (List.cons.inj h).1
      have := congrArg UInt8.toNat e
      rw [UInt8.toNat_ofNat', UInt8.toNat_ofNat'] at this
      have hij : i = j := by omega
      subst hij
      have a := findIdx_get hi
      have b := findIdx_get hj
      rw [a] at b
      exact (Option.some.inj b).symm

theorem tag_length (cs : List Bytes) (x : Bytes) : (tagOf cs x).length = 32 := by
  unfold tagOf
  split <;> exact List.length_replicate

/-- The chunks of the tree. -/
def theChunks : List Bytes := (ended CacheMake.exCfg exOld noHit).stored

def tagCfg : Cfg := ⟨exEnv, tagOf theChunks, CacheMake.exChunker⟩

def firstTag : Drv := ended tagCfg exOld noHit

def keptTag : List (Origin.Origin × Bytes) := firstTag.puts.take 2 ++ firstTag.puts.drop 3

def secondTag : Drv := ended tagCfg exOld (fromPuts keptTag)

def exHd : Index.Spec.Header := ⟨Sync.exHd.flags, 48, 64, 256⟩

/-- What there is to compute. -/
def factsTag : Bool :=
  match run CacheMake.exCfg noHit 100 (dStart CacheMake.exCfg exOld true) with
  | none => false
  | some d0 =>
    decide (d0.stored.length = 7) &&
    (match run ⟨exEnv, tagOf d0.stored, CacheMake.exChunker⟩ noHit 100 (dStart ⟨exEnv, tagOf d0.stored, CacheMake.exChunker⟩ exOld true) with
    | none => false
    | some d1 =>
      match run ⟨exEnv, tagOf d0.stored, CacheMake.exChunker⟩ (fromPuts (d1.puts.take 2 ++ d1.puts.drop 3)) 100 (dStart ⟨exEnv, tagOf d0.stored, CacheMake.exChunker⟩ exOld true) with
      | none => false
      | some d2 => decide (d2.again = 0) && decide (d2.stored.length = 3) && decide (d2.index = d0.stored.map fun c => (tagOf d0.stored c, c.length)) && decide (Index.Spec.ChunksValid exHd d2.index) &&
          decide ((Index.Spec.encode exHd d2.index).length < 1000))

theorem factsTag_hold : factsTag = true := by decide +kernel

theorem ended_eq {cfg : Cfg} {look : Look} {d : Drv} (h : run cfg look 100 (dStart cfg exOld true) = some d) : ended cfg exOld look = d := by unfold ended; rw [h]; rfl

theorem factsTag_split : theChunks.length = 7 ∧ Session tagCfg exOld true (fun look => ∀ l, look l = .err .ENOENT) firstTag ∧ Session tagCfg exOld true (fun look => look = fromPuts keptTag) secondTag ∧
    secondTag.eof = true ∧ secondTag.again = 0 ∧ secondTag.stored.length = 3 ∧ (secondTag.index = theChunks.map fun c => (tagOf theChunks c, c.length)) ∧
    Index.Spec.ChunksValid exHd secondTag.index ∧ (Index.Spec.encode exHd secondTag.index).length < 1000 := by
  have h := factsTag_hold
  unfold factsTag at h
  cases h0 : run CacheMake.exCfg noHit 100 (dStart CacheMake.exCfg exOld true) with
  | none => rw [h0] at h; cases h
  | some d0 =>
    rw [h0] at h
    have e0 : theChunks = d0.stored := by unfold theChunks; rw [ended_eq h0]
    simp only [Bool.and_eq_true] at h
    rw [← e0] at h
    have ec : (⟨exEnv, tagOf theChunks, CacheMake.exChunker⟩ : Cfg) = tagCfg := by unfold tagCfg; with_reducible rfl
    rw [ec] at h
    cases h1 : run tagCfg noHit 100 (dStart tagCfg exOld true) with
    | none => rw [h1] at h; exact absurd h.2 (by simp)
    | some d1 =>
      rw [h1] at h
      have e1 : firstTag = d1 := by unfold firstTag; exact ended_eq h1
      rw [← e1] at h h1
      simp only at h
      have ek : firstTag.puts.take 2 ++ firstTag.puts.drop 3 = keptTag := by unfold keptTag; with_reducible rfl
      rw [ek] at h
      cases h2 : run tagCfg (fromPuts keptTag) 100 (dStart tagCfg exOld true) with
      | none => rw [h2] at h; exact absurd h.2 (by simp)
      | some d2 =>
        rw [h2] at h
        have e2 : secondTag = d2 := by unfold secondTag; exact ended_eq h2
        rw [← e2] at h h2
        simp only [Bool.and_eq_true, decide_eq_true_eq] at h
        have r1 := run_session (K := fun look => ∀ l, look l = .err .ENOENT) (fun _ => rfl) .start h1
        have r2 := run_session (K := fun look => look = fromPuts keptTag) rfl .start h2
        exact ⟨h.1, r1.1, r2.1, r2.2, h.2.1.1.1.1, h.2.1.1.1.2, h.2.1.1.2, h.2.1.2, h.2.2⟩

attribute [local irreducible] firstTag secondTag keptTag theChunks

theorem keptTag_sub : ∀ e ∈ keptTag, e ∈ [] ++ firstTag.puts := by
  intro e he
  unfold keptTag at he
  rw [List.nil_append]
  generalize firstTag.puts = ps at he ⊢
  rcases List.mem_append.1 he with he | he
  · exact List.mem_of_mem_take he
  · exact List.mem_of_mem_drop he

theorem exOld_storable : Archive.Storable Archive.exFf (view exEnv [] exOld) := by
  have hd : Archive.ObjOK Archive.exFf (Archive.exEntry 0x41ed#64) {} := Archive.exObj (by decide) (by unfold Archive.PermOK; decide)
  have hf : Archive.ObjOK Archive.exFf (Archive.exEntry 0x81a4#64) {} := Archive.exObj (by decide) (by unfold Archive.PermOK; decide)
  have hn : ∀ c : UInt8, c ≠ 46 → c ≠ 0 → c ≠ 47 → Archive.SafeName [c] := fun c h1 h2 h3 =>
    ⟨by simp, by simpa using h1, by simp, by simpa using fun h => h2 h.symm, by simpa using fun h => h3 h.symm⟩
  have e : view exEnv [] exOld = .dir (Archive.exEntry 0x41ed#64) {} false (.cons true [97] (.file (Archive.exEntry 0x81a4#64) {} false [1])
    (.cons true [98] (.file (Archive.exEntry 0x81a4#64) {} false exContent) .nil)) := rfl
  rw [e]
  exact ⟨hd, by decide, hn _ (by decide) (by decide) (by decide), ⟨hf, by decide⟩, hn _ (by decide) (by decide) (by decide), ⟨hf, by decide⟩, trivial⟩

theorem firstTag_sessions : Sessions tagCfg.digest (fun e r => e = exEnv ∧ r = exOld) ([] ++ firstTag.puts) ([] ++ firstTag.stored) :=
  .session (cfg := tagCfg) (R := exOld) .none ⟨rfl, rfl⟩ rfl exChunker_fresh (factsTag_split.2.1.mono fun look hl l id o hh => by rw [hl] at hh; cases hh)
    (factsTag_split.2.1.once exOld_fine sortItems_sorts exChunker_fresh)

theorem secondTag_answers : Session tagCfg exOld true (Answers ([] ++ firstTag.puts)) secondTag :=
  factsTag_split.2.2.1.mono fun look hl => by rw [hl]; exact fromPuts_answers keptTag_sub

theorem secondTag_inj : ∀ x y, (tagCfg.digest x, x.length) ∈ secondTag.index → tagCfg.digest y = tagCfg.digest x → y = x := by
  intro x y hx h
  obtain ⟨h7, _, _, _, _, _, hi, _⟩ := factsTag_split
  have hd : tagCfg.digest = tagOf theChunks := rfl
  rw [hd] at hx h
  rw [hi] at hx
  obtain ⟨c, hc, e⟩ := List.mem_map.1 hx
  have e1 := (Prod.mk.inj e).1
  have hl : theChunks.length < 255 := by omega
  rw [← e1] at h
  have := tag_inj hl hc h
  have := tag_inj hl hc e1.symm
  simp_all

/-- The hypotheses of `C51_cached_partial` are met: two sessions over a tree with two files; four of the seven chunks of the second index come from the cache. -/
example (clients : List (Bool × Sync.Sources)) (hS : ∀ S ∈ clients, ∀ src ∈ S.2.all, ∀ id, src.2 id ≠ .ub ∧ ∀ y, src.2 id = .ok y → tagCfg.digest y = id)
    (ps : List Bytes) (hps : ps.flatten = Make.delivered (Make.answers (Sync.run { index := Index.newRead (Index.Spec.encode exHd secondTag.index) } (clients.map fun S => Sync.Op.request S.1 (Sync.get S.2)))))
    (cfg : Archive.DCfg) (hn : cfg.naked = false) (hw : cfg.wantPayload = true) (obs : List Archive.Obs) (o : Archive.Outcome) (hr : Archive.Run (Archive.start cfg none64 0) ps obs o) (ho : o = .finished) :
    Archive.atoms obs = Archive.events [] (view exEnv [] exOld) :=
  (C51_cached_partial exOld_fine sortItems_sorts firstTag_sessions exChunker_fresh secondTag_answers factsTag_split.2.2.2.1 factsTag_split.2.2.2.2.1 Archive.exFf (by decide) exOld_storable rfl (by decide +kernel)
    secondTag_inj exHd (by decide) factsTag_split.2.2.2.2.2.2.2.1 (by have := factsTag_split.2.2.2.2.2.2.2.2; omega) clients hS _ rfl cfg none64 0 hn hw (.inl rfl) ps hps obs o hr).2.1 ho

end Casync.EndToEnd
