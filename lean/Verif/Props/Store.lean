import Verif.Spec.Store
import Verif.Lemmas.ChunkFileLoad
import Verif.Props.ChunkFile
/-!
C13: what a store delivers matches the id.
-/
namespace Casync.Store
open Casync Os ChunkFile

theorem outcome_bind {α β : Type} (P : Prog α) (f : α → Prog β) (b : β) (h : Outcome (Prog.bind P f) b) :
    ∃ a, Outcome P a ∧ Outcome (f a) b := by
  induction P with
  | ret a => exact ⟨a, rfl, h⟩
  | call c k ih =>
    obtain ⟨ans, h⟩ := h
    obtain ⟨a, h1, h2⟩ := ih ans h
    exact ⟨a, ⟨ans, h1⟩, h2⟩

/-- A complete run is one of the outcomes. -/
theorem exec_outcome {α : Type} (env : Nat → Choice) (P : Prog α) (fs : FS) (t : Nat) : Outcome P (exec env t fs P).1 := by
  induction P generalizing fs t with
  | ret a => exact rfl
  | call c k ih => exact ⟨_, ih _ _ (t + 1)⟩

/-- Invariant of reachable stores: the digest object, if there is one, has the configured type; all types are supported. -/
def Good (s : Store) : Prop :=
  (∀ t, s.digestType = some t → t < 2 ∧ (s.cur = none ∨ s.cur = some t)) ∧ (∀ t, s.cur = some t → t < 2)

theorem tryOthers_lt (dg : Digest) (id v : Bytes) (old cur : Nat) (l : List Nat) (h : cur < 2) (hl : ∀ i ∈ l, i < 2) :
    (tryOthers dg id v old cur l).2 < 2 := by
  induction l generalizing cur with
  | nil => exact h
  | cons i l ih =>
    have hi := hl i List.mem_cons_self
    have hl' : ∀ i ∈ l, i < 2 := fun j hj => hl j (List.mem_cons_of_mem _ hj)
    rw [tryOthers]
    split
    · exact ih _ h hl'
    · split
      · exact hi
      · exact ih _ hi hl'

theorem tryOthers_ok (dg : Digest) (id v : Bytes) (old cur : Nat) (l : List Nat)
    (h : (tryOthers dg id v old cur l).1 = true) : ∃ i ∈ l, dg i v = id := by
  induction l generalizing cur with
  | nil => cases h
  | cons i l ih =>
    rw [tryOthers] at h
    split at h
    · obtain ⟨j, h1, h2⟩ := ih _ h
      exact ⟨j, List.mem_cons_of_mem _ h1, h2⟩
    · split at h
      · rename_i he
        exact ⟨i, List.mem_cons_self, (beq_iff_eq.1 he).symm⟩
      · obtain ⟨j, h1, h2⟩ := ih _ h
        exact ⟨j, List.mem_cons_of_mem _ h1, h2⟩

theorem tryOthers_complete (dg : Digest) (id v : Bytes) (old cur : Nat) (l : List Nat) (i : Nat) (hi : i ∈ l) (ho : i ≠ old)
    (h : dg i v = id) : (tryOthers dg id v old cur l).1 = true := by
  induction l generalizing cur with
  | nil => cases hi
  | cons j l ih =>
    rw [tryOthers]
    rcases List.mem_cons.1 hi with hj | hj
    · subst hj
      rw [if_neg ho, if_pos (by simp [ChunkId.equal, h])]
    · split
      · exact ih _ hj
      · split
        · rfl
        · exact ih _ hj

theorem verify_good (dg : Digest) (s : Store) (id v : Bytes) (h : Good s) : Good (verify dg s id v).2 ∧
    (verify dg s id v).2.digestType = s.digestType := by
  have hcur : (s.cur.getD (s.digestType.getD digestDefault)) < 2 ∧
      (∀ t, s.digestType = some t → (s.cur.getD (s.digestType.getD digestDefault)) = t) := by
    cases hc : s.cur with
    | some c =>
      refine ⟨h.2 c hc, ?_⟩
      intro t ht
      rcases (h.1 t ht).2 with h' | h' <;> rw [hc] at h'
      · cases h'
      · exact Option.some.inj h'
    | none =>
      cases ht : s.digestType with
      | none => exact ⟨by decide, fun t h => by cases h⟩
      | some t => exact ⟨(h.1 t ht).1, fun t' h' => by cases h'; rfl⟩
  revert hcur
  unfold verify
  simp only
  generalize (s.cur.getD (s.digestType.getD digestDefault)) = cur
  rintro ⟨h1, h2⟩
  have key : ∀ c, c < 2 → (∀ t, s.digestType = some t → c = t) → Good { s with cur := some c } := by
    intro c hc ht
    refine ⟨fun t h' => ⟨(h.1 t h').1, Or.inr (by rw [ht t h'])⟩, fun t h' => ?_⟩
    simp only [Option.some.injEq] at h'
    omega
  split
  · exact ⟨key _ h1 h2, rfl⟩
  · split
    · exact ⟨key _ h1 h2, rfl⟩
    · rename_i hn
      refine ⟨key _ (tryOthers_lt dg id v cur cur _ h1 (by decide)) ?_, rfl⟩
      intro t ht; rw [ht] at hn; simp at hn

theorem verify_ok (dg : Digest) (s : Store) (id v : Bytes) (h : Good s) (hv : (verify dg s id v).1 = true) :
    Matches dg s.digestType id v := by
  unfold verify at hv
  simp only at hv
  unfold Matches
  cases ht : s.digestType with
  | some t =>
    have hcur : (s.cur.getD (s.digestType.getD digestDefault)) = t := by
      rcases (h.1 t ht).2 with h' | h' <;> simp only [h', ht] <;> rfl
    rw [hcur, ht] at hv
    split at hv
    · rename_i he
      exact (beq_iff_eq.1 he).symm
    · simp at hv
  | none =>
    rw [ht] at hv
    split at hv
    · rename_i he
      have he' := (beq_iff_eq.1 he).symm
      cases hc : s.cur with
      | none =>
        rw [hc] at he'
        exact Or.inr he'
      | some c =>
        rw [hc] at he'
        have := h.2 c hc
        have : c = 0 ∨ c = 1 := by omega
        rcases this with rfl | rfl
        · exact Or.inl he'
        · exact Or.inr he'
    · simp only [Option.isSome_none, Bool.false_eq_true, if_false] at hv
      obtain ⟨i, h1, h2⟩ := tryOthers_ok _ _ _ _ _ _ hv
      rcases List.mem_cons.1 h1 with rfl | h1
      · exact Or.inl h2
      · rw [List.mem_singleton] at h1; subst h1; exact Or.inr h2

theorem verify_complete (dg : Digest) (s : Store) (id v : Bytes) (h : Good s) (hm : Matches dg s.digestType id v) :
    (verify dg s id v).1 = true := by
  unfold verify
  simp only
  unfold Matches at hm
  cases ht : s.digestType with
  | some t =>
    have hcur : (s.cur.getD (s.digestType.getD digestDefault)) = t := by
      rcases (h.1 t ht).2 with h' | h' <;> simp only [h', ht] <;> rfl
    rw [← ht, hcur]
    rw [ht] at hm
    rw [if_pos (by simpa [ChunkId.equal] using hm.symm)]
  | none =>
    rw [ht] at hm
    rw [← ht]
    generalize (s.cur.getD (s.digestType.getD digestDefault)) = cur
    by_cases he : ChunkId.equal id (dg cur v) = true
    · rw [if_pos he]
    · rw [if_neg he, ht]
      simp only [Option.isSome_none, Bool.false_eq_true, if_false]
      have hne : dg cur v ≠ id := by
        intro h'; apply he; simp [ChunkId.equal, h']
      rcases hm with hm | hm
      · exact tryOthers_complete dg id v cur cur _ 0 (by simp) (by rintro rfl; exact hne hm) hm
      · exact tryOthers_complete dg id v cur cur _ 1 (by simp) (by rintro rfl; exact hne hm) hm

theorem finish_good (cd : Codec) (dg : Digest) (s : Store) (id d : Bytes) (eff : Compression) (h : Good s) :
    Good (finish cd dg s id d eff).2 ∧ (finish cd dg s id d eff).2.digestType = s.digestType := by
  unfold finish
  simp only
  split
  · exact ⟨h, rfl⟩
  · exact ⟨h, rfl⟩
  · split <;> exact verify_good _ _ _ _ h

theorem get_good (cd : Codec) (dg : Digest) (s s' : Store) (id : Bytes) (des : Compression) (r) (h : Good s)
    (ho : Outcome (get cd dg s id des) (r, s')) : Good s' ∧ s'.digestType = s.digestType := by
  unfold get at ho
  split at ho
  · cases ho; exact ⟨h, rfl⟩
  · obtain ⟨a, _, h2⟩ := outcome_bind _ _ _ ho
    split at h2
    · cases h2; exact ⟨h, rfl⟩
    · cases h2; exact ⟨h, rfl⟩
    · rename_i d eff _
      have h3 : (r, s') = finish cd dg s id d eff := h2
      rw [show s' = (finish cd dg s id d eff).2 from congrArg Prod.snd h3]
      exact finish_good cd dg s id d eff h

theorem put_store (cd : Codec) (s s' : Store) (fresh id : Bytes) (eff : Compression) (tmp data : Bytes) (r)
    (ho : Outcome (put cd s fresh id eff tmp data) (r, s')) :
    s'.digestType = s.digestType ∧ s'.cur = s.cur ∧ s'.compression = s.compression ∧ s'.compressionType = s.compressionType := by
  unfold put at ho
  split at ho
  · cases ho; exact ⟨rfl, rfl, rfl, rfl⟩
  · simp only at ho
    split at ho
    · obtain ⟨a, _, h2⟩ := outcome_bind _ _ _ ho
      cases h2; exact ⟨rfl, rfl, rfl, rfl⟩
    · obtain ⟨ans, ho⟩ := ho
      simp only at ho
      split at ho
      · split at ho
        · cases ho; exact ⟨rfl, rfl, rfl, rfl⟩
        · obtain ⟨a, _, h2⟩ := outcome_bind _ _ _ ho
          cases h2; exact ⟨rfl, rfl, rfl, rfl⟩
      · obtain ⟨a, _, h2⟩ := outcome_bind _ _ _ ho
        cases h2; exact ⟨rfl, rfl, rfl, rfl⟩

theorem reachable_good (cd : Codec) (dg : Digest) (s : Store) (h : Reachable cd dg s) : Good s := by
  induction h with
  | new => exact ⟨fun t h => (by cases h), fun t h => (by cases h)⟩
  | newCache => exact ⟨fun t h => (by cases h; exact ⟨by decide, Or.inl rfl⟩), fun t h => (by cases h)⟩
  | setPath _ hs ih =>
    unfold setPath at hs; split at hs
    · cases hs
    · cases hs; exact ih
  | setCompression _ ih => exact ih
  | setCompressionType _ hs ih =>
    unfold setCompressionType at hs; split at hs
    · cases hs
    · cases hs; exact ih
  | setDigestType _ hs ih =>
    unfold setDigestType at hs; split at hs
    · cases hs; exact ⟨fun t h => (by cases h), ih.2⟩
    · split at hs
      · cases hs
      · rename_i t ht
        cases hs
        have ht : t < 2 := by simpa [digestTypes] using ht
        refine ⟨fun t' h => ?_, fun t' h => ?_⟩
        · cases h
          refine ⟨ht, ?_⟩
          simp only
          split
          · exact Or.inr rfl
          · exact Or.inl rfl
        · simp only at h
          split at h
          · cases h; exact ht
          · cases h
  | get _ ho ih => exact (get_good _ _ _ _ _ _ _ ih ho).1
  | put _ ho ih =>
    obtain ⟨h1, h2, _⟩ := put_store _ _ _ _ _ _ _ _ _ ho
    refine ⟨fun t h => ?_, fun t h => ?_⟩
    · rw [h2]; exact ih.1 t (h1 ▸ h)
    · exact ih.2 t (h2 ▸ h)

theorem fileLoad_eff (cd : Codec) (pre id : Bytes) (des : Compression) (t : Nat) (d : Bytes) (eff : Compression)
    (h : Outcome (fileLoad cd pre id des t) (.ok (d, eff))) : eff ≠ .asIs ∧ (des ≠ .asIs → eff = des) := by
  unfold fileLoad at h
  simp only at h
  have key : ∀ (P : Prog (Res Bytes)) (f : Res Bytes → Prog (Res (Bytes × Compression))) (fc : Compression), fc ≠ .asIs →
      (∀ d, f (.ok d) = .ret (.ok (d, if des = .asIs then fc else des))) → (∀ e, f (.err e) = .ret (.err e)) →
      f .ub = .ret .ub → Outcome (Prog.bind P f) (.ok (d, eff)) → eff ≠ .asIs ∧ (des ≠ .asIs → eff = des) := by
    intro P f fc hfc e1 e2 e3 h
    obtain ⟨a, _, h2⟩ := outcome_bind _ _ _ h
    cases a with
    | ok d' =>
      rw [e1] at h2
      have := Res.ok.inj h2
      have h3 : eff = _ := congrArg Prod.snd this
      simp only at h3
      split at h3
      · rename_i hd; subst h3; exact ⟨hfc, fun h => absurd hd h⟩
      · rename_i hd; subst h3; exact ⟨hd, fun _ => rfl⟩
    | err e => rw [e2] at h2; cases h2
    | ub => rw [e3] at h2; cases h2
  obtain ⟨a, _, h2⟩ := outcome_bind _ _ _ h
  split at h2
  · exact key _ _ _ (by split <;> simp) (fun _ => rfl) (fun _ => rfl) rfl h2
  · cases h2
  · cases h2
  · obtain ⟨a, _, h3⟩ := outcome_bind _ _ _ h2
    split at h3
    · exact key _ _ _ (by split <;> simp) (fun _ => rfl) (fun _ => rfl) rfl h3
    · cases h3
    · cases h3
    · cases h3
  · cases h2

/-- **C13**. Take any store that exists in a running program, with any history of configuration calls, gets and puts. If a
get succeeds, with any disk contents (even changing while they are read), any failures and any behaviour of the decompressor, then
the data delivered, decompressed if it is delivered compressed, has the requested id under the configured digest, or under
one of the supported digests if none is configured; and it has the compression that was asked for. -/
theorem C13_get_verified (cd : Codec) (dg : Digest) (s s' : Store) (hs : Reachable cd dg s) (id : Bytes)
    (des eff : Compression) (d : Bytes) (h : Outcome (get cd dg s id des) (.ok (d, eff), s')) :
    (∃ u, Represents cd eff d u ∧ Matches dg s.digestType id u) ∧ (des ≠ .asIs → eff = des) ∧
      s'.digestType = s.digestType := by
  have hg := reachable_good cd dg s hs
  refine ⟨?_, ?_, (get_good _ _ _ _ _ _ _ hg h).2⟩
  all_goals
    unfold get at h
    split at h
    · cases h
    · obtain ⟨a, h1, h2⟩ := outcome_bind _ _ _ h
      split at h2
      · cases h2
      · cases h2
      · rename_i d0 eff0
        have h3 : (Res.ok (d, eff), s') = finish cd dg s id d0 eff0 := h2
        unfold finish at h3
        simp only at h3
        split at h3
        · cases h3
        · cases h3
        · rename_i v hv
          split at h3
          · rename_i hok
            have h4 : d = d0 ∧ eff = eff0 := by
              have := congrArg Prod.fst h3
              simpa using this
            obtain ⟨rfl, rfl⟩ := h4
            have he := fileLoad_eff _ _ _ _ _ _ _ h1
            first
              | exact he.2
              | (refine ⟨v, ?_, verify_ok dg s id v hg hok⟩
                 cases eff with
                 | asIs => exact absurd rfl he.1
                 | uncompressed => simp at hv; exact hv
                 | compressed =>
                   simp only [if_true] at hv
                   unfold decompress at hv
                   split at hv
                   · cases hv
                   · split at hv
                     · split at hv
                       · cases hv
                       · split at hv
                         · cases hv
                         · rename_i hu _ _; cases hv; exact hu
                     · cases hv
                     · cases hv)
          · cases h3

/-- C13, for complete runs on the file system model: as above, and a get changes nothing on disk. -/
theorem C13_get_verified_exec (cd : Codec) (dg : Digest) (s s' : Store) (hs : Reachable cd dg s) (id : Bytes)
    (des eff : Compression) (d : Bytes) (env : Nat → Choice) (t : Nat) (fs fs' : FS)
    (h : exec env t fs (get cd dg s id des) = ((.ok (d, eff), s'), fs')) :
    ∃ u, Represents cd eff d u ∧ Matches dg s.digestType id u := by
  have := exec_outcome env (get cd dg s id des) fs t
  rw [h] at this
  exact (C13_get_verified cd dg s s' hs id des eff d this).1

/-- **C14**: a store stays in its directory: once the path is set (or made up by a cache), setting another one is refused, and neither
`get` nor `put` changes it. -/
theorem C14_path_fixed (cd : Codec) (dg : Digest) (s s' : Store) (root : Bytes) (h : s.root = some root) :
    (∀ path, setPath s path = .err .EBUSY) ∧
    (∀ id des r, Outcome (get cd dg s id des) (r, s') → s'.root = some root) ∧
    (∀ fresh id eff tmp data r, Outcome (put cd s fresh id eff tmp data) (r, s') → s'.root = some root) := by
  refine ⟨?_, ?_, ?_⟩
  · intro path
    simp [setPath, h]
  · intro id des r ho
    unfold get at ho
    rw [h] at ho
    obtain ⟨a, _, h2⟩ := outcome_bind _ _ _ ho
    split at h2
    · cases h2; exact h
    · cases h2; exact h
    · rename_i d eff _
      have h3 : (r, s') = finish cd dg s id d eff := h2
      rw [show s' = (finish cd dg s id d eff).2 from congrArg Prod.snd h3]
      unfold finish verify
      simp only
      repeat' split
      all_goals exact h
  · intro fresh id eff tmp data r ho
    unfold put at ho
    rw [h] at ho
    rw [if_neg (by simp)] at ho
    simp only [Option.getD_some] at ho
    split at ho
    · obtain ⟨a, _, h2⟩ := outcome_bind _ _ _ ho
      cases h2; rfl
    · obtain ⟨ans, ho⟩ := ho
      simp only at ho
      split at ho
      · split at ho
        · cases ho; rfl
        · obtain ⟨a, _, h2⟩ := outcome_bind _ _ _ ho
          cases h2; rfl
      · obtain ⟨a, _, h2⟩ := outcome_bind _ _ _ ho
        cases h2; rfl

end Casync.Store
