import Verif.Lemmas.Index
import Verif.Lemmas.Flags
namespace Casync.Index
open Casync Casync.Index.Spec

theorem split8 (b : Bytes) (n : Nat) (h : b.length = n + 8) : ∃ v r, v < 2 ^ 64 ∧ b = le64 v ++ r ∧ r.length = n :=
  ⟨field b 0, b.drop 8, field_lt b 0 (by omega), split_field b (by omega), by simp; omega⟩

theorem split8' (b : Bytes) (h : b.length = 8) : ∃ v, v < 2 ^ 64 ∧ b = le64 v := by
  obtain ⟨v, r, h1, h2, h3⟩ := split8 b 0 h
  rw [List.length_eq_zero_iff] at h3
  subst h3
  rw [List.append_nil] at h2
  exact ⟨v, h1, h2⟩

theorem parseHead_inv {b : Bytes} {i i' : Index} (hb : b.length = 64) (hp : parseHead i b = .ok i') :
    ∃ h : Header, h.Valid ∧ b = encHead h ∧ i' = { i with
      startOffset := 64, cooked := 64, flags := h.flags, cmin := h.cmin, cavg := h.cavg, cmax := h.cmax } := by
  obtain ⟨v0, b1, g0, rfl, l1⟩ := split8 b 56 hb
  obtain ⟨v1, b2, g1, rfl, l2⟩ := split8 b1 48 l1
  obtain ⟨v2, b3, g2, rfl, l3⟩ := split8 b2 40 l2
  obtain ⟨v3, b4, g3, rfl, l4⟩ := split8 b3 32 l3
  obtain ⟨v4, b5, g4, rfl, l5⟩ := split8 b4 24 l4
  obtain ⟨v5, b6, g5, rfl, l6⟩ := split8 b5 16 l5
  obtain ⟨v6, b7, g6, rfl, l7⟩ := split8 b6 8 l6
  obtain ⟨v7, g7, rfl⟩ := split8' b7 l7
  unfold parseHead at hp
  simp only [field_succ, field_zero _ _ g0, field_zero _ _ g1, field_zero _ _ g2, field_zero _ _ g3,
    field_zero _ _ g4, field_zero _ _ g5, field_zero _ _ g6, field_zero' _ g7] at hp
  split at hp
  · cases hp
  · rename_i c0
    split at hp
    · cases hp
    · cases hp
    · cases hp
    · rename_i c1
      split at hp
      · cases hp
      · split at hp
        · cases hp
        · split at hp
          · cases hp
          · split at hp
            · cases hp
            · split at hp
              · cases hp
              · rename_i c2 c3 c4 c5 c6
                injection hp with hp
                simp only [tIndex, tTable, u64max, limitMax] at c0 c2 c3 c4 c5 c6
                refine ⟨⟨BitVec.ofNat 64 v2, v3, v4, v5⟩, ⟨c1, by show 1 ≤ v3; omega, by show v3 ≤ v4; omega,
                  by show v4 ≤ v5; omega, by show v5 ≤ _; omega⟩, ?_, hp.symm⟩
                have e0 : v0 = 48 := by omega
                have e1 : v1 = 0x96824d9c7b129ff9 := by omega
                have e6 : v6 = 0xffffffffffffffff := by omega
                have e7 : v7 = 0xe75b9e112f17417d := by omega
                have e2 : (BitVec.ofNat 64 v2).toNat = v2 := by
                  rw [BitVec.toNat_ofNat, Nat.mod_eq_of_lt g2]
                unfold encHead
                rw [e0, e1, e6, e7, e2]

theorem areNormalized_err {f : Flags.Word} {e : Errno} (h : Flags.areNormalized f = .err e) :
    e = .EINVAL ∨ e = .EOPNOTSUPP := by
  by_cases h1 : f = Flags.none64
  · unfold Flags.areNormalized at h
    rw [if_pos h1] at h; cases h; exact Or.inl rfl
  · by_cases h2 : (f &&& ~~~Flags.flagsMax) = 0#64
    · obtain ⟨b, h3, _⟩ := Flags.areNormalized_eq f h1 h2
      rw [h] at h3; cases h3
    · unfold Flags.areNormalized at h
      rw [if_neg h1, if_pos h2] at h; cases h; exact Or.inr rfl

theorem areNormalized_ne_ub (f : Flags.Word) : Flags.areNormalized f ≠ .ub := by
  intro h
  by_cases h1 : f = Flags.none64
  · unfold Flags.areNormalized at h
    rw [if_pos h1] at h; cases h
  · by_cases h2 : (f &&& ~~~Flags.flagsMax) = 0#64
    · obtain ⟨b, h3, _⟩ := Flags.areNormalized_eq f h1 h2
      rw [h] at h3; cases h3
    · unfold Flags.areNormalized at h
      rw [if_neg h1, if_pos h2] at h; cases h

theorem parseHead_ne_ub (i : Index) (b : Bytes) : parseHead i b ≠ .ub := by
  unfold parseHead
  simp only
  intro h
  split at h
  · cases h
  · split at h
    · cases h
    · rename_i h1; exact areNormalized_ne_ub _ h1
    · cases h
    · repeat' split at h
      all_goals cases h

theorem parseHead_ne_again (i : Index) (b : Bytes) : parseHead i b ≠ .err .EAGAIN := by
  unfold parseHead
  simp only
  intro h
  split at h
  · cases h
  · split at h
    · rename_i e h1
      injection h with h; subst h
      rcases areNormalized_err h1 with h2 | h2 <;> cases h2
    · cases h
    · cases h
    · repeat' split at h
      all_goals cases h

theorem readHead_newRead (file : Bytes) : readHead (newRead file) =
    if (file.take 64).length ≠ 64 then .err .EPIPE
    else parseHead { newRead file with pos := (file.take 64).length } (file.take 64) := by
  unfold readHead
  rw [if_neg (by simp [newRead]), if_neg (by simp [newRead]), if_neg (by simp [newRead])]
  have : enoughData (newRead file) 64 = .ok true := rfl
  rw [this]
  have h1 : (fdRead (newRead file) 64).1 = file.take 64 := rfl
  have h2 : (fdRead (newRead file) 64).2 = { newRead file with pos := (file.take 64).length } := by
    show { newRead file with pos := 0 + (file.take 64).length } = _
    rw [Nat.zero_add]
  simp only [h1, h2]

theorem openIndex_newRead_inv {file : Bytes} {i : Index} (h : openIndex (newRead file) = .ok i) :
    ∃ hd : Header, hd.Valid ∧ (∃ r, file = encHead hd ++ r) ∧ i = rstate hd .read false 0 file 0 0 := by
  unfold openIndex at h
  cases hr : readHead (newRead file) with
  | ub => rw [hr] at h; cases h
  | err e =>
    exfalso
    have hne : e ≠ .EAGAIN := by
      rintro rfl
      rw [readHead_newRead] at hr
      split at hr
      · cases hr
      · exact parseHead_ne_again _ _ hr
    rw [hr] at h
    split at h
    · rename_i h'; injection h' with h'; exact hne h'
    · cases h
    · cases h
    · rename_i h'; cases h'
  | ok i' =>
    rw [hr] at h
    change writeHead i' = .ok i at h
    unfold readHead at hr
    rw [if_neg (by simp [newRead]), if_neg (by simp [newRead]), if_neg (by simp [newRead])] at hr
    have : enoughData (newRead file) 64 = .ok true := rfl
    rw [this] at hr
    simp only at hr
    split at hr
    · cases hr
    · rename_i hl
      have hl : (fdRead (newRead file) 64).1.length = 64 := by omega
      obtain ⟨hd, hv, hb, hi⟩ := parseHead_inv hl hr
      have hf : (fdRead (newRead file) 64).1 = file.take 64 := by simp [fdRead, newRead]
      rw [hf] at hb
      refine ⟨hd, hv, ⟨file.drop 64, ?_⟩, ?_⟩
      · rw [← hb, List.take_append_drop]
      · have hm : i'.mode = .read := by rw [hi]; rfl
        unfold writeHead at h
        rw [if_pos (by simp [hm])] at h
        injection h with h
        rw [← h, hi]
        have hp : (fdRead (newRead file) 64).2 = { newRead file with pos := 64 } := by
          have : (fdRead (newRead file) 64).2 = { newRead file with pos := 0 + (fdRead (newRead file) 64).1.length } := rfl
          rw [this, hl]
        rw [hp]
        rfl

theorem openIndex_newRead_encHead {hd : Header} (hv : hd.Valid) (r : Bytes) :
    openIndex (newRead (encHead hd ++ r)) = .ok (rstate hd .read false 0 (encHead hd ++ r) 0 0) := by
  have hr : readHead (newRead (encHead hd ++ r)) = .ok (rstate hd .read false 0 (encHead hd ++ r) 0 0) := by
    unfold readHead
    rw [if_neg (by simp [newRead]), if_neg (by simp [newRead]), if_neg (by simp [newRead])]
    have : enoughData (newRead (encHead hd ++ r)) 64 = .ok true := rfl
    rw [this]
    have hb : (fdRead (newRead (encHead hd ++ r)) 64).1 = encHead hd := by
      show List.take 64 (List.drop 0 (encHead hd ++ r)) = _
      rw [List.drop_zero, take_app (encHead_length hd)]
    have hp : (fdRead (newRead (encHead hd ++ r)) 64).2 = { newRead (encHead hd ++ r) with pos := 64 } := by
      have : (fdRead (newRead (encHead hd ++ r)) 64).2 = { newRead (encHead hd ++ r) with pos := 0 + (fdRead (newRead (encHead hd ++ r)) 64).1.length } := rfl
      rw [this, hb, encHead_length]
    simp only [hb, hp]
    rw [if_neg (by rw [encHead_length]; simp), parseHead_encHead hv]
    rfl
  unfold openIndex
  rw [hr]
  show writeHead _ = _
  unfold writeHead
  rw [if_pos (by simp [rstate])]

/-- Reading the first chunk is reading record 0 once the head is parsed. -/
theorem readChunk_newRead {file : Bytes} {hd : Header}
    (h : openIndex (newRead file) = .ok (rstate hd .read false 0 file 0 0)) :
    readChunk (newRead file) = readChunk (rstate hd .read false 0 file 0 0) := by
  unfold readChunk
  rw [h, openIndex_rstate (Or.inl rfl)]

theorem readLoop_newRead {file : Bytes} {hd : Header} (fuel : Nat)
    (h : openIndex (newRead file) = .ok (rstate hd .read false 0 file 0 0)) :
    readLoop fuel (newRead file) = readLoop fuel (rstate hd .read false 0 file 0 0) := by
  cases fuel with
  | zero => rfl
  | succ fuel => rw [readLoop, readLoop, readChunk_newRead h]

theorem readAll_encode {hd : Header} {cs : List (Bytes × Nat)} (hv : hd.Valid) (hc : ChunksValid hd cs)
    (hl : 40 * cs.length + 56 < 2 ^ 64) :
    ∃ i, readAll (encode hd cs) = .ok (deliver 0 cs, i) ∧ i.flags = hd.flags ∧ i.cmin = hd.cmin ∧
      i.cavg = hd.cavg ∧ i.cmax = hd.cmax := by
  have ho := openIndex_newRead_encHead hv (encItems 0 cs ++ encTail cs.length)
  have hlen : (encode hd cs).length = 64 + (40 * cs.length + 40) := by
    unfold encode
    rw [List.length_append, List.length_append, encHead_length, encItems_length (fun c h => (hc.1 c h).1),
      encTail_length]
  unfold readAll
  have hd' : (encode hd cs).drop (64 + 40 * 0) = encItems 0 cs ++ encTail (0 + cs.length) := by
    unfold encode
    rw [Nat.zero_add, drop_app (encHead_length hd)]
  have := readLoop_encode (h := hd) (eof := false) (raw := 0) cs 0 0 ((encode hd cs).length + 1) hd' (by omega)
    hc.1 (by have := hc.2; omega) (by omega) (by omega)
  have ho' : openIndex (newRead (encode hd cs)) = .ok (rstate hd .read false 0 (encode hd cs) 0 0) := ho
  rw [readLoop_newRead _ ho', this]
  exact ⟨_, rfl, rfl, rfl, rfl, rfl⟩

/-- What a successfully read record looks like. -/
theorem parseRecord_inv {h : Header} {m eof raw file k prev pos} {b : Bytes} {o : Option Chunk} {i' : Index}
    (hb : b.length = 40) (hpos : pos ≤ file.length) (hk : 16 + 40 * k + 40 < 2 ^ 64) (hprev : prev ≠ u64max)
    (hp : parseRecord { rstate h m eof raw file k prev with pos := pos } b = .ok (o, i')) :
    (o = none ∧ b = encTail k ∧ file.length = pos ∧ i' = { rstate h m eof raw file k prev with pos := pos }) ∨
    (∃ e id, b = le64 e ++ id ∧ id.length = 32 ∧ prev < e ∧ e < 2 ^ 64 ∧ e - prev ≤ h.cmax ∧
      o = some { id := id, endOffset := e, size := e - prev } ∧
      i' = { rstate h m eof raw file (k + 1) e with pos := pos }) := by
  unfold parseRecord at hp
  split at hp
  · rename_i hc
    left
    obtain ⟨v0, b1, g0, rfl, l1⟩ := split8 b 32 hb
    obtain ⟨v1, b2, g1, rfl, l2⟩ := split8 b1 24 l1
    obtain ⟨v2, b3, g2, rfl, l3⟩ := split8 b2 16 l2
    obtain ⟨v3, b4, g3, rfl, l4⟩ := split8 b3 8 l3
    obtain ⟨v4, g4, rfl⟩ := split8' b4 l4
    simp only [field_succ, field_zero _ _ g0, field_zero _ _ g1, field_zero _ _ g2, field_zero _ _ g3,
      field_zero' _ g4] at hc
    obtain ⟨c4, c0, c1, c2, c3⟩ := hc
    have hr : (fdRead { rstate h m eof raw file k prev with pos := pos } 1).1 = (file.drop pos).take 1 := rfl
    simp only [hr] at hp
    split at hp
    · cases hp
    · rename_i hlen
      have hlen : ((file.drop pos).take 1).length = 0 := by simpa using hlen
      have hlen' := hlen
      rw [List.length_take, List.length_drop] at hlen
      injection hp with hp
      injection hp with hp1 hp2
      have c3' : v3 = 16 + 40 * k + 40 := by rw [c3]; simp only [rstate]; omega
      refine ⟨hp1.symm, ?_, by omega, ?_⟩
      · unfold encTail
        rw [c0, c1, c2, c3', c4]
      · rw [← hp2]
        unfold fdRead
        simp only [hlen', rstate, Nat.add_zero]
  · split at hp
    · cases hp
    · split at hp
      · cases hp
      · rename_i c1 c2
        right
        obtain ⟨e, id, g0, rfl, l1⟩ := split8 b 32 hb
        simp only [field_zero _ _ g0] at c1 c2 hp
        have hpr : ({ rstate h m eof raw file k prev with pos := pos } : Index).prev = prev := rfl
        have hpc : ({ rstate h m eof raw file k prev with pos := pos } : Index).cmax = h.cmax := rfl
        have c1' : ¬ (prev ≠ u64max ∧ prev ≥ e) := c1
        have c2' : ¬ (prev ≠ u64max ∧ e - prev > h.cmax) := c2
        have a1 : prev < e := by
          rcases Nat.lt_or_ge prev e with h | h
          · exact h
          · exact absurd ⟨hprev, h⟩ c1'
        have a2 : e - prev ≤ h.cmax := by
          rcases Nat.lt_or_ge h.cmax (e - prev) with h' | h'
          · exact absurd ⟨hprev, h'⟩ c2'
          · exact h'
        injection hp with hp
        injection hp with hp1 hp2
        refine ⟨e, id, rfl, l1, a1, g0, a2, ?_, ?_⟩
        · rw [← hp1, drop_app (le64_length e)]
          have : (rstate h m eof raw file k prev).prev = prev := rfl
          rw [this, if_neg hprev]
        · rw [← hp2]; rfl

theorem readRecord_inv {h : Header} {m eof raw file k prev} {o : Option Chunk} {i' : Index}
    (hk : 16 + 40 * k + 40 < 2 ^ 64) (hprev : prev ≠ u64max)
    (hp : readRecord h m eof raw file k prev = .ok (o, i')) :
    (o = none ∧ file.drop (64 + 40 * k) = encTail k ∧ i' = { rstate h m eof raw file k prev with
        pos := 64 + 40 * k + 40 }) ∨
    (∃ e id, file.drop (64 + 40 * k) = (le64 e ++ id) ++ file.drop (64 + 40 * (k + 1)) ∧ id.length = 32 ∧
      prev < e ∧ e < 2 ^ 64 ∧ e - prev ≤ h.cmax ∧ 64 + 40 * (k + 1) ≤ file.length ∧
      o = some { id := id, endOffset := e, size := e - prev } ∧ i' = rstate h m eof raw file (k + 1) e) := by
  unfold readRecord at hp
  simp only at hp
  split at hp
  · cases hp
  · rename_i hl
    have hl : ((file.drop (64 + 40 * k)).take 40).length = 40 := by omega
    rw [hl] at hp
    have hll := hl
    rw [List.length_take, List.length_drop] at hll
    have hsplit : file.drop (64 + 40 * k) = (file.drop (64 + 40 * k)).take 40 ++ file.drop (64 + 40 * (k + 1)) := by
      have : file.drop (64 + 40 * (k + 1)) = (file.drop (64 + 40 * k)).drop 40 := by
        rw [List.drop_drop, show 64 + 40 * (k + 1) = 64 + 40 * k + 40 by omega]
      rw [this, List.take_append_drop]
    rcases parseRecord_inv hl (by omega) hk hprev hp with ⟨h1, h2, h3, h4⟩ | ⟨e, id, h1, h2, h3, h4, h5, h6, h7⟩
    · left
      refine ⟨h1, ?_, h4⟩
      rw [hsplit, h2, List.drop_of_length_le (by omega), List.append_nil]
    · right
      rw [h1] at hsplit
      exact ⟨e, id, hsplit, h2, h3, h4, h5, by omega, h6, by rw [h7]; rfl⟩

/-- Whatever the reader accepts is the canonical encoding of what it delivers. -/
theorem readLoop_inv {h : Header} {eof raw file} (hc : h.cmax ≤ 2 ^ 27) (hfl : file.length < 40 * 2 ^ 37) :
    ∀ (fuel k prev : Nat) (got : List Chunk) (i' : Index), prev ≤ k * 2 ^ 27 → 64 + 40 * k ≤ file.length →
    readLoop fuel (rstate h .read eof raw file k prev) = .ok (got, i') →
    ∃ cs, file.drop (64 + 40 * k) = encItems prev cs ++ encTail (k + cs.length) ∧
      (∀ c ∈ cs, c.1.length = 32 ∧ 1 ≤ c.2 ∧ c.2 ≤ h.cmax) ∧ prev + total cs < 2 ^ 64 ∧ got = deliver prev cs ∧
      i'.flags = h.flags ∧ i'.cmin = h.cmin ∧ i'.cavg = h.cavg ∧ i'.cmax = h.cmax := by
  intro fuel
  induction fuel with
  | zero => intro k prev got i' _ _ hr; rw [readLoop] at hr; cases hr
  | succ fuel ih =>
    intro k prev got i' hp hle hr
    have hprev : prev ≠ u64max := by simp only [u64max]; omega
    rw [readLoop] at hr
    cases hc : readChunk (rstate h .read eof raw file k prev) with
    | err e => rw [hc] at hr; cases hr
    | ub => rw [hc] at hr; cases hr
    | ok p =>
      obtain ⟨o, j⟩ := p
      rw [hc] at hr
      rw [readChunk_read] at hc
      rcases readRecord_inv (by omega) hprev hc with ⟨rfl, h2, h3⟩ | ⟨e, id, h1, h2, h3, h4, h5, h6, rfl, rfl⟩
      · injection hr with hr
        injection hr with hr1 hr2
        refine ⟨[], ?_, by simp, by simp [total]; omega, hr1.symm, ?_⟩
        · rw [nilapp (encItems_nil _), h2, lnil, Nat.add_zero]
        · rw [← hr2, h3]; exact ⟨rfl, rfl, rfl, rfl⟩
      · simp only at hr
        cases hl : readLoop fuel (rstate h .read eof raw file (k + 1) e) with
        | err e => rw [hl] at hr; cases hr
        | ub => rw [hl] at hr; cases hr
        | ok p =>
          obtain ⟨got', j'⟩ := p
          rw [hl] at hr
          injection hr with hr
          injection hr with hr1 hr2
          obtain ⟨cs, g1, g2, g3, g4, g5⟩ := ih (k + 1) e got' j' (by omega) h6 hl
          have he : prev + (e - prev) = e := by omega
          refine ⟨(id, e - prev) :: cs, ?_, ?_, ?_, ?_, ?_⟩
          · rw [h1, g1, encItems_cons, he, List.append_assoc, List.length_cons,
              show k + 1 + cs.length = k + (cs.length + 1) by omega]
            simp only [List.append_assoc]
          · intro c hc
            rcases List.mem_cons.1 hc with rfl | hc
            · exact ⟨h2, by show 1 ≤ e - prev; omega, h5⟩
            · exact g2 c hc
          · rw [total_cons]; omega
          · rw [← hr1, g4]
            simp only [deliver, he]
          · rw [← hr2]; exact g5

theorem parseRecord_ne_ub (i : Index) (b : Bytes) : parseRecord i b ≠ .ub := by
  unfold parseRecord
  simp only
  repeat' split
  all_goals (intro h; cases h)

theorem parseRecord_some {i i' : Index} {b : Bytes} {c : Chunk} (h : parseRecord i b = .ok (some c, i')) :
    i' = { i with prev := field b 0, itemPos := i.itemPos + 1, cooked := i.cooked + 40 } := by
  unfold parseRecord at h
  simp only at h
  split at h
  · split at h
    · cases h
    · injection h with h; injection h with h1 h2; cases h1
  · split at h
    · cases h
    · split at h
      · cases h
      · injection h with h; injection h with h1 h2; exact h2.symm

theorem readRecord_some {h : Header} {m eof raw file k prev} {c : Chunk} {i' : Index}
    (hp : readRecord h m eof raw file k prev = .ok (some c, i')) :
    64 + 40 * (k + 1) ≤ file.length ∧ ∃ e, i' = rstate h m eof raw file (k + 1) e := by
  unfold readRecord at hp
  simp only at hp
  split at hp
  · cases hp
  · rename_i hl
    have hl : ((file.drop (64 + 40 * k)).take 40).length = 40 := by omega
    rw [hl] at hp
    rw [List.length_take, List.length_drop] at hl
    refine ⟨by omega, field (List.take 40 (List.drop (64 + 40 * k) file)) 0, ?_⟩
    · rw [parseRecord_some hp]; rfl

/-- The bound on the number of reads in `readAll` is never the reason for a result. -/
theorem readLoop_ne_ub {h : Header} {eof raw file} :
    ∀ (fuel k prev : Nat), 64 + 40 * k ≤ file.length → file.length < 64 + 40 * k + 40 * fuel →
    readLoop fuel (rstate h .read eof raw file k prev) ≠ .ub := by
  intro fuel
  induction fuel with
  | zero => intro k prev h1 h2; omega
  | succ fuel ih =>
    intro k prev h1 h2
    rw [readLoop]
    cases hc : readChunk (rstate h .read eof raw file k prev) with
    | err e => intro h; cases h
    | ub =>
      rw [readChunk_read] at hc
      unfold readRecord at hc
      simp only at hc
      split at hc
      · cases hc
      · exact absurd hc (parseRecord_ne_ub _ _)
    | ok p =>
      obtain ⟨o, j⟩ := p
      cases o with
      | none => intro h; cases h
      | some c =>
        rw [readChunk_read] at hc
        obtain ⟨h3, e, rfl⟩ := readRecord_some hc
        have := ih (k + 1) e h3 (by omega)
        simp only
        cases hl : readLoop fuel (rstate h .read eof raw file (k + 1) e) with
        | ub => exact absurd hl this
        | err e => intro h; cases h
        | ok p => intro h; cases h

theorem readAll_ne_ub (file : Bytes) : readAll file ≠ .ub := by
  unfold readAll
  cases ho : openIndex (newRead file) with
  | ok i =>
    obtain ⟨hd, hv, ⟨r, hr⟩, rfl⟩ := openIndex_newRead_inv ho
    rw [readLoop_newRead _ ho]
    have : 64 ≤ file.length := by
      rw [hr, List.length_append, encHead_length]; omega
    exact readLoop_ne_ub _ _ _ (by omega) (by omega)
  | err e =>
    rw [readLoop]
    unfold readChunk
    rw [ho]
    intro h; cases h
  | ub =>
    exfalso
    unfold openIndex at ho
    have hw : ∀ i : Index, i.mode = .read → writeHead i ≠ .ub := by
      intro i hi h
      unfold writeHead at h
      rw [if_pos (by simp [hi])] at h; cases h
    split at ho
    · exact hw _ rfl ho
    · cases ho
    · rename_i hr
      rw [readHead_newRead] at hr
      split at hr
      · cases hr
      · exact parseHead_ne_ub _ _ hr
    · rename_i i hr
      refine hw i ?_ ho
      rw [readHead_newRead] at hr
      split at hr
      · cases hr
      · rename_i hl
        obtain ⟨hd, _, _, rfl⟩ := parseHead_inv (by omega) hr
        rfl

theorem readAll_inv {file : Bytes} {got : List Chunk} {i : Index} (hfl : file.length < 40 * 2 ^ 37)
    (h : readAll file = .ok (got, i)) :
    ∃ hd cs, hd.Valid ∧ ChunksValid hd cs ∧ file = encode hd cs ∧ got = deliver 0 cs ∧
      i.flags = hd.flags ∧ i.cmin = hd.cmin ∧ i.cavg = hd.cavg ∧ i.cmax = hd.cmax := by
  unfold readAll at h
  have ho : ∃ j, openIndex (newRead file) = .ok j := by
    rw [readLoop] at h
    cases hc : readChunk (newRead file) with
    | err e => rw [hc] at h; cases h
    | ub => rw [hc] at h; cases h
    | ok p =>
      unfold readChunk at hc
      rw [Res.bind_eq_ok] at hc
      exact ⟨_, hc.choose_spec.1⟩
  obtain ⟨j, ho⟩ := ho
  obtain ⟨hd, hv, ⟨r, hr⟩, rfl⟩ := openIndex_newRead_inv ho
  rw [readLoop_newRead _ ho] at h
  have hlen : 64 ≤ file.length := by
    rw [hr, List.length_append, encHead_length]; omega
  have hcm : hd.cmax ≤ 2 ^ 27 := hv.2.2.2.2
  obtain ⟨cs, h1, h2, h3, h4, h5⟩ := readLoop_inv hcm hfl _ 0 0 got i (by omega) (by omega) h
  refine ⟨hd, cs, hv, ⟨h2, by omega⟩, ?_, h4, h5⟩
  rw [Nat.mul_zero, Nat.add_zero, Nat.zero_add] at h1
  unfold encode
  rw [← h1]
  have := List.take_append_drop 64 file
  rw [← this]
  congr 1
  · rw [hr, take_app (encHead_length hd)]
  · rw [this]

/-- No canonical record sequence is a proper prefix of another one. -/
theorem encRest_prefix (cs : List (Bytes × Nat)) : ∀ (cs' : List (Bytes × Nat)) (s k : Nat) (x : Bytes),
    (∀ c ∈ cs, c.1.length = 32 ∧ 1 ≤ c.2) → (∀ c ∈ cs', c.1.length = 32 ∧ 1 ≤ c.2) →
    s + total cs < 2 ^ 64 → s + total cs' < 2 ^ 64 →
    encItems s cs ++ encTail (k + cs.length) = (encItems s cs' ++ encTail (k + cs'.length)) ++ x →
    cs = cs' ∧ x = [] := by
  induction cs with
  | nil =>
    intro cs' s k x _ h1 _ _ he
    cases cs' with
    | nil =>
      have := congrArg List.length he
      rw [List.length_append (as := _ ++ _)] at this
      exact ⟨rfl, List.length_eq_zero_iff.1 (by omega)⟩
    | cons c cs' =>
      have := congrArg List.length he
      rw [List.length_append, List.length_append, List.length_append, encTail_length, encTail_length,
        encItems_length (fun c hc => (h1 c hc).1), encItems_nil, List.length_cons] at this
      simp at this
      omega
  | cons c cs ih =>
    obtain ⟨id, size⟩ := c
    intro cs' s k x h0 h1 ht ht' he
    have hc := h0 (id, size) (by simp)
    rw [total_cons] at ht
    cases cs' with
    | nil =>
      exfalso
      have := congrArg (fun b => field b 0) he
      rw [nilapp (encItems_nil s), encItems_cons, List.append_assoc, List.append_assoc,
        field_zero _ _ (show s + size < 2 ^ 64 by omega)] at this
      unfold encTail at this
      rw [List.append_assoc, field_zero 0 _ (by decide)] at this
      have h2 : 1 ≤ size := hc.2
      omega
    | cons c' cs' =>
      obtain ⟨id', size'⟩ := c'
      have hc' := h1 (id', size') (by simp)
      rw [total_cons] at ht'
      rw [encItems_cons, encItems_cons] at he
      simp only [List.append_assoc] at he
      have e1 := List.append_inj_left he (by rw [le64_length, le64_length])
      have e2 := le64_inj (show s + size < 2 ^ 64 by omega) (show s + size' < 2 ^ 64 by omega) e1
      have es : size = size' := by omega
      subst es
      have he' := List.append_inj_right he rfl
      have e3 := List.append_inj_left he' (by rw [hc.1, hc'.1])
      have he'' := List.append_inj_right he' (by rw [hc.1, hc'.1])
      have := ih cs' (s + size) (k + 1) x (fun c hc => h0 c (by simp [hc])) (fun c hc => h1 c (by simp [hc]))
        (by omega) (by omega) (by
          rw [List.length_cons, List.length_cons] at he''
          rw [show k + 1 + cs.length = k + (cs.length + 1) by omega,
            show k + 1 + cs'.length = k + (cs'.length + 1) by omega, List.append_assoc]
          exact he'')
      rw [e3, this.1]
      exact ⟨rfl, this.2⟩

theorem encHead_inj {h h' : Header} {r r' : Bytes} (hv : h.Valid) (hv' : h'.Valid)
    (he : encHead h ++ r = encHead h' ++ r') : h = h' ∧ r = r' := by
  have e1 := List.append_inj_left he (by rw [encHead_length, encHead_length])
  have e2 := List.append_inj_right he (by rw [encHead_length, encHead_length])
  refine ⟨?_, e2⟩
  have p1 := parseHead_encHead hv (newRead [])
  have p2 := parseHead_encHead hv' (newRead [])
  rw [e1] at p1
  have p3 := Res.ok.inj (p1.symm.trans p2)
  have a1 : h.flags = h'.flags := congrArg Index.flags p3
  have a2 : h.cmin = h'.cmin := congrArg Index.cmin p3
  have a3 : h.cavg = h'.cavg := congrArg Index.cavg p3
  have a4 : h.cmax = h'.cmax := congrArg Index.cmax p3
  cases h; cases h'
  simp only [Header.mk.injEq]
  exact ⟨a1, a2, a3, a4⟩

theorem encode_prefix {h h' : Header} {cs cs'} {x : Bytes} (hv : h.Valid) (hv' : h'.Valid)
    (hc : ChunksValid h cs) (hc' : ChunksValid h' cs') (he : encode h cs = encode h' cs' ++ x) :
    h = h' ∧ cs = cs' ∧ x = [] := by
  unfold encode at he
  rw [List.append_assoc] at he
  obtain ⟨e1, e2⟩ := encHead_inj hv hv' he
  have := encRest_prefix cs cs' 0 0 x (fun c h => ⟨(hc.1 c h).1, (hc.1 c h).2.1⟩)
    (fun c h => ⟨(hc'.1 c h).1, (hc'.1 c h).2.1⟩) (by have := hc.2; omega) (by have := hc'.2; omega)
    (by rw [Nat.zero_add, Nat.zero_add]; exact e2)
  exact ⟨e1, this⟩

end Casync.Index
