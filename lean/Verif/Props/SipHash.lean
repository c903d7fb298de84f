import Verif.Model.SipHash
import Verif.Spec.SipHash
/-!
Property C24: SipHash does not depend on how its input is split, and is SipHash-2-4.
-/
namespace Casync.SipHash
open Casync

/-! ### words and padding -/

theorem rotl_eq (x : UInt64) (k : Nat) (h0 : 0 < k) (h : k < 64) : rotateLeft x (UInt64.ofNat k) = Spec.rotl x k := by
  have hk : (UInt64.ofNat k).toBitVec = BitVec.ofNat 64 k := rfl
  apply UInt64.toBitVec_inj.1
  unfold rotateLeft Spec.rotl
  rw [UInt64.toBitVec_or, UInt64.toBitVec_shiftLeft, UInt64.toBitVec_shiftRight, UInt64.toBitVec_sub, hk]
  show _ = x.toBitVec.rotateLeft k
  rw [BitVec.rotateLeft_def, Nat.mod_eq_of_lt h]
  have e1 : (BitVec.ofNat 64 k % 64#64).toNat = k := by
    simp [BitVec.toNat_umod]; omega
  have e2 : ((64#64 - BitVec.ofNat 64 k) % 64#64).toNat = 64 - k := by
    simp [BitVec.toNat_umod, BitVec.toNat_sub]; omega
  show x.toBitVec <<< (BitVec.ofNat 64 k % 64#64) ||| x.toBitVec >>> ((64#64 - BitVec.ofNat 64 k) % 64#64) = _
  rw [BitVec.shiftLeft_eq', BitVec.ushiftRight_eq', e1, e2]

def vec (s : State) : UInt64 × UInt64 × UInt64 × UInt64 := (s.v0, s.v1, s.v2, s.v3)

theorem sipround_eq (s : State) : vec (sipround s) = Spec.round (vec s) ∧ (sipround s).padding = s.padding ∧
    (sipround s).inlen = s.inlen := by
  refine ⟨?_, rfl, rfl⟩
  simp only [sipround, vec, Spec.round]
  rw [← rotl_eq _ 13 (by omega) (by omega), ← rotl_eq _ 16 (by omega) (by omega), ← rotl_eq _ 32 (by omega) (by omega),
    ← rotl_eq _ 17 (by omega) (by omega), ← rotl_eq _ 21 (by omega) (by omega), ← rotl_eq _ 32 (by omega) (by omega)]
  rfl

theorem absorb_eq (m : UInt64) (s : State) : vec (absorb m s) = Spec.word (vec s) m ∧
    (absorb m s).padding = s.padding ∧ (absorb m s).inlen = s.inlen := by
  have h1 := sipround_eq { s with v3 := s.v3 ^^^ m }
  have h2 := sipround_eq (sipround { s with v3 := s.v3 ^^^ m })
  refine ⟨?_, rfl, rfl⟩
  rw [h1.1] at h2
  unfold Spec.word
  have : vec { s with v3 := s.v3 ^^^ m } = ((vec s).1, (vec s).2.1, (vec s).2.2.1, (vec s).2.2.2 ^^^ m) := rfl
  rw [← this, ← h2.1]
  rfl

theorem rdLE_append (a b : Bytes) : rdLE (a ++ b) = rdLE a + 256 ^ a.length * rdLE b := by
  induction a with
  | nil => simp [rdLE]
  | cons x a ih => simp only [List.cons_append, rdLE, ih, List.length_cons, Nat.pow_succ]; grind

theorem pad_add (rest : Bytes) (b : UInt8) (h : rest.length < 8) :
    UInt64.ofNat (rdLE rest) ||| (b.toUInt64 <<< UInt64.ofNat (rest.length * 8)) = UInt64.ofNat (rdLE (rest ++ [b])) := by
  apply UInt64.toNat_inj.1
  have h1 := rdLE_lt rest
  have hb := b.toNat_lt
  have h2 := rdLE_lt (rest ++ [b])
  have h3 : 256 ^ rest.length = 2 ^ (8 * rest.length) := by rw [Nat.pow_mul]
  have h4 : 256 ^ rest.length ≤ 256 ^ 7 := Nat.pow_le_pow_right (by omega) (by omega)
  have h5 : 256 ^ (rest ++ [b]).length ≤ 256 ^ 8 := Nat.pow_le_pow_right (by omega) (by simp; omega)
  have e : rdLE (rest ++ [b]) = 2 ^ (8 * rest.length) * b.toNat + rdLE rest := by
    rw [rdLE_append, h3]; simp [rdLE]; omega
  rw [UInt64.toNat_or, UInt64.toNat_shiftLeft]
  simp only [UInt64.toNat_ofNat']
  rw [Nat.mod_eq_of_lt (a := rdLE (rest ++ [b])) (by omega), Nat.mod_eq_of_lt (a := rdLE rest) (by omega), e,
    Nat.two_pow_add_eq_or_of_lt (by rw [← h3]; exact h1), Nat.or_comm]
  congr 1
  have e1 : (rest.length * 8) % 2 ^ 64 % 64 = 8 * rest.length := by omega
  rw [e1, Nat.shiftLeft_eq, UInt8.toNat_toUInt64, Nat.mul_comm]
  apply Nat.mod_eq_of_lt
  have := e ▸ h2
  omega

theorem tail_eq (p : Bytes) : ∀ (n : Nat) (s : State), n ≤ p.length → n < 8 →
    tail n p s = .ok { s with padding := s.padding ||| UInt64.ofNat (rdLE (p.take n)) }
  | 0, s, _, _ => by
    have : s.padding ||| UInt64.ofNat (rdLE (p.take 0)) = s.padding := by
      simp [rdLE]
    simp only [tail, this]
  | n + 1, s, h, h8 => by
    simp only [tail]
    rw [List.getElem?_eq_getElem (by omega)]
    simp only
    rw [tail_eq p n _ (by omega) (by omega)]
    have hl : (p.take n).length = n := by rw [List.length_take]; omega
    have := pad_add (p.take n) p[n] (by omega)
    rw [hl] at this
    rw [List.take_succ_eq_append_getElem (by omega), ← this]
    congr 2
    rw [UInt64.or_assoc, UInt64.or_comm (p[n].toUInt64 <<< _)]

/-! ### the invariant -/

/-- Words of the whole words of a message. -/
def blocks (data : Bytes) : List UInt64 :=
  if 8 ≤ data.length then UInt64.ofNat (rdLE (data.take 8)) :: blocks (data.drop 8) else []
termination_by data.length
decreasing_by rw [List.length_drop]; omega

/-- The bytes behind the whole words. -/
def rest (data : Bytes) : Bytes := data.drop (data.length / 8 * 8)

/-- State `s` has absorbed exactly the message `data` after starting from `s0`. -/
structure Absorbed (v : UInt64 × UInt64 × UInt64 × UInt64) (data : Bytes) (s : State) : Prop where
  vec : vec s = (blocks data).foldl Spec.word v
  pad : s.padding = UInt64.ofNat (rdLE (rest data))
  len : s.inlen = data.length % 2 ^ 64

theorem blocks_append (a b : Bytes) (h : a.length % 8 = 0) : blocks (a ++ b) = blocks a ++ blocks b := by
  by_cases h8 : 8 ≤ a.length
  · rw [blocks, if_pos (by rw [List.length_append]; omega)]
    rw [List.take_append_of_le_length h8, List.drop_append_of_le_length h8]
    rw [blocks_append (a.drop 8) b (by rw [List.length_drop]; omega)]
    conv => rhs; rw [blocks, if_pos h8]
    rfl
  · have : a = [] := List.length_eq_zero_iff.1 (by omega)
    subst this
    rw [List.nil_append]
    conv => rhs; rw [blocks, if_neg (by simp)]
    rfl
termination_by a.length
decreasing_by rw [List.length_drop]; omega

theorem blocks_one (w : Bytes) (h : w.length = 8) : blocks w = [UInt64.ofNat (rdLE w)] := by
  rw [blocks, if_pos (by omega), List.take_of_length_le (by omega), blocks, if_neg (by rw [List.length_drop]; omega)]

theorem blocks_split (data : Bytes) : blocks data = blocks (data.take (data.length / 8 * 8)) := by
  conv => lhs; rw [← List.take_append_drop (data.length / 8 * 8) data]
  rw [blocks_append _ _ (by rw [List.length_take]; omega)]
  rw [show blocks (data.drop (data.length / 8 * 8)) = [] from ?_, List.append_nil]
  rw [blocks, if_neg (by rw [List.length_drop]; omega)]

theorem rest_length (data : Bytes) : (rest data).length = data.length % 8 := by
  unfold rest; rw [List.length_drop]; omega

theorem rest_append (a b : Bytes) (h : a.length % 8 = 0) : rest (a ++ b) = rest b := by
  unfold rest
  rw [List.length_append, List.drop_append, List.drop_eq_nil_of_le (by omega), List.nil_append]
  congr 1; omega

theorem wordLoop_eq : ∀ (k : Nat) (p : Bytes) (s : State), 8 * k ≤ p.length →
    (wordLoop k p s).1 = p.drop (8 * k) ∧ vec (wordLoop k p s).2 = (blocks (p.take (8 * k))).foldl Spec.word (vec s) ∧
      (wordLoop k p s).2.padding = s.padding ∧ (wordLoop k p s).2.inlen = s.inlen
  | 0, p, s, _ => by
    refine ⟨by simp [wordLoop], ?_, rfl, rfl⟩
    simp only [wordLoop]
    rw [blocks, if_neg (by simp)]; rfl
  | k + 1, p, s, h => by
    simp only [wordLoop]
    obtain ⟨a1, a2, a3⟩ := absorb_eq (readLe64 p) s
    obtain ⟨h1, h2, h3, h4⟩ := wordLoop_eq k (p.drop 8) (absorb (readLe64 p) s) (by rw [List.length_drop]; omega)
    refine ⟨?_, ?_, by rw [h3, a2], by rw [h4, a3]⟩
    · rw [h1, List.drop_drop]; congr 1; omega
    · rw [h2, a1]
      conv => rhs; rw [blocks, if_pos (by rw [List.length_take]; omega), List.foldl_cons]
      rw [List.take_take, List.drop_take, show min 8 (8 * (k + 1)) = 8 by omega, show 8 * (k + 1) - 8 = 8 * k by omega]
      rfl

/-- Compressing whole words and the rest, starting on a word boundary. -/
theorem compressRest_eq {v : UInt64 × UInt64 × UInt64 × UInt64} {d p : Bytes} {s : State} (hd : d.length % 8 = 0)
    (hv : vec s = (blocks d).foldl Spec.word v) (hp : s.padding = 0)
    (hl : s.inlen = (d ++ p).length % 2 ^ 64) :
    ∃ s', compressRest p s = .ok s' ∧ Absorbed v (d ++ p) s' := by
  have hmod : s.inlen % 8 = p.length % 8 := by rw [hl, List.length_append]; omega
  unfold compressRest
  rw [hmod, if_neg (by omega)]
  simp only
  have hk : (p.length - p.length % 8 + 7) / 8 = p.length / 8 := by omega
  rw [hk]
  obtain ⟨h1, h2, h3, h4⟩ := wordLoop_eq (p.length / 8) p s (by omega)
  rw [tail_eq _ _ _ (by rw [h1, List.length_drop]; omega) (by omega)]
  refine ⟨_, rfl, ?_, ?_, ?_⟩
  · rw [blocks_append d p hd, List.foldl_append, ← hv, blocks_split p, Nat.mul_comm (p.length / 8) 8, ← h2]
    rfl
  · show (wordLoop (p.length / 8) p s).2.padding ||| _ = _
    rw [h3, hp, UInt64.zero_or, h1, rest_append d p hd, rest, Nat.mul_comm 8, List.take_of_length_le]
    rw [List.length_drop]; omega
  · show (wordLoop (p.length / 8) p s).2.inlen = _
    rw [h4, hl]

theorem fill_eq : ∀ (p : Bytes) (r : Bytes) (s : State), r.length ≤ 8 → s.padding = UInt64.ofNat (rdLE r) →
    fill p r.length s = (p.drop (8 - r.length), (r ++ p.take (8 - r.length)).length,
      { s with padding := UInt64.ofNat (rdLE (r ++ p.take (8 - r.length))) })
  | [], r, s, _, hp => by
    simp only [fill, List.drop_nil, List.take_nil, List.append_nil, ← hp]
  | b :: p, r, s, h, hp => by
    simp only [fill]
    by_cases h8 : r.length < 8
    · rw [if_pos h8]
      have := fill_eq p (r ++ [b]) { s with padding := s.padding ||| (b.toUInt64 <<< UInt64.ofNat (r.length * 8)) }
        (by simp; omega) (by rw [hp]; exact pad_add r b h8)
      rw [show r.length + 1 = (r ++ [b]).length by simp, this]
      have e : 8 - r.length = (8 - (r ++ [b]).length) + 1 := by simp; omega
      rw [e, List.drop_succ_cons, List.take_succ_cons]
      simp
    · have h8' : 8 - r.length = 0 := by omega
      rw [if_neg h8, h8', List.drop_zero, List.take_zero, List.append_nil, ← hp]

/-- One call extends the absorbed message by its input. -/
theorem compress_absorbed {v : UInt64 × UInt64 × UInt64 × UInt64} {d : Bytes} {s : State} (h : Absorbed v d s) (p : Bytes) :
    ∃ s', compress p s = .ok s' ∧ Absorbed v (d ++ p) s' := by
  obtain ⟨hv, hp, hl⟩ := h
  have hleft : s.inlen % 8 = d.length % 8 := by rw [hl]; omega
  have hlen : (s.inlen + p.length) % 2 ^ 64 = (d ++ p).length % 2 ^ 64 := by
    rw [hl, List.length_append]; omega
  unfold compress
  simp only
  rw [hleft]
  by_cases h0 : d.length % 8 > 0
  · rw [if_pos h0]
    have hr := rest_length d
    rw [← hr, fill_eq p (rest d) { s with inlen := (s.inlen + p.length) % 2 ^ 64 } (by omega) hp]
    simp only
    have hdd : d = d.take (d.length / 8 * 8) ++ rest d := (List.take_append_drop _ _).symm
    have hdl : (d.take (d.length / 8 * 8)).length % 8 = 0 := by rw [List.length_take]; omega
    by_cases hshort : (rest d).length + p.length < 8
    · have hpt : p.take (8 - (rest d).length) = p := List.take_of_length_le (by omega)
      have hpd : p.drop (8 - (rest d).length) = [] := List.drop_eq_nil_of_le (by omega)
      rw [hpd, hpt, if_pos ⟨rfl, by rw [List.length_append]; exact hshort⟩]
      refine ⟨_, rfl, ?_, ?_, hlen⟩
      · show vec s = _
        rw [hv]; congr 1
        rw [blocks_split d, blocks_split (d ++ p)]
        have : (d ++ p).length / 8 = d.length / 8 := by rw [List.length_append]; omega
        rw [this, List.take_append_of_le_length (by omega)]
      · show UInt64.ofNat (rdLE (rest d ++ p)) = _
        congr 2
        conv => rhs; rw [hdd, List.append_assoc, rest_append _ _ hdl]
        unfold rest
        have : (List.drop (d.length / 8 * 8) d ++ p).length / 8 = 0 := by
          have := hr; unfold rest at this hshort; rw [List.length_append]; omega
        rw [this]; simp
    · rw [if_neg (by
        rintro ⟨-, hh⟩
        rw [List.length_append, List.length_take] at hh
        omega)]
      generalize hw : rest d ++ p.take (8 - (rest d).length) = w
      have hwl : w.length = 8 := by rw [← hw, List.length_append, List.length_take]; omega
      have hcat : d ++ p = (d.take (d.length / 8 * 8) ++ w) ++ p.drop (8 - (rest d).length) := by
        rw [← hw, ← List.append_assoc, ← hdd, List.append_assoc, List.take_append_drop]
      rw [hcat]
      obtain ⟨a1, a2, a3⟩ := absorb_eq (UInt64.ofNat (rdLE w))
        { s with inlen := (s.inlen + p.length) % 2 ^ 64, padding := UInt64.ofNat (rdLE w) }
      apply compressRest_eq
      · rw [List.length_append, List.length_take]; omega
      · show vec (absorb (UInt64.ofNat (rdLE w)) _) = _
        rw [a1, blocks_append _ _ hdl, List.foldl_append, ← blocks_split, ← hv, blocks_one w hwl]
        rfl
      · rfl
      · show (s.inlen + p.length) % 2 ^ 64 = _
        rw [← hcat]; exact hlen
  · rw [if_neg h0]
    apply compressRest_eq (by omega)
    · exact hv
    · show s.padding = 0
      have : rest d = [] := List.length_eq_zero_iff.1 (by rw [rest_length]; omega)
      rw [hp, this]; rfl
    · exact hlen

theorem compressAll_absorbed {v : UInt64 × UInt64 × UInt64 × UInt64} : ∀ (ps : List Bytes) {d : Bytes} {s : State},
    Absorbed v d s → ∃ s', compressAll ps s = .ok s' ∧ Absorbed v (d ++ ps.flatten) s'
  | [], d, s, h => ⟨s, rfl, by simpa using h⟩
  | p :: ps, d, s, h => by
    obtain ⟨s1, h1, h2⟩ := compress_absorbed h p
    obtain ⟨s2, h3, h4⟩ := compressAll_absorbed ps h2
    refine ⟨s2, by simp only [compressAll, h1, Res.bind_ok, h3], ?_⟩
    rw [List.flatten_cons, ← List.append_assoc]; exact h4

theorem words_eq (len : Nat) (data : Bytes) : Spec.words len data =
    blocks data ++ [UInt64.ofNat (rdLE (rest data) + 2 ^ 56 * (len % 256))] := by
  by_cases h : 8 ≤ data.length
  · rw [Spec.words, if_pos h, blocks, if_pos h, words_eq len (data.drop 8)]
    have : rest (data.drop 8) = rest data := by
      conv => rhs; rw [← List.take_append_drop 8 data]
      rw [rest_append]; rw [List.length_take]; omega
    rw [this]; rfl
  · rw [Spec.words, if_neg h, blocks, if_neg h]
    have : rest data = data := by unfold rest; rw [show data.length / 8 * 8 = 0 by omega]; rfl
    rw [this]; rfl
termination_by data.length
decreasing_by rw [List.length_drop]; omega

theorem finalWord (r : Bytes) (n : Nat) (h : r.length < 8) :
    UInt64.ofNat (rdLE r) ||| (UInt64.ofNat (n % 2 ^ 64) <<< 56) = UInt64.ofNat (rdLE r + 2 ^ 56 * (n % 256)) := by
  apply UInt64.toNat_inj.1
  have h1 := rdLE_lt r
  have h4 : 256 ^ r.length ≤ 256 ^ 7 := Nat.pow_le_pow_right (by omega) (by omega)
  have h5 : rdLE r < 2 ^ 56 := by omega
  rw [UInt64.toNat_or, UInt64.toNat_shiftLeft]
  simp only [UInt64.toNat_ofNat']
  rw [Nat.mod_eq_of_lt (a := rdLE r) (by omega), Nat.mod_eq_of_lt (a := rdLE r + 2 ^ 56 * (n % 256)) (by omega),
    Nat.add_comm (rdLE r), Nat.two_pow_add_eq_or_of_lt h5, Nat.or_comm]
  have e56 : UInt64.toNat 56 % 64 = 56 := by decide
  rw [e56, Nat.shiftLeft_eq]
  have e : n % 2 ^ 64 % 2 ^ 64 * 2 ^ 56 % 2 ^ 64 = 2 ^ 56 * (n % 256) := by omega
  rw [e]

theorem finalize_absorbed {v : UInt64 × UInt64 × UInt64 × UInt64} {d : Bytes} {s : State} (h : Absorbed v d s) :
    finalize s = (match (Spec.words d.length d).foldl Spec.word v with
      | (v0, v1, v2, v3) => match Spec.round (Spec.round (Spec.round (Spec.round (v0, v1, v2 ^^^ 0xff, v3)))) with
        | (v0, v1, v2, v3) => v0 ^^^ v1 ^^^ v2 ^^^ v3) := by
  obtain ⟨hv, hp, hl⟩ := h
  unfold finalize
  simp only
  rw [words_eq, List.foldl_append, ← hv, hp, hl, finalWord (rest d) d.length (by rw [rest_length]; omega)]
  generalize UInt64.ofNat (rdLE (rest d) + 2 ^ 56 * (d.length % 256)) = m
  rw [List.foldl_cons, List.foldl_nil, ← (absorb_eq m s).1]
  generalize absorb m s = t
  rw [show vec t = (t.v0, t.v1, t.v2, t.v3) from rfl]
  simp only
  have e0 : vec { t with v2 := t.v2 ^^^ 0xff } = (t.v0, t.v1, t.v2 ^^^ 0xff, t.v3) := rfl
  rw [← e0, ← (sipround_eq _).1, ← (sipround_eq _).1, ← (sipround_eq _).1, ← (sipround_eq _).1]
  rfl

/-- C24. Hashing in any number of `compress` calls of any sizes (empty ones included) yields the SipHash-2-4 of the
concatenation, for every key, and never touches memory outside of the input. -/
theorem C24_split_independent (k : Bytes) (parts : List Bytes) :
    ∃ s, compressAll parts (init k) = .ok s ∧ finalize s = Spec.siphash k parts.flatten := by
  have h0 : Absorbed (vec (init k)) [] (init k) :=
    ⟨by rw [blocks, if_neg (by simp)]; rfl, rfl, rfl⟩
  obtain ⟨s, h1, h2⟩ := compressAll_absorbed parts h0
  refine ⟨s, h1, ?_⟩
  rw [List.nil_append] at h2
  rw [finalize_absorbed h2]
  unfold Spec.siphash
  simp only
  have : vec (init k) = (UInt64.ofNat (rdLE (k.take 8)) ^^^ 0x736f6d6570736575,
      UInt64.ofNat (rdLE ((k.drop 8).take 8)) ^^^ 0x646f72616e646f6d,
      UInt64.ofNat (rdLE (k.take 8)) ^^^ 0x6c7967656e657261,
      UInt64.ofNat (rdLE ((k.drop 8).take 8)) ^^^ 0x7465646279746573) := by
    simp only [vec, init, readLe64]
    rw [UInt64.xor_comm 0x736f6d6570736575, UInt64.xor_comm 0x646f72616e646f6d, UInt64.xor_comm 0x6c7967656e657261,
      UInt64.xor_comm 0x7465646279746573]
  rw [this]

/-- C24. The one-call function computes the same. -/
theorem C24_single_call (k data : Bytes) : siphash24 data k = .ok (Spec.siphash k data) := by
  obtain ⟨s, h1, h2⟩ := C24_split_independent k [data]
  have h1 : compress data (init k) = .ok s := by
    simp only [compressAll] at h1
    rw [Res.bind_eq_ok] at h1
    obtain ⟨a, ha, hb⟩ := h1
    rw [ha, Res.ok.inj hb]
  unfold siphash24
  rw [h1, Res.bind_ok, h2]
  simp

/-- The reference test vector of the SipHash paper (appendix A): key 00..0f, message 00..0e. -/
example : Spec.siphash ((List.range 16).map UInt8.ofNat) ((List.range 15).map UInt8.ofNat) = 0xa129ca6149be45e5 := by
  decide +kernel

example : ∃ s, compressAll [[1, 2, 3], [], [4, 5, 6, 7, 8, 9, 10], List.replicate 20 7] (init (List.replicate 16 9)) = .ok s ∧
    finalize s = Spec.siphash (List.replicate 16 9) ([1, 2, 3, 4, 5, 6, 7, 8, 9, 10] ++ List.replicate 20 7) :=
  C24_split_independent _ _

end Casync.SipHash
