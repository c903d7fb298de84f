import Verif.Spec.BlockDevice
/-!
Lemmas on the messages and on the block device object.
-/
namespace Casync.Nbd
open Casync Casync.Nbd.Spec

/-! ### Numbers -/

theorem beN_length (k n : Nat) : (beN k n).length = k := by unfold beN; simp

theorem be32_length (n : Nat) : (be32 n).length = 4 := rfl
theorem be64_length (n : Nat) : (be64 n).length = 8 := rfl

theorem be32_eq (n : Nat) : be32 n = beN 4 n := by
  unfold be32 beN
  simp only [leN, List.reverse_cons, List.reverse_nil, List.nil_append, List.cons_append, Nat.div_div_eq_div_mul]

theorem be64_eq (n : Nat) : be64 n = beN 8 n := by
  unfold be64 be32 beN
  simp only [leN, List.reverse_cons, List.reverse_nil, List.nil_append, List.cons_append, Nat.div_div_eq_div_mul]

theorem rdBE_beN (k n : Nat) : rdBE (beN k n) = n % 256 ^ k := by
  unfold rdBE beN
  rw [List.reverse_reverse, rdLE_leN]

theorem beN_rdBE (b : Bytes) : beN b.length (rdBE b) = b := by
  unfold rdBE beN
  have := leN_rdLE b.reverse
  rw [List.length_reverse] at this
  rw [this, List.reverse_reverse]

theorem rdBE_lt (b : Bytes) : rdBE b < 256 ^ b.length := by
  have := rdLE_lt b.reverse
  rwa [List.length_reverse] at this

/-! ### The contents of a reply -/

theorem content_eq (image : Bytes) (start len : Nat) :
    content image start len = (image.drop start).take len ++ List.replicate (len - (image.length - start)) 0 := by
  apply List.ext_getElem?
  intro i
  unfold content
  rw [List.getElem?_map]
  by_cases hi : i < len
  · rw [List.getElem?_range hi]
    simp only [Option.map_some]
    by_cases hs : start + i < image.length
    · rw [List.getElem?_append_left (by rw [List.length_take, List.length_drop]; omega), List.getElem?_take_of_lt hi, List.getElem?_drop,
        List.getElem?_eq_getElem hs]
      simp [List.getD, List.getElem?_eq_getElem hs]
    · rw [List.getElem?_append_right (by rw [List.length_take, List.length_drop]; omega), List.length_take, List.length_drop, List.getElem?_replicate,
        if_pos (by omega)]
      simp [List.getD, List.getElem?_eq_none (Nat.le_of_not_lt hs)]
  · rw [List.getElem?_eq_none (by rw [List.length_range]; omega), List.getElem?_eq_none]
    · rfl
    · rw [List.length_append, List.length_take, List.length_drop, List.length_replicate]; omega

theorem content_length (image : Bytes) (start len : Nat) : (content image start len).length = len := by
  unfold content; simp

/-! ### Messages -/

theorem request_length {h : Bytes} (hh : h.length = 8) (s l : Nat) : (request h s l).length = 28 := by
  unfold request
  simp only [List.length_append, be32_length, be64_length, hh]

theorem request_fields {h : Bytes} {s l : Nat} (w : WellFormed h s l) {d : Device} (hd : d.last = request h s l) :
    d.magic = requestMagic ∧ d.type = 0 ∧ d.handle = h ∧ d.start = s ∧ d.len = l := by
  have hh := w.handle
  unfold Device.magic Device.type Device.handle Device.start Device.len
  rw [hd]
  unfold request
  refine ⟨?_, ?_, ?_, ?_, ?_⟩
  · rw [List.append_assoc, List.append_assoc, List.append_assoc, List.take_left' (be32_length _), be32_eq, rdBE_beN]
    rfl
  · rw [List.append_assoc, List.append_assoc, List.append_assoc, List.drop_left' (be32_length _), List.take_left' (be32_length _), be32_eq, rdBE_beN]
  · rw [List.append_assoc, List.append_assoc, List.drop_left' (by rw [List.length_append, be32_length, be32_length]), List.take_left' hh]
  · rw [List.append_assoc, List.drop_left' (by rw [List.length_append, List.length_append, be32_length, be32_length, hh]), List.take_left' (be64_length _),
      be64_eq, rdBE_beN, Nat.mod_eq_of_lt w.start]
  · rw [List.drop_left' (by rw [List.length_append, List.length_append, List.length_append, be32_length, be32_length, be64_length, hh]),
      List.take_of_length_le (Nat.le_of_eq (be32_length _)), be32_eq, rdBE_beN, Nat.mod_eq_of_lt w.len]

theorem take_drop_split (b : Bytes) (k n : Nat) : b.drop k = (b.drop k).take n ++ b.drop (k + n) := by
  conv => lhs; rw [← List.take_append_drop n (b.drop k)]
  rw [List.drop_drop]

theorem beN_field {b : Bytes} {k n v : Nat} (hl : b.length = 28) (hk : k + n ≤ 28) (h : rdBE ((b.drop k).take n) = v) : (b.drop k).take n = beN n v := by
  have h1 : ((b.drop k).take n).length = n := by rw [List.length_take, List.length_drop]; omega
  have := beN_rdBE ((b.drop k).take n)
  rw [h1, h] at this
  exact this.symm

/-- A message that passes the checks is a request. -/
theorem request_of_fields {d : Device} (hl : d.last.length = 28) (h1 : d.magic = requestMagic) (h2 : d.type = 0) (h3 : d.len ≠ 0) :
    WellFormed d.handle d.start d.len ∧ d.last = request d.handle d.start d.len := by
  constructor
  · have hs := rdBE_lt ((d.last.drop 16).take 8)
    have hn := rdBE_lt ((d.last.drop 24).take 4)
    rw [List.length_take, List.length_drop, hl] at hs hn
    refine ⟨?_, ?_, Nat.pos_of_ne_zero h3, ?_⟩
    · show ((d.last.drop 8).take 8).length = 8
      rw [List.length_take, List.length_drop, hl]; rfl
    · exact hs
    · exact hn
  · have e0 : d.last.take 4 = beN 4 requestMagic := by
      have := beN_field (k := 0) (n := 4) (v := requestMagic) hl (by omega) (by rw [List.drop_zero]; exact h1)
      rwa [List.drop_zero] at this
    have e1 : (d.last.drop 4).take 4 = beN 4 0 := beN_field hl (by omega) h2
    have e2 : (d.last.drop 16).take 8 = beN 8 d.start := beN_field hl (by omega) rfl
    have e3 : (d.last.drop 24).take 4 = beN 4 d.len := beN_field hl (by omega) rfl
    unfold request
    rw [be32_eq, be32_eq, be32_eq, be64_eq]
    show d.last = beN 4 requestMagic ++ beN 4 0 ++ (d.last.drop 8).take 8 ++ beN 8 d.start ++ beN 4 d.len
    rw [← e0, ← e1, ← e2, ← e3]
    have a0 := take_drop_split d.last 0 4
    have a1 := take_drop_split d.last 4 4
    have a2 := take_drop_split d.last 8 8
    have a3 := take_drop_split d.last 16 8
    have a4 : d.last.drop 24 = (d.last.drop 24).take 4 := (List.take_of_length_le (by rw [List.length_drop, hl]; omega)).symm
    rw [List.drop_zero] at a0
    simp only [Nat.zero_add, Nat.reduceAdd] at a0 a1 a2 a3
    conv => lhs; rw [a0, a1, a2, a3, a4]
    simp only [List.append_assoc]

/-- No request is pending. -/
def Idle (d : Device) : Prop := d.last = List.replicate 28 0

theorem Idle.magic {d : Device} (h : Idle d) : d.magic = 0 := by
  unfold Device.magic
  rw [h]
  decide

/-- The step of an idle device, read as a whole. -/
theorem devStep_idle {d : Device} (hd : Idle d) (b : Bytes) :
    (∃ h s l, WellFormed h s l ∧ b.take 28 = request h s l ∧ devStep d (.ok b) = (.ok .request, { d with last := request h s l })) ∨
    ((∀ h s l, WellFormed h s l → b.take 28 ≠ request h s l) ∧ ∃ d', devStep d (.ok b) = (.err .EBADMSG, d')) := by
  unfold devStep
  rw [if_neg (by rw [hd.magic]; simp)]
  simp only
  by_cases hl : (b.take 28).length = 28
  · rw [if_neg (by simpa using hl)]
    have hlast : b.take 28 ++ d.last.drop (b.take 28).length = b.take 28 := by
      rw [hl, hd, List.drop_of_length_le (by simp), List.append_nil]
    rw [hlast]
    have key : ∀ h s l, WellFormed h s l → b.take 28 = request h s l → Device.magic { d with last := b.take 28 } = requestMagic ∧
        Device.type { d with last := b.take 28 } = 0 ∧ Device.len { d with last := b.take 28 } = l := by
      intro h s l w e
      obtain ⟨h1, h2, _, _, h5⟩ := request_fields w (d := { d with last := b.take 28 }) e
      exact ⟨h1, h2, h5⟩
    by_cases hm : Device.magic { d with last := b.take 28 } = requestMagic
    · rw [if_neg (by simpa using hm)]
      by_cases ht : Device.type { d with last := b.take 28 } = 0
      · rw [if_neg (by simpa using ht)]
        by_cases hn : Device.len { d with last := b.take 28 } = 0
        · rw [if_pos hn]
          right
          refine ⟨fun h s l w e => ?_, _, rfl⟩
          have := (key h s l w e).2.2
          have := w.pos
          omega
        · rw [if_neg hn]
          left
          obtain ⟨w, e⟩ := request_of_fields (d := { d with last := b.take 28 }) hl hm ht hn
          refine ⟨_, _, _, w, e, ?_⟩
          rw [← e]
      · rw [if_pos (by simpa using ht)]
        right
        exact ⟨fun h s l w e => ht (key h s l w e).2.1, _, rfl⟩
    · rw [if_pos (by simpa using hm)]
      right
      exact ⟨fun h s l w e => hm (key h s l w e).1, _, rfl⟩
  · rw [if_pos (by simpa using hl)]
    right
    refine ⟨fun h s l w e => ?_, _, rfl⟩
    rw [e, request_length w.handle] at hl
    exact hl rfl

/-- Sending the data for a pending request. -/
theorem putData_spec {d : Device} {h : Bytes} {s l : Nat} (w : WellFormed h s l) (hd : d.last = request h s l) {image data : Bytes}
    (hdata : data = content image s l) (fails : Option (Nat × Errno)) :
    (∃ b e, putData d s data fails = (b, .err e) ∧ b <+: reply image h s l) ∨
    (∃ d', putData d s data fails = (reply image h s l, .ok d') ∧ Idle d') := by
  obtain ⟨h1, h2, h3, h4, h5⟩ := request_fields w hd
  have hlen : data.length = l := by rw [hdata, content_length]
  have hp := w.pos
  have hrep : beN 4 replyMagic ++ beN 4 0 ++ d.handle ++ data = reply image h s l := by
    unfold reply
    rw [h3, hdata, be32_eq, be32_eq]
    rfl
  unfold putData
  rw [if_neg (by omega), if_neg (by rw [h1]; decide), if_neg (by rw [h4]; simp), if_neg (by rw [h5, hlen]; simp)]
  unfold writeReply
  rw [hrep]
  cases fails with
  | none => exact .inr ⟨_, rfl, rfl⟩
  | some x =>
    obtain ⟨n, e⟩ := x
    simp only
    by_cases hn : n < (reply image h s l).length
    · rw [if_pos hn]
      exact .inl ⟨_, _, rfl, List.take_prefix _ _⟩
    · rw [if_neg hn]
      exact .inr ⟨_, rfl, rfl⟩

theorem putData_ok {d : Device} {h : Bytes} {s l : Nat} (w : WellFormed h s l) (hd : d.last = request h s l) {image data : Bytes}
    (hdata : data = content image s l) : ∃ d', putData d s data none = (reply image h s l, .ok d') ∧ Idle d' := by
  rcases putData_spec w hd hdata none with ⟨b, e, he, hb⟩ | h
  · exfalso
    unfold putData at he
    obtain ⟨h1, h2, h3, h4, h5⟩ := request_fields w hd
    have hlen : data.length = l := by rw [hdata, content_length]
    have hp := w.pos
    rw [if_neg (by omega), if_neg (by rw [h1]; decide), if_neg (by rw [h4]; simp), if_neg (by rw [h5, hlen]; simp)] at he
    unfold writeReply at he
    simp at he
  · exact h

end Casync.Nbd
