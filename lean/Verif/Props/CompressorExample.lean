import Verif.Props.Compressor
/-!
C61: a library that keeps the contract, and what the functions do with it.
-/
namespace Casync.Stream.Toy
open Casync

/-- The states of the toy library: a decoder that still expects these magic bytes, one that still expects so many bytes of content,
an encoder that has collected this. No repo lines. -/
inductive State
  | head (left : Bytes)
  | body (n : Nat)
  | data (k : Kind) (d : Bytes)
  deriving DecidableEq

/-- A decoder that takes one byte at a time. No repo lines. -/
def dec (s : State) (b : UInt8) : Bytes × Answer × State :=
  match s with
  | .head [] => if b = 0 then ([], .fin, s) else ([], .more, .body b.toNat)
  | .head (m :: ms) => if b = m then ([], .more, .head ms) else ([], .bad, s)
  | .body 0 => ([], .bad, s)
  | .body (n + 1) => if n = 0 then ([b], .fin, s) else ([b], .more, .body n)
  | .data _ _ => ([], .bad, s)

/-- The toy library: a stream is the magic bytes, one byte with the size, the content. No repo lines. -/
def lib : Lib State where
  decoder k := .head (Magic k)
  encoder k := .data k []
  decode s inp _ :=
    match inp with
    | [] => ⟨0, [], .bad, s⟩
    | b :: _ => ⟨1, (dec s b).1, (dec s b).2.1, (dec s b).2.2⟩
  encode s f inp _ :=
    match s with
    | .data k d =>
      if f = true then
        if (d ++ inp).length < 256 then ⟨inp.length, Magic k ++ UInt8.ofNat (d ++ inp).length :: (d ++ inp), .fin, s⟩ else ⟨0, [], .bad, s⟩
      else ⟨inp.length, [], .more, .data k (d ++ inp)⟩
    | _ => ⟨0, [], .bad, s⟩

/-- The streams of the toy library. -/
def fmt : Format := fun k z d => ∃ len : UInt8, z = Magic k ++ len :: d ∧ d.length = len.toNat

/-- Where a toy decoder is. -/
def At (k : Kind) : State → Bytes → Bytes → Prop
  | .head left, z, d => z ++ left = Magic k ∧ d = []
  | .body n, z, d => ∃ len : UInt8, z = Magic k ++ len :: d ∧ d.length + n = len.toNat ∧ 0 < n
  | .data _ _, _, _ => False

/-- Where a toy encoder is. -/
def At' (k : Kind) (s : State) (d z : Bytes) (f : Option Bytes) : Prop := s = .data k d ∧ z = [] ∧ f = none

theorem fmt_ok : fmt.Ok where
  magic := by
    rintro k z d ⟨len, rfl, _⟩
    exact List.prefix_append _ _
  once := by
    rintro k z d w u ⟨len, rfl, h1⟩ ⟨len', h2, h3⟩
    rw [List.append_assoc] at h2
    have h4 := List.append_cancel_left h2
    rw [List.cons_append] at h4
    injection h4 with h5 h6
    subst h5
    have h7 := congrArg List.length h6
    rw [List.length_append] at h7
    have hw : w = [] := List.length_eq_zero_iff.1 (by omega)
    rw [hw, List.append_nil] at h6
    exact ⟨hw, h6.symm⟩

theorem decode_cons (s : State) (b : UInt8) (t : Bytes) (room : Nat) :
    lib.decode s (b :: t) room = ⟨1, (dec s b).1, (dec s b).2.1, (dec s b).2.2⟩ := rfl

theorem dec_out (s : State) (b : UInt8) : (dec s b).1.length ≤ 1 := by
  cases s with
  | head left =>
    cases left with
    | nil => by_cases h : b = 0 <;> simp [dec, h]
    | cons m ms => by_cases h : b = m <;> simp [dec, h]
  | body n =>
    cases n with
    | zero => simp [dec]
    | succ n => by_cases h : n = 0 <;> simp [dec, h]
  | data k' d' => simp [dec]

theorem toNat_ne (b : UInt8) (h : b ≠ 0) : 0 < b.toNat := by
  rcases Nat.eq_zero_or_pos b.toNat with h' | h'
  · exact absurd (UInt8.toNat_inj.1 (by rw [h']; rfl)) h
  · exact h'

theorem decodes : Decodes lib fmt At where
  fresh k := ⟨rfl, rfl⟩
  bounds := by
    intro k s z d inp room ha hi hr
    cases inp with
    | nil => exact absurd rfl hi
    | cons b t =>
      rw [decode_cons]
      refine ⟨by simp, ?_⟩
      have := dec_out s b
      show (dec s b).1.length ≤ room
      omega
  more := by
    intro k s z d inp room ha hi hr hm
    cases inp with
    | nil => exact absurd rfl hi
    | cons b t =>
      rw [decode_cons] at hm ⊢
      simp only at hm ⊢
      refine ⟨?_, .inl (by omega)⟩
      cases s with
      | head left =>
        obtain ⟨h1, h2⟩ := ha
        cases left with
        | nil =>
          unfold dec at hm ⊢
          by_cases hb : b = 0
          · simp only [if_pos hb] at hm; cases hm
          · simp only [if_neg hb]
            rw [List.append_nil] at h1
            refine ⟨b, ?_, ?_, toNat_ne b hb⟩
            · rw [h1, h2]; rfl
            · rw [h2]; simp
        | cons m ms =>
          unfold dec at hm ⊢
          by_cases hb : b = m
          · simp only [if_pos hb]
            refine ⟨?_, by rw [h2]; rfl⟩
            rw [← h1, hb, List.append_assoc]; rfl
          · simp only [if_neg hb] at hm; cases hm
      | body n =>
        obtain ⟨len, h1, h2, h3⟩ := ha
        cases n with
        | zero => omega
        | succ n =>
          unfold dec at hm ⊢
          by_cases hb : n = 0
          · simp only [if_pos hb] at hm; cases hm
          · simp only [if_neg hb]
            refine ⟨len, ?_, ?_, by omega⟩
            · rw [h1, List.append_assoc]; rfl
            · rw [List.length_append]; simp only [List.length_cons, List.length_nil]; omega
      | data k' d' => exact absurd ha (by intro h; exact h)
  fin := by
    intro k s z d inp room ha hi hr hm
    cases inp with
    | nil => exact absurd rfl hi
    | cons b t =>
      rw [decode_cons] at hm ⊢
      simp only at hm ⊢
      cases s with
      | head left =>
        obtain ⟨h1, h2⟩ := ha
        cases left with
        | nil =>
          unfold dec at hm ⊢
          by_cases hb : b = 0
          · simp only [if_pos hb]
            rw [List.append_nil] at h1
            exact ⟨b, by rw [h1, h2]; rfl, by rw [h2, hb]; rfl⟩
          · simp only [if_neg hb] at hm; cases hm
        | cons m ms =>
          unfold dec at hm
          by_cases hb : b = m
          · simp only [if_pos hb] at hm; cases hm
          · simp only [if_neg hb] at hm; cases hm
      | body n =>
        obtain ⟨len, h1, h2, h3⟩ := ha
        cases n with
        | zero => omega
        | succ n =>
          unfold dec at hm ⊢
          by_cases hb : n = 0
          · simp only [if_pos hb]
            refine ⟨len, ?_, ?_⟩
            · rw [h1, List.append_assoc]; rfl
            · rw [List.length_append]; simp only [List.length_cons, List.length_nil]; omega
          · simp only [if_neg hb] at hm; cases hm
      | data k' d' => exact absurd ha (by intro h; exact h)
  whole := by
    intro k s z d w u inp room ha hw hz hi hc hr
    cases inp with
    | nil => exact absurd rfl hi
    | cons b t =>
      cases w with
      | nil => exact absurd rfl hw
      | cons c w =>
        have hbc : b = c := by
          rcases hc with ⟨x, hx⟩ | ⟨x, hx⟩
          · injection hx
          · injection hx with h; exact h.symm
        subst hbc
        rw [decode_cons]
        simp only
        obtain ⟨len, hz1, hz2⟩ := hz
        cases s with
        | head left =>
          obtain ⟨h1, h2⟩ := ha
          cases left with
          | nil =>
            rw [List.append_nil] at h1
            rw [h1] at hz1
            have h4 := List.append_cancel_left hz1
            injection h4 with h5 h6
            subst h5; subst h6
            unfold dec
            by_cases hb : b = 0
            · simp only [if_pos hb]
              exact ⟨(by intro h; cases h), by simp, by intro h; cases h⟩
            · simp only [if_neg hb]
              have := toNat_ne b hb
              refine ⟨(by intro h; cases h), by simp, fun _ => ⟨?_, ?_⟩⟩
              · simp only [List.length_cons]; omega
              · rw [h2]; exact List.nil_prefix
          | cons m ms =>
            rw [← h1, List.append_assoc] at hz1
            have h4 := List.append_cancel_left hz1
            rw [List.cons_append] at h4
            injection h4 with h5 h6
            unfold dec
            simp only [if_pos h5]
            refine ⟨(by intro h; cases h), by simp, fun _ => ⟨?_, ?_⟩⟩
            · rw [h6]; simp only [List.length_cons, List.length_append]; omega
            · rw [h2]; exact List.nil_prefix
        | body n =>
          obtain ⟨len', h1, h2, h3⟩ := ha
          rw [h1, List.append_assoc] at hz1
          have h4 := List.append_cancel_left hz1
          rw [List.cons_append] at h4
          injection h4 with h5 h6
          subst h5
          have h7 := congrArg List.length h6
          rw [List.length_append, List.length_cons] at h7
          cases n with
          | zero => omega
          | succ n =>
            unfold dec
            by_cases hb : n = 0
            · simp only [if_pos hb]
              exact ⟨(by intro h; cases h), by simp, by intro h; cases h⟩
            · simp only [if_neg hb]
              refine ⟨(by intro h; cases h), by simp, fun _ => ⟨?_, ?_⟩⟩
              · simp only [List.length_cons]; omega
              · rw [← h6]; exact ⟨w, by rw [List.append_assoc]; rfl⟩
        | data k' d' => exact absurd ha (by intro h; exact h)

theorem encodes : Encodes lib fmt At' where
  fresh k := ⟨rfl, rfl, rfl⟩
  run := by
    rintro k s d z inp room ⟨rfl, rfl, _⟩ hi hr
    refine ⟨Nat.le_refl _, (by intro h; cases h), fun _ => ⟨⟨?_, rfl, rfl⟩, .inl (List.length_pos_iff.2 hi)⟩⟩
    show State.data k (d ++ inp) = .data k (d ++ inp.take inp.length)
    rw [List.take_length]
  finish := by
    rintro k s d z f inp room ⟨rfl, rfl, rfl⟩ _ hr
    by_cases h : (d ++ inp).length < 256
    · have he : lib.encode (.data k d) true inp room =
          ⟨inp.length, Magic k ++ UInt8.ofNat (d ++ inp).length :: (d ++ inp), .fin, .data k d⟩ := by
        unfold lib; simp only [if_pos, if_pos h]
      rw [he]
      refine ⟨Nat.le_refl _, fun _ => ⟨rfl, _, rfl, ?_⟩, (by intro h; cases h)⟩
      rw [UInt8.toNat_ofNat_of_lt' h]
    · have he : lib.encode (.data k d) true inp room = ⟨0, [], .bad, .data k d⟩ := by
        unfold lib; simp only [if_pos, if_neg h]
      rw [he]
      exact ⟨Nat.zero_le _, (by intro h; cases h), (by intro h; cases h)⟩

/-- Reads of one byte. -/
def one : Nat → Chop := fun _ => .give 1

/-- The contract is met, and a file of the toy format that is read byte by byte is loaded; cut short it is refused, and so is one
with a byte too many. The same file in a buffer is decompressed; cut short it stops the program. -/
example : Decodes lib fmt At ∧ fmt .gzip [31, 139, 3, 5, 6, 7] [5, 6, 7] ∧ NoFail one ∧
    loadDecompress lib one 30 [31, 139, 3, 5, 6, 7] [9] = some (.ok [9, 5, 6, 7]) ∧
    loadDecompress lib one 30 [31, 139, 3, 5, 6] [9] = some (.err .EPIPE) ∧
    loadDecompress lib one 30 [31, 139, 3, 5, 6, 7, 8] [9] = some (.err .EBADMSG) ∧
    decompress lib 30 [31, 139, 3, 5, 6, 7] [9] = some (.ok [9, 5, 6, 7]) ∧
    decompress lib 30 [31, 139, 3, 5, 6] [9] = some .ub := by
  refine ⟨decodes, ⟨(3 : UInt8), rfl, rfl⟩, (by intro i e h; cases h), ?_⟩
  decide +kernel

/-- The encoder's contract is met too, and it stays below the limit. -/
example : Encodes lib fmt At' ∧ Small fmt At' [5, 6, 7] ∧ compress lib .zstd 30 [5, 6, 7] [] = some (.ok [40, 181, 47, 253, 3, 5, 6, 7]) ∧
    loadCompress lib (fun _ => .give 65536) .xz 30 [5, 6, 7] [] = some (.ok [253, 55, 122, 88, 90, 0, 3, 5, 6, 7]) := by
  refine ⟨encodes, ⟨?_, ?_⟩, ?_⟩
  · rintro k s d z f ⟨_, rfl, _⟩ _
    simp
  · rintro k z ⟨len, rfl, _⟩
    cases k <;> simp [Magic]
  · decide +kernel

/-- A read that delivers less than asked for before the end of the file (as network and FUSE file systems may) makes
`ca_load_and_compress_fd` report success for a part of the file: here the first three of five bytes. -/
theorem C61_short_read_violated :
    loadCompress lib (fun _ => .give 3) .gzip 30 [5, 6, 7, 8, 9] [] = some (.ok [31, 139, 3, 5, 6, 7]) ∧
    fmt .gzip [31, 139, 3, 5, 6, 7] [5, 6, 7] ∧ ¬ fmt .gzip [31, 139, 3, 5, 6, 7] [5, 6, 7, 8, 9] := by
  refine ⟨by decide +kernel, ⟨3, rfl, rfl⟩, ?_⟩
  rintro ⟨len, h, _⟩
  have := congrArg List.length h
  simp [Magic] at this

end Casync.Stream.Toy
