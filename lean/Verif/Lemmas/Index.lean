import Verif.Spec.Index
namespace Casync.Index
open Casync Casync.Index.Spec

theorem field_zero (a : Nat) (r : Bytes) (h : a < 2 ^ 64) : field (le64 a ++ r) 0 = a := by
  unfold field
  simp only [Nat.mul_zero, List.drop_zero]
  rw [List.take_append_of_le_length (by simp), List.take_of_length_le (by simp), rdLE_le64 h]

theorem field_succ (a : Nat) (r : Bytes) (k : Nat) : field (le64 a ++ r) (k + 1) = field r k := by
  unfold field
  have : List.drop (8 * (k + 1)) (le64 a ++ r) = List.drop (8 * k) r := by
    rw [List.drop_append, List.drop_of_length_le (by simp; omega)]
    simp only [le64_length, List.nil_append]; congr 1
  rw [this]

theorem field_zero' (a : Nat) (h : a < 2 ^ 64) : field (le64 a) 0 = a := by
  have := field_zero a [] h; simpa using this

theorem field_lt (b : Bytes) (k : Nat) (h : 8 * k + 8 ≤ b.length) : field b k < 2 ^ 64 := by
  apply rdLE_lt64
  simp; omega

theorem split_field (b : Bytes) (h : 8 ≤ b.length) : b = le64 (field b 0) ++ b.drop 8 := by
  unfold field
  rw [le64_rdLE (by simp; omega)]
  simp

theorem field_drop (b : Bytes) (k : Nat) : field (b.drop 8) k = field b (k + 1) := by
  unfold field
  rw [List.drop_drop]
  congr 3; omega

/-- A reader positioned on record `k`. -/
def rstate (h : Header) (m : Mode) (eof : Bool) (raw : Nat) (file : Bytes) (k prev : Nat) : Index :=
  { mode := m, wroteEof := eof, startOffset := 64, cooked := 64 + 40 * k, raw := raw, itemPos := k,
    prev := prev, cmin := h.cmin, cavg := h.cavg, cmax := h.cmax, flags := h.flags, file := file,
    pos := 64 + 40 * k }

theorem openIndex_rstate {h m eof raw file k prev} (hm : m = .read ∨ m = .incRead) :
    openIndex (rstate h m eof raw file k prev) = .ok (rstate h m eof raw file k prev) := by
  have h1 : readHead (rstate h m eof raw file k prev) = .ok (rstate h m eof raw file k prev) := by
    unfold readHead
    rw [if_neg (by rcases hm with rfl | rfl <;> simp [rstate]), if_pos (by simp [rstate])]
  unfold openIndex
  rw [h1]
  show writeHead _ = _
  unfold writeHead
  rw [if_pos (by rcases hm with rfl | rfl <;> simp [rstate])]

/-- Reading a record, once there is enough data. -/
def readRecord (h : Header) (m : Mode) (eof : Bool) (raw : Nat) (file : Bytes) (k prev : Nat) :
    Res (Option Chunk × Index) :=
  let b := (file.drop (64 + 40 * k)).take 40
  if b.length ≠ 40 then .err .EPIPE
  else parseRecord { rstate h m eof raw file k prev with pos := 64 + 40 * k + b.length } b

theorem readChunk_read {h raw eof file k prev} :
    readChunk (rstate h .read eof raw file k prev) = readRecord h .read eof raw file k prev := by
  unfold readChunk
  rw [openIndex_rstate (Or.inl rfl)]
  simp only [Res.bind_ok]
  rw [if_neg (by simp [rstate])]
  have : enoughData (rstate h .read eof raw file k prev) 41 = .ok true := rfl
  rw [this]
  rfl

theorem parse_item {h : Header} {m eof raw file k prev pos} {id : Bytes} {e : Nat} (he : e < 2 ^ 64)
    (h0 : prev < e) (hp : prev ≠ u64max) (hs : e - prev ≤ h.cmax) :
    parseRecord { rstate h m eof raw file k prev with pos := pos } (le64 e ++ id) =
      .ok (some { id := id, endOffset := e, size := e - prev },
        { rstate h m eof raw file (k + 1) e with pos := pos }) := by
  unfold parseRecord
  have f0 := field_zero e id he
  have hc : ¬ (field (le64 e ++ id) 4 = tailMarker ∧ field (le64 e ++ id) 0 = 0 ∧ field (le64 e ++ id) 1 = 0 ∧
      field (le64 e ++ id) 2 = 48 ∧
      field (le64 e ++ id) 3 = (rstate h m eof raw file k prev).cooked - (rstate h m eof raw file k prev).startOffset + 16 + 40) := by
    rw [f0]; omega
  rw [if_neg hc, if_neg (by rw [f0]; simp only [rstate]; omega), if_neg (by rw [f0]; simp only [rstate]; omega)]
  rw [f0]
  have : (le64 e ++ id).drop 8 = id := by
    rw [List.drop_append]; simp
  rw [this]
  simp only [rstate, hp, if_false]
  rfl

theorem parse_tail {h : Header} {m eof raw file k prev pos} (hk : 16 + 40 * k + 40 < 2 ^ 64)
    (hpos : file.length ≤ pos) :
    parseRecord { rstate h m eof raw file k prev with pos := pos } (encTail k) =
      .ok (none, { rstate h m eof raw file k prev with pos := pos }) := by
  unfold parseRecord encTail
  simp only [field_succ, field_zero _ _ (show 0 < 2 ^ 64 by decide), field_zero _ _ (show 48 < 2 ^ 64 by decide),
    field_zero _ _ hk, field_zero' _ (show 0x4b4f050e5549ecd1 < 2 ^ 64 by decide)]
  have hc : True ∧ True ∧ True ∧ True ∧ 16 + 40 * k + 40 =
      (rstate h m eof raw file k prev).cooked - (rstate h m eof raw file k prev).startOffset + 16 + 40 :=
    ⟨trivial, trivial, trivial, trivial, by simp only [rstate]; omega⟩
  rw [if_pos hc]
  have : (fdRead { rstate h m eof raw file k prev with pos := pos } 1) = ([], { rstate h m eof raw file k prev with pos := pos }) := by
    simp [fdRead, rstate, List.drop_of_length_le hpos]
  rw [this]
  simp

theorem encItems_nil (s : Nat) : encItems s [] = [] := rfl
theorem encItems_cons (s : Nat) (id : Bytes) (size : Nat) (cs) :
    encItems s ((id, size) :: cs) = (le64 (s + size) ++ id) ++ encItems (s + size) cs := rfl
theorem lnil : ([] : List (Bytes × Nat)).length = 0 := rfl
theorem take_self {b : Bytes} {n : Nat} (h : b.length = n) : b.take n = b := by rw [← h, List.take_length]
theorem take_app {b c : Bytes} {n : Nat} (h : b.length = n) : (b ++ c).take n = b := by
  rw [← h, List.take_append_of_le_length (Nat.le_refl _), List.take_length]
theorem drop_app {b c : Bytes} {n : Nat} (h : b.length = n) : (b ++ c).drop n = c := by
  rw [← h, List.drop_append, List.drop_length, Nat.sub_self, List.drop_zero, List.nil_append]
theorem nilapp {b c : Bytes} (h : c = []) : c ++ b = b := by rw [h, List.nil_append]

theorem encTail_length (n : Nat) : (encTail n).length = 40 := by simp [encTail]
theorem encHead_length (h : Header) : (encHead h).length = 64 := by simp [encHead]

theorem encItems_length {start : Nat} {cs : List (Bytes × Nat)} (h : ∀ c ∈ cs, c.1.length = 32) :
    (encItems start cs).length = 40 * cs.length := by
  induction cs generalizing start with
  | nil => rfl
  | cons c cs ih =>
    obtain ⟨id, size⟩ := c
    have h1 : id.length = 32 := h (id, size) (by simp)
    simp only [encItems, List.length_append, le64_length, h1, List.length_cons,
      ih (fun c hc => h c (by simp [hc]))]
    omega

theorem total_cons (id : Bytes) (size : Nat) (cs) : total ((id, size) :: cs) = size + total cs := by
  simp [total]

theorem readLoop_none {i i' : Index} {fuel} (h : readChunk i = .ok (none, i')) :
    readLoop (fuel + 1) i = .ok ([], i') := by
  rw [readLoop, h]

theorem readLoop_some {i i' : Index} {fuel c cs i''} (h : readChunk i = .ok (some c, i'))
    (h' : readLoop fuel i' = .ok (cs, i'')) : readLoop (fuel + 1) i = .ok (c :: cs, i'') := by
  rw [readLoop, h]
  simp only [h']

/-- Reading the remaining chunks. -/
theorem readLoop_encode {h : Header} {eof raw file} (cs : List (Bytes × Nat)) :
    ∀ (k prev fuel : Nat), file.drop (64 + 40 * k) = encItems prev cs ++ encTail (k + cs.length) →
    64 + 40 * k ≤ file.length →
    (∀ c ∈ cs, c.1.length = 32 ∧ 1 ≤ c.2 ∧ c.2 ≤ h.cmax) → prev + total cs < 2 ^ 64 →
    40 * (k + cs.length) + 56 < 2 ^ 64 → cs.length < fuel →
    readLoop fuel (rstate h .read eof raw file k prev) =
      .ok (deliver prev cs, { rstate h .read eof raw file (k + cs.length)
        (prev + total cs) with pos := file.length }) := by
  induction cs with
  | nil =>
    intro k prev fuel hf hle _ _ hk hfu
    cases fuel with
    | zero => exact absurd hfu (Nat.not_lt_zero _)
    | succ fuel =>
      have hb : (file.drop (64 + 40 * k)).take 40 = encTail k := by
        rw [hf, nilapp (encItems_nil _), take_self (encTail_length _), lnil, Nat.add_zero]
      have hlen : file.length = 64 + 40 * k + 40 := by
        have := congrArg List.length hf
        rw [nilapp (encItems_nil _), List.length_drop, encTail_length] at this
        omega
      have hr : readChunk (rstate h .read eof raw file k prev) =
          .ok (none, { rstate h .read eof raw file k prev with pos := file.length }) := by
        have hk' : 16 + 40 * k + 40 < 2 ^ 64 := by simp only [List.length_nil] at hk; omega
        have hl' : file.length ≤ file.length := Nat.le_refl _
        rw [readChunk_read, readRecord, hb, if_neg (by rw [encTail_length]; simp), encTail_length, ← hlen]
        exact parse_tail hk' hl'
      rw [readLoop_none hr]
      simp only [deliver, total, List.length_nil, List.map_nil, List.sum_nil, Nat.add_zero]
  | cons c cs ih =>
    obtain ⟨id, size⟩ := c
    intro k prev fuel hf hle hv ht hk hfu
    cases fuel with
    | zero => exact absurd hfu (Nat.not_lt_zero _)
    | succ fuel =>
      have hid : id.length = 32 := (hv (id, size) (by simp)).1
      have hsz : 1 ≤ size ∧ size ≤ h.cmax := (hv (id, size) (by simp)).2
      rw [total_cons] at ht
      have hb : (file.drop (64 + 40 * k)).take 40 = le64 (prev + size) ++ id := by
        rw [hf, encItems_cons, List.append_assoc, take_app (by simp [hid])]
      have hlen : file.length = 64 + 40 * k + (40 * (cs.length + 1) + 40) := by
        have := congrArg List.length hf
        rw [List.length_append, encItems_length (fun c hc => (hv c hc).1), encTail_length, List.length_drop,
          List.length_cons] at this
        omega
      have hpos : 64 + 40 * k + (le64 (prev + size) ++ id).length = 64 + 40 * (k + 1) := by
        rw [List.length_append, le64_length, hid]; omega
      have hr : readChunk (rstate h .read eof raw file k prev) =
          .ok (some { id := id, endOffset := prev + size, size := size },
            rstate h .read eof raw file (k + 1) (prev + size)) := by
        have h1 : prev + size < 2 ^ 64 := by omega
        have h2 : prev < prev + size := by omega
        have h3 : prev ≠ u64max := by simp only [u64max]; omega
        have h4 : prev + size - prev ≤ h.cmax := by omega
        have := parse_item (m := .read) (eof := eof) (raw := raw) (file := file) (k := k)
          (pos := 64 + 40 * (k + 1)) (id := id) h1 h2 h3 h4
        rw [readChunk_read, readRecord, hb,
          if_neg (by rw [List.length_append, le64_length, hid]; simp), hpos, this,
          Nat.add_sub_cancel_left]
        rfl
      have hd : file.drop (64 + 40 * (k + 1)) = encItems (prev + size) cs ++ encTail (k + 1 + cs.length) := by
        have : file.drop (64 + 40 * (k + 1)) = (file.drop (64 + 40 * k)).drop 40 := by
          rw [List.drop_drop]; congr 1
        rw [this, hf, encItems_cons, List.append_assoc, drop_app (by simp [hid]), List.length_cons,
          show k + 1 + cs.length = k + (cs.length + 1) by omega]
      have hi := ih (k + 1) (prev + size) fuel hd (by omega) (fun c hc => hv c (by simp [hc])) (by omega)
        (by rw [List.length_cons] at hk; omega) (by rw [List.length_cons] at hfu; omega)
      rw [readLoop_some hr hi]
      simp only [deliver, total_cons, List.length_cons]
      have e1 : k + 1 + cs.length = k + (cs.length + 1) := by omega
      have e2 : prev + size + total cs = prev + (size + total cs) := by omega
      rw [e1, e2]

theorem parseHead_encHead {h : Header} (hv : h.Valid) (i : Index) :
    parseHead i (encHead h) = .ok { i with
      startOffset := 64, cooked := 64, flags := h.flags, cmin := h.cmin, cavg := h.cavg, cmax := h.cmax } := by
  obtain ⟨h1, h2, h3, h4, h5⟩ := hv
  unfold parseHead encHead
  have hfl := h.flags.isLt
  simp only [field_succ, field_zero _ _ (show 48 < 2 ^ 64 by decide),
    field_zero _ _ (show 0x96824d9c7b129ff9 < 2 ^ 64 by decide), field_zero _ _ hfl,
    field_zero _ _ (show h.cmin < 2 ^ 64 by omega), field_zero _ _ (show h.cavg < 2 ^ 64 by omega),
    field_zero _ _ (show h.cmax < 2 ^ 64 by omega),
    field_zero _ _ (show 0xffffffffffffffff < 2 ^ 64 by decide),
    field_zero' _ (show 0xe75b9e112f17417d < 2 ^ 64 by decide), BitVec.ofNat_toNat, BitVec.setWidth_eq, h1]
  simp only [limitMax, u64max, tIndex, tTable]
  rw [if_neg (by omega), if_neg (by omega), if_neg (by omega), if_neg (by omega), if_neg (by omega),
    if_neg (by omega)]

end Casync.Index
