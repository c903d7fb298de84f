import Verif.Lemmas.IndexRead
namespace Casync.Index
open Casync Casync.Index.Spec

/-- End offset of the first `k` chunks. -/
def E (cs : List (Bytes × Nat)) (k : Nat) : Nat := total (cs.take k)

theorem E_zero (cs) : E cs 0 = 0 := by simp [E, total]
theorem E_succ {cs : List (Bytes × Nat)} {k : Nat} (h : k < cs.length) : E cs (k + 1) = E cs k + cs[k].2 := by
  unfold E total
  rw [List.take_add_one, List.getElem?_eq_getElem h]
  simp only [Option.toList_some, List.map_append, List.map_cons, List.map_nil, List.sum_append_nat, List.sum_cons,
    List.sum_nil, Nat.add_zero]
theorem E_length (cs : List (Bytes × Nat)) : E cs cs.length = total cs := by simp [E]
theorem E_mono {cs : List (Bytes × Nat)} {a b : Nat} (h : a ≤ b) : E cs a ≤ E cs b := by
  induction b with
  | zero => simp at h; rw [h]; exact Nat.le_refl _
  | succ b ih =>
    rcases Nat.lt_or_ge a (b + 1) with h1 | h1
    · have := ih (by omega)
      rcases Nat.lt_or_ge b cs.length with h2 | h2
      · rw [E_succ h2]; omega
      · have : E cs (b + 1) = E cs b := by
          unfold E; rw [List.take_of_length_le (by omega), List.take_of_length_le h2]
        omega
    · have : a = b + 1 := by omega
      rw [this]; exact Nat.le_refl _
theorem E_le_total (cs : List (Bytes × Nat)) (k : Nat) : E cs k ≤ total cs := by
  rcases Nat.lt_or_ge k cs.length with h | h
  · rw [← E_length]; exact E_mono (by omega)
  · unfold E; rw [List.take_of_length_le h]; exact Nat.le_refl _

theorem encItems_drop (cs : List (Bytes × Nat)) : ∀ (s k : Nat) (t : Bytes), (∀ c ∈ cs, c.1.length = 32) →
    k ≤ cs.length → (encItems s cs ++ t).drop (40 * k) = encItems (s + E cs k) (cs.drop k) ++ t := by
  induction cs with
  | nil =>
    intro s k t _ hk
    have : k = 0 := by simpa using hk
    subst this
    rw [E_zero, Nat.mul_zero, List.drop_zero, List.drop_zero, Nat.add_zero]
  | cons c cs ih =>
    obtain ⟨id, size⟩ := c
    intro s k t h hk
    cases k with
    | zero => rw [E_zero, Nat.mul_zero, List.drop_zero, List.drop_zero, Nat.add_zero]
    | succ k =>
      have hid : id.length = 32 := h (id, size) (by simp)
      rw [encItems_cons, List.append_assoc, show 40 * (k + 1) = 40 + 40 * k by omega, ← List.drop_drop,
        drop_app (by rw [List.length_append, le64_length, hid]),
        ih (s + size) k t (fun c hc => h c (by simp [hc])) (by simpa using hk)]
      have : E ((id, size) :: cs) (k + 1) = size + E cs k := by
        unfold E; rw [List.take_succ_cons, total_cons]
      rw [this, List.drop_succ_cons, Nat.add_assoc]

/-- A reader of the file with arbitrary position fields. -/
def gstate (h : Header) (file : Bytes) (pos cooked itemPos prev : Nat) : Index :=
  { mode := .read, startOffset := 64, cooked := cooked, itemPos := itemPos,
    prev := prev, cmin := h.cmin, cavg := h.cavg, cmax := h.cmax, flags := h.flags, file := file,
    pos := pos }

theorem rstate_gstate (h file k prev) :
    rstate h .read false 0 file k prev = gstate h file (64 + 40 * k) (64 + 40 * k) k prev := rfl

theorem readHead_gstate (h file p c i v) : readHead (gstate h file p c i v) = .ok (gstate h file p c i v) := by
  unfold readHead
  rw [if_neg (by simp [gstate]), if_pos (by simp [gstate])]

theorem openIndex_gstate (h file p c i v) : openIndex (gstate h file p c i v) = .ok (gstate h file p c i v) := by
  unfold openIndex
  rw [readHead_gstate]
  show writeHead _ = _
  unfold writeHead
  rw [if_pos (by simp [gstate])]

theorem setPosition_gstate {h file p c i v} {q : Nat} (hq : 64 + 40 * q < 2 ^ 63) :
    setPosition (gstate h file p c i v) q =
      .ok (rstate h .read false 0 file q (if q = 0 then 0 else u64max)) := by
  unfold setPosition
  rw [if_neg (by simp [gstate]), if_neg (by simp [gstate])]
  have e1 : q * 40 % 2 ^ 64 = 40 * q := by rw [Nat.mul_comm, Nat.mod_eq_of_lt (by omega)]
  have e2 : (64 + 40 * q) % 2 ^ 64 = 64 + 40 * q := Nat.mod_eq_of_lt (by omega)
  have e3 : (gstate h file p c i v).startOffset = 64 := rfl
  simp only [e1, e2, e3]
  rw [if_neg (by omega), if_neg (by omega), if_neg (by omega)]
  rfl

/-- A canonical file of representable size. -/
structure Canon (hd : Header) (cs : List (Bytes × Nat)) (file : Bytes) : Prop where
  hv : hd.Valid
  hc : ChunksValid hd cs
  hf : file = encode hd cs
  hl : 104 + 40 * cs.length < 2 ^ 63

theorem Canon.len {hd cs file} (c : Canon hd cs file) : file.length = 104 + 40 * cs.length := by
  rw [c.hf]; unfold encode
  rw [List.length_append, List.length_append, encHead_length, encItems_length (fun x h => (c.hc.1 x h).1),
    encTail_length]
  omega

theorem Canon.drop {hd cs file} (c : Canon hd cs file) {k : Nat} (hk : k ≤ cs.length) :
    file.drop (64 + 40 * k) = encItems (E cs k) (cs.drop k) ++ encTail cs.length := by
  rw [c.hf]; unfold encode
  rw [← List.drop_drop, drop_app (encHead_length hd), encItems_drop cs 0 k _ (fun x h => (c.hc.1 x h).1) hk,
    Nat.zero_add]

/-- With an unknown previous offset the size is unknown, too. -/
theorem parse_item_unknown {h : Header} {m eof raw file k pos} {id : Bytes} {e : Nat} (he : e < 2 ^ 64)
    (h0 : 0 < e) :
    parseRecord { rstate h m eof raw file k u64max with pos := pos } (le64 e ++ id) =
      .ok (some { id := id, endOffset := e, size := u64max },
        { rstate h m eof raw file (k + 1) e with pos := pos }) := by
  unfold parseRecord
  have f0 := field_zero e id he
  have hc : ¬ (field (le64 e ++ id) 4 = tailMarker ∧ field (le64 e ++ id) 0 = 0 ∧ field (le64 e ++ id) 1 = 0 ∧
      field (le64 e ++ id) 2 = 48 ∧
      field (le64 e ++ id) 3 = (rstate h m eof raw file k u64max).cooked - (rstate h m eof raw file k u64max).startOffset + 16 + 40) := by
    rw [f0]; omega
  rw [if_neg hc, if_neg (by simp [rstate]), if_neg (by simp [rstate])]
  rw [f0, drop_app (le64_length e)]
  simp only [rstate]
  rfl

theorem Canon.read {hd cs file} (c : Canon hd cs file) {k : Nat} (hk : k < cs.length) {prev : Nat}
    (hp : prev = E cs k ∨ prev = u64max) :
    ∃ sz, readChunk (rstate hd .read false 0 file k prev) =
      .ok (some { id := cs[k].1, endOffset := E cs (k + 1), size := sz },
        rstate hd .read false 0 file (k + 1) (E cs (k + 1))) ∧ (prev = E cs k → sz = cs[k].2) := by
  have hmem : cs[k] ∈ cs := List.getElem_mem hk
  have hcv := c.hc.1 _ hmem
  have hle : E cs (k + 1) ≤ total cs := E_le_total _ _
  have htot := c.hc.2
  have hE := E_succ hk
  have hdrop := c.drop (Nat.le_of_lt hk)
  rw [List.drop_eq_getElem_cons hk, encItems_cons, ← hE, List.append_assoc] at hdrop
  have hlen40 : (le64 (E cs (k + 1)) ++ cs[k].1).length = 40 := by rw [List.length_append, le64_length, hcv.1]
  have hb : (file.drop (64 + 40 * k)).take 40 = le64 (E cs (k + 1)) ++ cs[k].1 := by
    rw [hdrop, take_app hlen40]
  have hpos : 64 + 40 * k + 40 = 64 + 40 * (k + 1) := by omega
  by_cases hpm : prev = u64max
  · subst hpm
    refine ⟨u64max, ?_, ?_⟩
    · have := parse_item_unknown (h := hd) (m := .read) (eof := false) (raw := 0) (file := file) (k := k)
        (pos := 64 + 40 * (k + 1)) (id := cs[k].1) (show E cs (k + 1) < 2 ^ 64 by omega) (by omega)
      rw [readChunk_read, readRecord, hb, if_neg (by rw [hlen40]; simp), hlen40, hpos, this]
      rfl
    · intro h; simp only [u64max] at h; omega
  · have hp' : prev = E cs k := by rcases hp with h | h; exact h; exact absurd h hpm
    subst hp'
    refine ⟨E cs (k + 1) - E cs k, ?_, fun _ => by omega⟩
    have := parse_item (h := hd) (m := .read) (eof := false) (raw := 0) (file := file) (k := k)
      (pos := 64 + 40 * (k + 1)) (id := cs[k].1) (show E cs (k + 1) < 2 ^ 64 by omega)
      (show E cs k < E cs (k + 1) by omega) hpm (by omega)
    rw [readChunk_read, readRecord, hb, if_neg (by rw [hlen40]; simp), hlen40, hpos, this]
    rfl

theorem endOf_some (c : Chunk) : endOf (some c) = c.endOffset := rfl

theorem seekLoop_canon {hd cs file} (c : Canon hd cs file) {offset : Nat} :
    ∀ (fuel left right : Nat) (p ck it v : Nat), left ≤ right → right + 2 ≤ cs.length → right - left < fuel →
    (left = 0 ∨ E cs (left + 1) ≤ offset) → offset < E cs (right + 2) →
    ∃ q skip, seekLoop fuel (gstate hd file p ck it v) offset left right =
        .ok (skip, rstate hd .read false 0 file q (E cs q)) ∧ q < cs.length ∧ E cs q + skip = offset ∧
        offset < E cs (q + 1) := by
  intro fuel
  induction fuel with
  | zero => intro left right p ck it v _ _ h; omega
  | succ fuel ih =>
    intro left right p ck it v hlr hrn hfu hl hr
    have hlen := c.hl
    have htot := c.hc.2
    rw [seekLoop]
    have ep : (left + (right + 2 ^ 64 - left) % 2 ^ 64 / 2) % 2 ^ 64 = left + (right - left) / 2 := by
      have : (right + 2 ^ 64 - left) % 2 ^ 64 = right - left := by
        rw [show right + 2 ^ 64 - left = right - left + 2 ^ 64 by omega, Nat.add_mod_right,
          Nat.mod_eq_of_lt (by omega)]
      rw [this, Nat.mod_eq_of_lt (by omega)]
    simp only [ep]
    generalize hm : left + (right - left) / 2 = m
    have hm1 : left ≤ m := by omega
    have hm2 : m ≤ right := by omega
    rw [setPosition_gstate (by omega), Res.bind_ok]
    have hpv : (if m = 0 then 0 else u64max) = E cs m ∨ (if m = 0 then 0 else u64max) = u64max := by
      by_cases h : m = 0
      · subst h; left; rw [E_zero]; rfl
      · right; rw [if_neg h]
    obtain ⟨sz, hread, _⟩ := c.read (k := m) (by omega) hpv
    rw [hread, Res.bind_ok]
    simp only
    split
    · rename_i hlt0
      have hlt : offset < E cs (m + 1) := hlt0
      split
      · rename_i hm0
        subst hm0
        rw [rstate_gstate, setPosition_gstate (by omega), Res.bind_ok]
        refine ⟨0, offset, ?_, by omega, by rw [E_zero, Nat.zero_add], hlt⟩
        rw [E_zero]; rfl
      · rename_i hm0
        split
        · rename_i hmr
          exfalso
          have : left = m := by omega
          rcases hl with h | h
          · omega
          · rw [this] at h; omega
        · rename_i hmr
          rw [rstate_gstate]
          have : E cs (m + 1) ≤ E cs (m + 2) := E_mono (by omega)
          exact ih left m _ _ _ _ hm1 (by omega) (by omega) hl (by omega)
    · rename_i hge0
      have hge : ¬ offset < E cs (m + 1) := hge0
      obtain ⟨sz2, hread2, _⟩ := c.read (k := m + 1) (by omega) (Or.inl rfl)
      rw [hread2, Res.bind_ok]
      simp only
      by_cases hge2 : offset ≥ E cs (m + 1 + 1)
      · rw [if_pos hge2]
        have hmr : m ≠ right := by rintro rfl; have : E cs (m + 2) ≤ offset := hge2; omega
        rw [rstate_gstate]
        exact ih (m + 1) right _ _ _ _ (by omega) hrn (by omega) (Or.inr hge2) hr
      · rw [if_neg hge2, rstate_gstate, setPosition_gstate (by omega), Res.bind_ok]
        refine ⟨m + 1, offset - E cs (m + 1), rfl, by omega, by omega, by omega⟩

theorem getIndexSize_gstate {h file p c i v} : getIndexSize (gstate h file p c i v) =
    if file.length < 104 then .err .EBADMSG
    else if (file.length - 104) % 40 ≠ 0 then .err .EBADMSG
    else .ok (file.length, gstate h file p c i v) := by
  unfold getIndexSize
  rw [openIndex_gstate, Res.bind_ok, readHead_gstate, Res.bind_ok]
  rfl

theorem getIndexSize_newRead {hd : Header} {file : Bytes}
    (h : openIndex (newRead file) = .ok (rstate hd .read false 0 file 0 0)) :
    getIndexSize (newRead file) = getIndexSize (gstate hd file 64 64 0 0) := by
  unfold getIndexSize
  rw [h, openIndex_gstate]
  rfl

theorem seek_newRead {hd : Header} {file : Bytes} (offset : Nat)
    (h : openIndex (newRead file) = .ok (rstate hd .read false 0 file 0 0)) :
    seek (newRead file) offset = seek (gstate hd file 64 64 0 0) offset := by
  unfold seek getBlobSize
  rw [getIndexSize_newRead h]

theorem Canon.tail {hd cs file} (c : Canon hd cs file) :
    (file.drop (file.length - 40)).take 40 = encTail cs.length := by
  have := c.drop (Nat.le_refl _)
  rw [c.len, show 104 + 40 * cs.length - 40 = 64 + 40 * cs.length by omega, this, List.drop_length,
    nilapp (encItems_nil _), take_self (encTail_length _)]

theorem Canon.blobSize {hd cs file} (c : Canon hd cs file) (p ck it v : Nat) :
    getBlobSize (gstate hd file p ck it v) = .ok (total cs, gstate hd file p ck it v) := by
  have hl := c.len
  have hll := c.hl
  unfold getBlobSize
  rw [getIndexSize_gstate, if_neg (by omega), if_neg (by omega), Res.bind_ok]
  have et : (List.take 40 (List.drop (file.length - 40) (gstate hd file p ck it v).file)) = encTail cs.length := c.tail
  have f2 : field (encTail cs.length) 2 = 48 := by
    unfold encTail; rw [field_succ, field_succ, field_zero _ _ (by decide)]
  have f3 : field (encTail cs.length) 3 = 16 + 40 * cs.length + 40 := by
    unfold encTail; rw [field_succ, field_succ, field_succ, field_zero _ _ (by omega)]
  have f4 : field (encTail cs.length) 4 = tailMarker := by
    unfold encTail; rw [field_succ, field_succ, field_succ, field_succ, field_zero' _ (by decide)]
  simp only [et, f2, f3, f4]
  rw [if_neg (by rw [encTail_length]; simp), if_neg (by simp), if_neg (by simp),
    if_neg (by rw [Nat.mod_eq_of_lt (by omega), hl]; omega)]
  have es : (gstate hd file p ck it v).startOffset = 64 := rfl
  rw [es]
  cases hcs : cs with
  | nil =>
    rw [if_pos (by rw [hl, hcs]; rfl)]
    rfl
  | cons x xs =>
    rw [← hcs]
    have hpos : 0 < cs.length := by rw [hcs]; simp
    rw [if_neg (by omega)]
    have hk : cs.length - 1 < cs.length := by omega
    have hE := E_succ hk
    rw [show cs.length - 1 + 1 = cs.length by omega, E_length] at hE
    have hdr := c.drop (Nat.le_of_lt hk)
    rw [List.drop_eq_getElem_cons hk, encItems_cons, ← hE, List.append_assoc, List.append_assoc] at hdr
    have e80 : (gstate hd file p ck it v).file.drop (file.length - 80) = file.drop (64 + 40 * (cs.length - 1)) := by
      rw [hl]
      show file.drop _ = _
      rw [show 104 + 40 * cs.length - 80 = 64 + 40 * (cs.length - 1) by omega]
    rw [e80, hdr, field_zero _ _ c.hc.2]

theorem Canon.totalChunks {hd cs file} (c : Canon hd cs file) (p ck it v : Nat) :
    getTotalChunks (gstate hd file p ck it v) = .ok (cs.length, gstate hd file p ck it v) := by
  have hl := c.len
  unfold getTotalChunks
  rw [getIndexSize_gstate, if_neg (by omega), if_neg (by omega), Res.bind_ok]
  have : (file.length - ((gstate hd file p ck it v).startOffset + 40)) / 40 = cs.length := by
    show (file.length - (64 + 40)) / 40 = _
    omega
  simp only [this]

theorem seek_gstate_canon {hd cs file} (c : Canon hd cs file) (offset p ck it v : Nat)
    (hmin : 2 ≤ cs.length → ∀ x ∈ cs.head?, hd.cmin ≤ x.2) :
    (total cs ≤ offset → seek (gstate hd file p ck it v) offset = .err .ENXIO) ∧
    (offset < total cs → ∃ q skip, seek (gstate hd file p ck it v) offset =
      .ok (skip, rstate hd .read false 0 file q (E cs q)) ∧ q < cs.length ∧ E cs q + skip = offset ∧
        offset < E cs (q + 1)) := by
  constructor
  · intro h
    unfold seek
    rw [c.blobSize, Res.bind_ok]
    simp only
    rw [if_pos h]
  · intro h
    unfold seek
    rw [c.blobSize, Res.bind_ok]
    simp only
    have hpos : 0 < cs.length := by
      cases cs with
      | nil => simp [total] at h
      | cons => simp
    rw [if_neg (by omega), c.totalChunks, Res.bind_ok]
    simp only
    have hl := c.hl
    rw [if_neg (by omega)]
    split
    · rename_i hs
      rw [setPosition_gstate (by omega), Res.bind_ok]
      refine ⟨0, offset, ?_, hpos, by rw [E_zero, Nat.zero_add], ?_⟩
      · rw [E_zero]; rfl
      · rcases Nat.lt_or_ge 1 cs.length with h2 | h2
        · have hs' : offset < hd.cmin := by
            rcases hs with h3 | h3
            · omega
            · exact h3
          have := hmin (by omega) cs[0] (by rw [List.head?_eq_getElem?, List.getElem?_eq_getElem hpos]; rfl)
          have hE := E_succ hpos
          rw [E_zero] at hE
          omega
        · have : cs.length = 0 + 1 := by omega
          rw [← this, E_length]; exact h
    · rename_i hs
      exact seekLoop_canon c _ 0 (cs.length - 2) _ _ _ _ (by omega) (by omega) (by omega) (Or.inl rfl)
        (by rw [show cs.length - 2 + 2 = cs.length by omega, E_length]; exact h)

/-! Arbitrary files: the bisection always ends. -/

theorem readChunk_gstate_cases (h : Header) (file : Bytes) (p c i v : Nat) :
    readChunk (gstate h file p c i v) ≠ .ub ∧
    ∀ o j, readChunk (gstate h file p c i v) = .ok (o, j) → ∃ p c i v, j = gstate h file p c i v := by
  have hr : readChunk (gstate h file p c i v) =
      if ((file.drop p).take 40).length ≠ 40 then .err .EPIPE
      else parseRecord (gstate h file (p + ((file.drop p).take 40).length) c i v) ((file.drop p).take 40) := by
    unfold readChunk
    rw [openIndex_gstate, Res.bind_ok, if_neg (by simp [gstate])]
    rfl
  rw [hr]
  constructor
  · split
    · intro h; cases h
    · exact parseRecord_ne_ub _ _
  · intro o j hj
    split at hj
    · cases hj
    · unfold parseRecord at hj
      simp only at hj
      split at hj
      · split at hj
        · cases hj
        · injection hj with hj; injection hj with _ hj
          exact ⟨_, _, _, _, hj.symm.trans rfl⟩
      · split at hj
        · cases hj
        · split at hj
          · cases hj
          · injection hj with hj; injection hj with _ hj
            exact ⟨_, _, _, _, hj.symm.trans rfl⟩

theorem setPosition_gstate_cases (h : Header) (file : Bytes) (p c i v q : Nat) :
    setPosition (gstate h file p c i v) q ≠ .ub ∧
    ∀ j, setPosition (gstate h file p c i v) q = .ok j →
      (∃ p c i v, j = gstate h file p c i v) ∧ q ≤ q * 40 % 2 ^ 64 := by
  unfold setPosition
  rw [if_neg (by simp [gstate]), if_neg (by simp [gstate])]
  simp only
  split
  · exact ⟨fun h => (by cases h), fun j h => by cases h⟩
  · split
    · exact ⟨fun h => (by cases h), fun j h => by cases h⟩
    · split
      · exact ⟨fun h => (by cases h), fun j h => by cases h⟩
      · refine ⟨fun h => (by cases h), fun j h => ?_⟩
        injection h with h
        exact ⟨⟨_, _, _, _, h.symm.trans rfl⟩, by omega⟩

theorem bind_ne_ub {α β : Type} {x : Res α} {f : α → Res β} (h1 : x ≠ .ub) (h2 : ∀ a, x = .ok a → f a ≠ .ub) :
    (x >>= f) ≠ .ub := by
  cases x with
  | ok a => exact h2 a rfl
  | err e => intro h; cases h
  | ub => exact absurd rfl h1

theorem seekLoop_ne_ub (hd : Header) (file : Bytes) (offset : Nat) :
    ∀ (fuel left right p c i v : Nat), right < 2 ^ 57 → left ≤ right + 1 → right + 1 - left < fuel →
    seekLoop fuel (gstate hd file p c i v) offset left right ≠ .ub := by
  intro fuel
  induction fuel with
  | zero => intro left right p c i v _ _ h; omega
  | succ fuel ih =>
    intro left right p c i v hr hlr hfu
    rw [seekLoop]
    simp only
    refine bind_ne_ub (setPosition_gstate_cases hd file p c i v _).1 ?_
    intro j hj
    obtain ⟨⟨p1, c1, i1, v1, rfl⟩, hq⟩ := (setPosition_gstate_cases hd file p c i v _).2 j hj
    clear hj
    rcases Nat.lt_or_ge right left with hcase | hcase
    · exfalso
      have hl : left = right + 1 := by omega
      have e1 : (right + 2 ^ 64 - left) % 2 ^ 64 = 2 ^ 64 - 1 := by omega
      rw [e1] at hq
      have e2 : (left + (2 ^ 64 - 1) / 2) % 2 ^ 64 = right + 2 ^ 63 := by omega
      rw [e2] at hq
      have e3 : (right + 2 ^ 63) * 40 % 2 ^ 64 = 40 * right := by
        rw [show (right + 2 ^ 63) * 40 = 40 * right + 2 ^ 64 * 20 by omega, Nat.add_mul_mod_self_left,
          Nat.mod_eq_of_lt (by omega)]
      omega
    · have ep : (left + (right + 2 ^ 64 - left) % 2 ^ 64 / 2) % 2 ^ 64 = left + (right - left) / 2 := by
        have : (right + 2 ^ 64 - left) % 2 ^ 64 = right - left := by
          rw [show right + 2 ^ 64 - left = right - left + 2 ^ 64 by omega, Nat.add_mod_right,
            Nat.mod_eq_of_lt (by omega)]
        rw [this, Nat.mod_eq_of_lt (by omega)]
      rw [ep] at hq ⊢
      generalize hm : left + (right - left) / 2 = m at hq ⊢
      have hm1 : left ≤ m := by omega
      have hm2 : m ≤ right := by omega
      refine bind_ne_ub (readChunk_gstate_cases hd file p1 c1 i1 v1).1 ?_
      rintro ⟨o, j⟩ hj
      obtain ⟨p2, c2, i2, v2, rfl⟩ := (readChunk_gstate_cases hd file p1 c1 i1 v1).2 o j hj
      simp only
      generalize endOf o = fe
      split
      · split
        · refine bind_ne_ub (setPosition_gstate_cases hd file p2 c2 i2 v2 0).1 ?_
          intro j _ h; cases h
        · split
          · intro h; cases h
          · exact ih left m p2 c2 i2 v2 (by omega) (by omega) (by omega)
      · refine bind_ne_ub (readChunk_gstate_cases hd file p2 c2 i2 v2).1 ?_
        rintro ⟨o', j⟩ hj
        obtain ⟨p3, c3, i3, v3, rfl⟩ := (readChunk_gstate_cases hd file p2 c2 i2 v2).2 o' j hj
        simp only
        generalize endOf o' = se
        split
        · exact ih (m + 1) right p3 c3 i3 v3 hr (by omega) (by omega)
        · refine bind_ne_ub (setPosition_gstate_cases hd file p3 c3 i3 v3 _).1 ?_
          intro j _ h; cases h

theorem getBlobSize_gstate_cases (hd : Header) (file : Bytes) (p c i v : Nat) :
    getBlobSize (gstate hd file p c i v) ≠ .ub ∧ ∀ x j, getBlobSize (gstate hd file p c i v) = .ok (x, j) →
      j = gstate hd file p c i v ∧ 104 ≤ file.length := by
  unfold getBlobSize
  rw [getIndexSize_gstate]
  split
  · exact ⟨fun h => (by cases h), fun x j h => by cases h⟩
  · split
    · exact ⟨fun h => (by cases h), fun x j h => by cases h⟩
    · rename_i h1 h2
      rw [Res.bind_ok]
      simp only
      repeat' split
      all_goals refine ⟨fun h => (by cases h), fun x j h => ?_⟩
      all_goals first
        | (injection h with h; injection h with _ h; exact ⟨h.symm, by omega⟩)
        | cases h

theorem openIndex_newRead_ne_ub (file : Bytes) : openIndex (newRead file) ≠ .ub := by
  intro ho
  unfold openIndex at ho
  have hw : ∀ i : Index, i.mode = .read → writeHead i ≠ .ub := by
    intro i hi h
    unfold writeHead at h
    rw [if_pos (by simp [hi])] at h; cases h
  split at ho
  · exact hw _ rfl ho
  · cases ho
  · rename_i hr
    rw [readHead_newRead] at hr
    split at hr
    · cases hr
    · exact parseHead_ne_ub _ _ hr
  · rename_i i hr
    refine hw i ?_ ho
    rw [readHead_newRead] at hr
    split at hr
    · cases hr
    · rename_i hl
      obtain ⟨hd, _, _, rfl⟩ := parseHead_inv (by omega) hr
      rfl

theorem seek_ne_ub (file : Bytes) (offset : Nat) (hlen : file.length < 2 ^ 62) :
    seek (newRead file) offset ≠ .ub := by
  cases ho : openIndex (newRead file) with
  | ub => exact absurd ho (openIndex_newRead_ne_ub file)
  | err e =>
    unfold seek getBlobSize getIndexSize
    rw [ho]
    intro h; cases h
  | ok j =>
    obtain ⟨hd, _, _, rfl⟩ := openIndex_newRead_inv ho
    rw [seek_newRead offset ho]
    unfold seek
    refine bind_ne_ub (getBlobSize_gstate_cases hd file _ _ _ _).1 ?_
    rintro ⟨x, j⟩ hj
    obtain ⟨rfl, hl⟩ := (getBlobSize_gstate_cases hd file _ _ _ _).2 x j hj
    simp only
    split
    · intro h; cases h
    · unfold getTotalChunks
      rw [getIndexSize_gstate]
      split
      · intro h; cases h
      · split
        · intro h; cases h
        · rename_i hmod
          rw [Res.bind_ok, Res.bind_ok]
          simp only
          have hso : (gstate hd file 64 64 0 0).startOffset = 64 := rfl
          rw [hso]
          split
          · intro h; cases h
          · split
            · refine bind_ne_ub (setPosition_gstate_cases hd file _ _ _ _ 0).1 ?_
              intro j _ h; cases h
            · exact seekLoop_ne_ub hd file offset _ _ _ _ _ _ _ (by omega) (by omega) (by omega)

end Casync.Index
