import Verif.Spec.Archive
import Verif.Lemmas.DecoderFeed
/-!
The records of one object, as the encoder writes them, are parsed back.
-/
namespace Casync.Archive
open Casync Flags

theorem word_zero {a : Nat} (h : a < 2 ^ 64) (r : Bytes) : word 0 (le64 a ++ r) = a := by
  unfold word
  rw [Nat.mul_zero, List.drop_zero, List.take_append_of_le_length (by rw [le64_length]; exact Nat.le_refl _),
    List.take_of_length_le (by rw [le64_length]; exact Nat.le_refl _), rdLE_le64 h]

theorem word_succ (i a : Nat) (r : Bytes) : word (i + 1) (le64 a ++ r) = word i r := by
  unfold word
  have h : 8 * (i + 1) = (le64 a).length + 8 * i := by rw [le64_length]; omega
  rw [h, ← List.drop_drop, List.drop_left]

theorem word_one {a b : Nat} (h : b < 2 ^ 64) (r : Bytes) : word 1 (le64 a ++ (le64 b ++ r)) = b := by
  rw [word_succ]; exact word_zero h r

theorem code_lt (r : RType) : code r < 2 ^ 64 := by cases r <;> decide

theorem rtype_code (r : RType) : rtype (code r) = some r := by cases r <;> decide +kernel

theorem record_length (r : RType) (body : Bytes) : (record r body).length = 16 + body.length := by
  unfold record header
  simp only [List.length_append, le64_length]

theorem record_append (r : RType) (body x : Bytes) : record r body ++ x = le64 (16 + body.length) ++ (le64 (code r) ++ (body ++ x)) := by
  unfold record header
  simp only [List.append_assoc]

theorem record_take (r : RType) (body x : Bytes) : ((record r body ++ x).take (16 + body.length)).drop 16 = body := by
  rw [← record_length r body, List.take_left]
  unfold record
  have : (header (16 + body.length) r).length = 16 := by unfold header; simp only [List.length_append, le64_length]
  generalize header (16 + body.length) r = h at this
  rw [← this, List.drop_left]

theorem record_drop (r : RType) (body x : Bytes) : (record r body ++ x).drop (16 + body.length) = x := by
  rw [← record_length r body, List.drop_left]

theorem headRec_record {d : FF} {st : PSt} {r : RType} {body : Bytes} (x : Bytes) {d' : FF} {st' : PSt} (hsz : 16 + body.length < u64max)
    (he : ends r = false) (hp : pre r st (16 + body.length) = true) (ha : accept r d st body = .ok (d', st')) :
    headRec d st (record r body ++ x) = .more d' st' (16 + body.length) := by
  have hmax : u64max = 2 ^ 64 - 1 := by decide
  have hl : (record r body ++ x).length = 16 + body.length + x.length := by rw [List.length_append, record_length]
  have h0 : word 0 (record r body ++ x) = 16 + body.length := by rw [record_append]; exact word_zero (by omega) _
  have h1 : word 1 (record r body ++ x) = code r := by rw [record_append]; exact word_one (code_lt r) _
  unfold headRec
  rw [if_neg (by omega)]
  simp only [h0, h1, rtype_code, record_take]
  rw [if_neg (by omega), if_neg (by simp only [beq_iff_eq]; omega), if_neg (by rw [hp]; simp), if_neg, if_neg (by omega), if_neg (by rw [he]; simp), ha]
  cases r <;> first | (exact absurd he (by decide)) | decide

theorem parseLoop_record {d : FF} {st : PSt} {r : RType} {body : Bytes} (off : Nat) (x : Bytes) {d' : FF} {st' : PSt}
    (hsz : 16 + body.length < u64max) (he : ends r = false) (hp : pre r st (16 + body.length) = true)
    (ha : accept r d st body = .ok (d', st')) :
    parseLoop d st off (record r body ++ x) = parseLoop d' st' (off + (record r body).length) x := by
  rw [parseLoop_eq, headRec_record x hsz he hp ha, record_length]
  simp only [record_drop]

/-! ### Validation of what is written -/

theorem any_false_iff {α : Type} {p : α → Bool} {l : List α} : l.any p = false ↔ ∀ x ∈ l, p x = false := by
  induction l with
  | nil => simp
  | cons a l ih => simp [ih]

theorem getLast_append (s : Bytes) (c : UInt8) : (s ++ [c]).getLast? = some c := by simp

theorem cstr_terminated {s : Bytes} (h : (0 : UInt8) ∉ s) (x : Bytes) : cstr (s ++ 0 :: x) = s := by
  unfold cstr
  rw [List.takeWhile_append_of_pos (fun c hc => by
    have : c ≠ 0 := fun e => h (e ▸ hc)
    simpa using this)]
  simp

theorem NameOK.pos {n : Bytes} (h : NameOK n) : 0 < n.length := by
  obtain ⟨c, cs, rfl, _⟩ := h.first; simp

theorem NameOK.noNul {n : Bytes} (h : NameOK n) : (0 : UInt8) ∉ n := by
  obtain ⟨c, cs, rfl, h1, h2⟩ := h.first
  intro hm
  rcases List.mem_cons.1 hm with e | e
  · subst e
    rcases h1 with h1 | h1
    · exact absurd h1 (by decide)
    · exact absurd h1 (by decide)
  · rcases h2 0 e with h | h | h | h
    · exact absurd h (by decide)
    · exact absurd h (by decide)
    · exact absurd h (by decide)
    · exact absurd h (by decide)

theorem NameOK.valid {n : Bytes} (h : NameOK n) : validateUserName (n ++ [0]) = true := by
  have hp := h.pos
  have hl := h.len
  obtain ⟨c, cs, hn, h1, h2⟩ := h.first
  unfold validateUserName
  rw [if_neg (by rw [List.length_append]; simp; omega), if_neg (by rw [getLast_append]; simp), List.dropLast_concat, hn]
  simp only
  rw [if_neg, if_neg, if_neg]
  · rw [← hn]
    have : n ++ [0] ≠ [114, 111, 111, 116, 0] := by
      intro e
      have e2 : n ++ [0] = [114, 111, 111, 116] ++ [0] := e
      exact h.notRoot (List.append_cancel_right e2)
    simpa using this
  · rw [← hn, List.length_append]; simp; omega
  · rw [any_false_iff.2]
    · simp
    · intro x hx
      rcases h2 x hx with h | h | h | h <;> simp [h]
  · rcases h1 with h | h <;> simp [h]

theorem IdOK.valid {ff : Word} {u : Nat} (h : IdOK ff u) : validateUidGid ff u = true := by
  unfold IdOK at h
  unfold validateUidGid
  split
  · rename_i c; rw [if_pos c] at h; simpa using h
  · rename_i c
    rw [if_neg c] at h
    split
    · rename_i c2; rw [if_pos c2] at h; simpa using h
    · rename_i c2; rw [if_neg c2] at h; simpa using h

theorem IdOK.lt {ff : Word} {u : Nat} (h : IdOK ff u) : u < 2 ^ 64 := by
  unfold IdOK at h
  split at h
  · omega
  · split at h <;> omega

theorem TimeOK.valid {ff : Word} {t : Nat} (h : TimeOK ff t) : validateNsec ff t = true := by
  obtain ⟨h0, h⟩ := h
  unfold validateNsec
  rw [if_neg (by simp only [beq_iff_eq]; omega)]
  split
  · rfl
  rename_i c; rw [if_neg c] at h
  split
  · rename_i c2; rw [if_pos c2] at h; simpa using Nat.mod_eq_zero_of_dvd h
  rename_i c2; rw [if_neg c2] at h
  split
  · rename_i c3; rw [if_pos c3] at h; simpa using Nat.mod_eq_zero_of_dvd h
  rename_i c3; rw [if_neg c3] at h
  split
  · rename_i c4; rw [if_pos c4] at h; simpa using Nat.mod_eq_zero_of_dvd h
  · rename_i c4; rw [if_neg c4] at h; simpa using h

/-- The object types the flags admit. -/
def TypeOK (ff m : Word) : Prop :=
  isType m ifReg = true ∨ isType m ifDir = true ∨ (isType m ifSock = true ∧ has ff withSockets = true) ∨
  (isType m ifFifo = true ∧ has ff withFifos = true) ∨
  ((isType m ifBlk = true ∨ isType m ifChr = true) ∧ has ff withDeviceNodes = true) ∨ (isType m ifLnk = true ∧ has ff withSymlinks = true)

theorem EntryOK.validMode {ff : Word} {e : Entry} (h : EntryOK ff e) (ht : TypeOK ff e.mode) : validateMode ff e.mode e.flags = true := by
  unfold validateMode
  have hb : (e.mode &&& ~~~(ifmt ||| 0xfff#64)) = 0#64 := h.bits
  rw [if_neg (by rw [hb]; simp), if_neg, if_neg]
  · have hp := h.perm
    unfold PermOK at hp
    split
    · rename_i c; rw [if_pos c] at hp; rw [hp]; rfl
    · rename_i c
      rw [if_neg c] at hp
      split
      · rfl
      rename_i c2
      rcases hp with hp | hp | ⟨hp1, hp2⟩
      · exact absurd hp c2
      · rw [if_pos (by rw [hp]; simp)]
      · rw [hp1, hp2]
        cases isType e.mode ifDir <;> simp
  · intro hc
    simp only [Bool.and_eq_true, Bool.not_eq_true'] at hc
    rw [h.subvol hc.1] at hc
    exact absurd hc.2 (by simp)
  · intro hc
    rcases ht with h | h | ⟨h, h2⟩ | ⟨h, h2⟩ | ⟨h | h, h2⟩ | ⟨h, h2⟩ <;> simp [h] at hc <;> simp [h2] at hc

theorem EntryOK.accepted {ff : Word} {e : Entry} (h : EntryOK ff e) (ht : TypeOK ff e.mode) {d d' : FF}
    (hv : validateFeatureFlags d ff = some d') (hk : ff &&& ~~~flagsMax = 0#64) : acceptEntry d e = .ok d' := by
  have hff := (validateFeatureFlags_again hv).2.1
  unfold acceptEntry
  rw [h.same, hv]
  simp only
  rw [hff, if_neg (by rw [h.validMode ht]; simp), if_neg (by unfold validateEntryFlags; rw [h.flags]; simp), if_neg (by rw [h.uid.valid]; simp),
    if_neg (by rw [h.gid.valid]; simp), if_neg (by rw [h.time.valid]; simp), if_neg (by rw [hk]; simp)]

theorem bv_toNat_lt (w : Word) : w.toNat < 2 ^ 64 := w.isLt

theorem readEntry_bytes {ff : Word} {e : Entry} (h : EntryOK ff e) :
    readEntry (le64 e.ff.toNat ++ le64 e.mode.toNat ++ le64 e.flags.toNat ++ le64 e.uid ++ le64 e.gid ++ le64 e.mtime) = e := by
  have hmax : u64max = 2 ^ 64 - 1 := by decide
  have ht := h.time.1
  unfold readEntry
  have e0 : ∀ x : Bytes, x = x ++ [] := fun x => (List.append_nil x).symm
  rw [e0 (le64 e.ff.toNat ++ le64 e.mode.toNat ++ le64 e.flags.toNat ++ le64 e.uid ++ le64 e.gid ++ le64 e.mtime)]
  simp only [List.append_assoc]
  rw [word_zero (bv_toNat_lt _), word_one (bv_toNat_lt _), word_succ, word_one (bv_toNat_lt _), word_succ, word_succ, word_one h.uid.lt,
    word_succ, word_succ, word_succ, word_one h.gid.lt, word_succ, word_succ, word_succ, word_succ, word_one (by omega)]
  simp only [BitVec.ofNat_toNat, BitVec.setWidth_eq]

theorem parse_entry {ff : Word} {e : Entry} (h : EntryOK ff e) (ht : TypeOK ff e.mode) {d d' : FF}
    (hv : validateFeatureFlags d ff = some d') (hk : ff &&& ~~~flagsMax = 0#64) (off : Nat) (x : Bytes) :
    parseLoop d {} off (entryBytes e ++ x) = parseLoop d' { entry := some e } (off + (entryBytes e).length) x := by
  unfold entryBytes
  have hl : (le64 e.ff.toNat ++ le64 e.mode.toNat ++ le64 e.flags.toNat ++ le64 e.uid ++ le64 e.gid ++ le64 e.mtime).length = 48 := by
    simp only [List.length_append, le64_length]
  have hr := readEntry_bytes h
  generalize (le64 e.ff.toNat ++ le64 e.mode.toNat ++ le64 e.flags.toNat ++ le64 e.uid ++ le64 e.gid ++ le64 e.mtime) = body at hl hr
  refine parseLoop_record off x (by rw [hl]; decide) rfl ?_ ?_
  · simp only [pre, hl]; rfl
  · unfold accept
    simp only [hr]
    rw [h.accepted ht hv hk]
    rfl

/-! ### The optional records -/

/-- The bytes of an optional record. -/
theorem parse_user {d : FF} {e : Entry} {u : Option Bytes} (hu : ∀ n, u = some n → has d.ff withUserNames = true ∧ NameOK n) (off : Nat) (x : Bytes) :
    parseLoop d { entry := some e } off (optBytes (strRecord .user) u ++ x) =
      parseLoop d { entry := some e, attrs := { user := u } } (off + (optBytes (strRecord .user) u).length) x := by
  cases u with
  | none => rfl
  | some n =>
    obtain ⟨h1, h2⟩ := hu n rfl
    have hl := h2.len
    have hmax : u64max = 2 ^ 64 - 1 := by decide
    simp only [optBytes]
    unfold strRecord
    refine parseLoop_record off x (by rw [List.length_append]; simp; omega) rfl ?_ ?_
    · simp only [pre, List.length_append]
      simp [haveAcl]
      omega
    · unfold accept
      simp only
      rw [if_neg (by rw [h1, h2.valid]; simp), if_neg, List.dropLast_concat]
      rw [show n ++ [0] = n ++ 0 :: [] from rfl, cstr_terminated h2.noNul]
      unfold rootNamed
      intro hc
      simp only [Bool.and_eq_true, beq_iff_eq] at hc
      exact h2.notRoot hc.2

theorem parse_group {d : FF} {e : Entry} {u g : Option Bytes} (hg : ∀ n, g = some n → has d.ff withUserNames = true ∧ NameOK n) (off : Nat) (x : Bytes) :
    parseLoop d { entry := some e, attrs := { user := u } } off (optBytes (strRecord .group) g ++ x) =
      parseLoop d { entry := some e, attrs := { user := u, group := g } } (off + (optBytes (strRecord .group) g).length) x := by
  cases g with
  | none => rfl
  | some n =>
    obtain ⟨h1, h2⟩ := hg n rfl
    have hl := h2.len
    have hmax : u64max = 2 ^ 64 - 1 := by decide
    simp only [optBytes]
    unfold strRecord
    refine parseLoop_record off x (by rw [List.length_append]; simp; omega) rfl ?_ ?_
    · simp only [pre, List.length_append]
      simp [haveAcl]
      omega
    · unfold accept
      simp only
      rw [if_neg (by rw [h1, h2.valid]; simp), if_neg, List.dropLast_concat]
      rw [show n ++ [0] = n ++ 0 :: [] from rfl, cstr_terminated h2.noNul]
      unfold rootNamed
      intro hc
      simp only [Bool.and_eq_true, beq_iff_eq] at hc
      exact h2.notRoot hc.2

theorem dropWhile_name {s : Bytes} (h : (0 : UInt8) ∉ s) (x : Bytes) : (s ++ 0 :: x).dropWhile (· != 0) = 0 :: x := by
  induction s with
  | nil => simp
  | cons c cs ih =>
    have hc : c ≠ 0 := fun e => h (e ▸ List.mem_cons_self)
    rw [List.cons_append, List.dropWhile_cons_of_pos (by simpa using hc)]
    exact ih (fun e => h (List.mem_cons_of_mem _ e))

theorem XattrOK.validName {x : Bytes × Bytes} (h : XattrOK x) : xattrNameValid x.1 = true := by
  obtain ⟨ns, rest, he, h1, h2, h3, h4⟩ := h.name
  unfold xattrNameValid
  have hd : x.1.dropWhile (· != 46) = 46 :: rest := by
    rw [he]
    clear he h1 h4
    induction ns with
    | nil => simp
    | cons c cs ih =>
      have hc : c ≠ 46 := fun e => h2 (e ▸ List.mem_cons_self)
      rw [List.cons_append, List.dropWhile_cons_of_pos (by simpa using hc)]
      exact ih (fun e => h2 (List.mem_cons_of_mem _ e))
  have hne : x.1 ≠ [] := by rw [he]; simp
  rw [if_neg (by simpa using hne), hd]
  simp only
  rw [if_neg, if_neg (by simpa using h3)]
  · simp; omega
  · rw [he]
    cases ns with
    | nil => exact absurd rfl h1
    | cons c cs =>
      have hc : c ≠ 46 := fun e => h2 (e ▸ List.mem_cons_self)
      simpa using hc

theorem parse_xattrs {d : FF} {e : Entry} {u g : Option Bytes} (off : Nat) (x : Bytes) (l : List (Bytes × Bytes)) (acc : List (Bytes × Bytes))
    (hf : l ≠ [] → has d.ff withXattrs = true) (hx : ∀ y ∈ l, XattrOK y) (hs : (acc ++ l).Pairwise (fun a b => strLt a.1 b.1 = true)) :
    parseLoop d { entry := some e, attrs := { user := u, group := g, xattrs := acc } } off (l.flatMap xattrBytes ++ x) =
      parseLoop d { entry := some e, attrs := { user := u, group := g, xattrs := acc ++ l } } (off + (l.flatMap xattrBytes).length) x := by
  induction l generalizing acc off with
  | nil => simp
  | cons y l ih =>
    have hy := hx y List.mem_cons_self
    have hsz := hy.size
    have hmax : u64max = 2 ^ 64 - 1 := by decide
    obtain ⟨ns, rest, he, h1, h2, h3, h4⟩ := hy.name
    have hlen : (y.1 ++ 0 :: y.2).length = y.1.length + 1 + y.2.length := by rw [List.length_append, List.length_cons]; omega
    have hl3 : 3 ≤ y.1.length := by
      rw [he, List.length_append, List.length_cons]
      have := List.length_pos_iff.2 h1
      have := List.length_pos_iff.2 h3
      omega
    have hread : readXattr (y.1 ++ 0 :: y.2) = y := by
      unfold readXattr
      rw [cstr_terminated hy.noNul, dropWhile_name hy.noNul]
      rfl
    rw [List.flatMap_cons, List.append_assoc]
    have hstep : parseLoop d { entry := some e, attrs := { user := u, group := g, xattrs := acc } } off (xattrBytes y ++ (l.flatMap xattrBytes ++ x)) =
        parseLoop d { entry := some e, attrs := { user := u, group := g, xattrs := acc ++ [y] } } (off + (xattrBytes y).length) (l.flatMap xattrBytes ++ x) := by
      unfold xattrBytes
      refine parseLoop_record off _ (by rw [hlen]; omega) rfl ?_ ?_
      · simp only [pre, hlen]
        simp [haveAcl]
        omega
      · unfold accept
        simp only
        rw [if_neg, if_neg, hread]
        · rw [hread]
          unfold Archive.xattrOrder
          cases hg : acc.getLast? with
          | none => simp
          | some z =>
            simp only
            have hz : z ∈ acc := List.mem_of_getLast? hg
            have := (List.pairwise_append.1 hs).2.2 z hz y List.mem_cons_self
            rw [this]; simp
        · unfold validateXattr
          rw [if_neg (by rw [hlen]; omega), if_neg (by rw [hf (by simp)]; simp), if_neg, cstr_terminated hy.noNul, hy.validName]
          · simp
          · have : (0 : UInt8) ∈ (y.1 ++ 0 :: y.2).take 256 := by
              rw [show y.1 ++ 0 :: y.2 = (y.1 ++ [0]) ++ y.2 by simp, List.take_append, List.take_of_length_le (by rw [List.length_append]; simp; omega)]
              simp
            simpa using this
    rw [hstep, ih (off + (xattrBytes y).length) (acc ++ [y]) (fun _ => hf (by simp)) (fun z hz => hx z (List.mem_cons_of_mem _ hz))
      (by rw [List.append_assoc]; exact hs)]
    rw [List.append_assoc, List.length_append, Nat.add_assoc]
    rfl

end Casync.Archive
