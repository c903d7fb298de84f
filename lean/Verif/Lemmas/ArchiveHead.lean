import Verif.Lemmas.ArchiveAttrs
/-!
The records of an object as a whole, and the records of a directory.
-/
namespace Casync.Archive
open Casync Flags

theorem isType_excl {m a b : Word} (h : isType m a = true) (hab : a ≠ b) : isType m b = false := by
  unfold isType at *
  simp only [beq_iff_eq] at h
  rw [h]
  simpa using hab

theorem headRec_end {d : FF} {st : PSt} {r : RType} {body : Bytes} (x : Bytes) {t : Term} (hsz : 16 + body.length < u64max)
    (he : ends r = true) (hr : r ≠ .payload) (hp : pre r st (16 + body.length) = true) (ha : acceptEnd r d.ff body = some t) :
    headRec d st (record r body ++ x) = .done t (termSize t) := by
  have hmax : u64max = 2 ^ 64 - 1 := by decide
  have hl : (record r body ++ x).length = 16 + body.length + x.length := by rw [List.length_append, record_length]
  have h0 : word 0 (record r body ++ x) = 16 + body.length := by rw [record_append]; exact word_zero (by omega) _
  have h1 : word 1 (record r body ++ x) = code r := by rw [record_append]; exact word_one (code_lt r) _
  unfold headRec
  rw [if_neg (by omega)]
  simp only [h0, h1, rtype_code, record_take]
  rw [if_neg (by omega), if_neg (by simp only [beq_iff_eq]; omega), if_neg (by rw [hp]; simp), if_neg (by simpa using hr), if_neg (by omega), if_pos he, ha]

theorem headRec_payload {d : FF} {st : PSt} {n : Nat} (x : Bytes) (hn : 16 + n < u64max) (hp : pre .payload st (16 + n) = true) :
    headRec d st (header (16 + n) .payload ++ x) = .done (.payload n) 16 := by
  have hmax : u64max = 2 ^ 64 - 1 := by decide
  have hl : (header (16 + n) .payload ++ x).length = 16 + x.length := by unfold header; simp only [List.length_append, le64_length]
  have ha : header (16 + n) .payload ++ x = le64 (16 + n) ++ (le64 (code .payload) ++ x) := by unfold header; rw [List.append_assoc]
  have h0 : word 0 (header (16 + n) .payload ++ x) = 16 + n := by rw [ha]; exact word_zero (by omega) _
  have h1 : word 1 (header (16 + n) .payload ++ x) = code .payload := by rw [ha]; exact word_one (code_lt _) _
  unfold headRec
  rw [if_neg (by omega)]
  simp only [h0, h1, rtype_code]
  rw [if_neg (by omega), if_neg (by simp only [beq_iff_eq]; omega), if_neg (by rw [hp]; simp), if_pos (by rfl)]
  rw [show 16 + n - 16 = n by omega]

theorem parseLoop_done {d : FF} {st : PSt} {off : Nat} {b : Bytes} {t : Term} {k : Nat} (h : headRec d st b = .done t k) :
    parseLoop d st off b = (d, .ok (st, t, off + k)) := by
  rw [parseLoop_eq, h]

/-- How the records of an object may end. -/
inductive TermFor (root : Bool) (m : Word) : Term → Prop
  | file {n} : isType m ifReg = true → root = false → TermFor root m (.payload n)
  | symlink {t} : isType m ifLnk = true → root = false → TermFor root m (.symlink t)
  | device {a b} : (isType m ifChr = true ∨ isType m ifBlk = true) → root = false → TermFor root m (.device a b)
  | special {t} : (isType m ifFifo = true ∨ isType m ifSock = true) → root = false → (t = .filename ∨ t = .goodbye) → TermFor root m t
  | dir {t} : isType m ifDir = true → (t = .filename ∨ t = .goodbye) → TermFor root m t

theorem finalChecks_ok {ff : Word} {e : Entry} {a : Attrs} (h : ObjOK ff e a) {root : Bool} {t : Term} (ht : TermFor root e.mode t) :
    finalChecks ff root ⟨e, a, t⟩ = true := by
  have A := h.attrs
  have E := h.entry
  have k1 : (a.user.isSome && !has ff withUserNames) = false := by
    cases hu : a.user with
    | none => rfl
    | some n => rw [(A.user n hu).1]; rfl
  have k2 : (a.group.isSome && !has ff withUserNames) = false := by
    cases hu : a.group with
    | none => rfl
    | some n => rw [(A.group n hu).1]; rfl
  have k3 : (has ff withUserNames && !has ff (with16BitUids ||| with32BitUids) && (a.user.isNone || a.group.isNone)) = false := by
    cases h1 : has ff withUserNames
    · rfl
    cases h2 : has ff (with16BitUids ||| with32BitUids)
    · obtain ⟨h3, h4⟩ := A.names h1 h2
      cases hu : a.user <;> cases hg : a.group <;> simp_all
    · rfl
  have k13 : ((a.aclUser != [] || a.aclGroup != []) && a.groupObj.isNone) = false := by
    cases hg : a.groupObj with
    | some _ => simp
    | none =>
      have := A.needsGroupObj
      rw [hg] at this
      cases ha : a.aclUser <;> cases hb : a.aclGroup <;> simp_all
  have k14 : (a.defUser = [] ∧ a.defGroup = []) ∨ ∃ d, a.aclDefault = some d ∧ (d.mask == u64max) = false := by
    by_cases hc : a.defUser ≠ [] ∨ a.defGroup ≠ []
    · obtain ⟨d, hd, hm⟩ := A.needsMask hc
      have hmax : u64max = 2 ^ 64 - 1 := by decide
      exact .inr ⟨d, hd, by simp only [beq_eq_false_iff_ne]; omega⟩
    · exact .inl ⟨Classical.byContradiction fun h => hc (.inl h), Classical.byContradiction fun h => hc (.inr h)⟩
  have k15 : isType e.mode ifDir = false → a.defUser = [] ∧ a.defGroup = [] ∧ a.aclDefault = none := by
    intro hd
    have hn := A.defaultDir hd
    refine ⟨?_, ?_, hn⟩
    · refine Classical.byContradiction fun hc => ?_
      obtain ⟨d, h1, _⟩ := A.needsMask (.inl hc)
      rw [hn] at h1; cases h1
    · refine Classical.byContradiction fun hc => ?_
      obtain ⟨d, h1, _⟩ := A.needsMask (.inr hc)
      rw [hn] at h1; cases h1
  have k8 : isType e.mode ifReg = false → a.fcaps = none := by
    intro hr
    cases hc : a.fcaps with
    | none => rfl
    | some s => have := (A.fcaps s hc).1; rw [hr] at this; cases this
  have k9 : isType e.mode ifReg = false → isType e.mode ifDir = false → a.quota = none := by
    intro hr hd
    cases hc : a.quota with
    | none => rfl
    | some s => have := (A.quota s hc).1; rw [hr, hd] at this; simp at this
  have k10 := E.flagsFor
  have k12 := A.link
  unfold finalChecks
  simp only [k1, k2, k3, k13]
  cases ht with
  | file h1 h2 =>
    have d := isType_excl (b := ifDir) h1 (by decide)
    simp [h1, h2, d, isType_excl (b := ifLnk) h1 (by decide), isType_excl (b := ifBlk) h1 (by decide), isType_excl (b := ifChr) h1 (by decide), k15 d]
  | symlink h1 h2 =>
    have d := isType_excl (b := ifDir) h1 (by decide)
    have r := isType_excl (b := ifReg) h1 (by decide)
    simp [h1, h2, d, r, isType_excl (b := ifBlk) h1 (by decide), isType_excl (b := ifChr) h1 (by decide), k15 d, k8 r, k9 r d, k10 r d, k12 h1, haveAcl]
  | device h1 h2 =>
    have d : isType e.mode ifDir = false := by rcases h1 with h | h <;> exact isType_excl h (by decide)
    have r : isType e.mode ifReg = false := by rcases h1 with h | h <;> exact isType_excl h (by decide)
    have l : isType e.mode ifLnk = false := by rcases h1 with h | h <;> exact isType_excl h (by decide)
    simp [h2, d, r, l, k15 d, k8 r, k9 r d, k10 r d]
  | special h1 h2 h3 =>
    have d : isType e.mode ifDir = false := by rcases h1 with h | h <;> exact isType_excl h (by decide)
    have r : isType e.mode ifReg = false := by rcases h1 with h | h <;> exact isType_excl h (by decide)
    have l : isType e.mode ifLnk = false := by rcases h1 with h | h <;> exact isType_excl h (by decide)
    have c1 : isType e.mode ifChr = false := by rcases h1 with h | h <;> exact isType_excl h (by decide)
    have c2 : isType e.mode ifBlk = false := by rcases h1 with h | h <;> exact isType_excl h (by decide)
    simp [h2, d, r, l, c1, c2, k15 d, k8 r, k9 r d, k10 r d]
  | dir h1 h3 =>
    have r := isType_excl (b := ifReg) h1 (by decide)
    simp [h1, r, isType_excl (b := ifLnk) h1 (by decide), isType_excl (b := ifBlk) h1 (by decide), isType_excl (b := ifChr) h1 (by decide), k8 r]
    refine ⟨h3, ?_⟩
    rcases k14 with h | ⟨d, hd, hm⟩
    · exact .inl h
    · right; rw [hd]; exact hm

/-- The whole head of an object. -/
theorem parseEntry_head {ff : Word} {e : Entry} {a : Attrs} (h : ObjOK ff e a) (ht : TypeOK ff e.mode) {d d' : FF}
    (hv : validateFeatureFlags d ff = some d') (hk : ff &&& ~~~flagsMax = 0#64) {root : Bool} {t : Term} (hf : TermFor root e.mode t) {x : Bytes}
    {k : Nat} (hx : headRec d' { entry := some e, attrs := a } x = .done t k) :
    parseEntry d root (entryBytes e ++ (attrsBytes a ++ x)) = (d', .ok (⟨e, a, t⟩, (entryBytes e ++ attrsBytes a).length + k)) := by
  have hff := (validateFeatureFlags_again hv).2.1
  unfold parseEntry
  rw [parse_entry h.entry ht hv hk, parse_attrs (by rw [hff]; exact h.attrs), parseLoop_done hx]
  simp only
  rw [hff, if_pos (finalChecks_ok h hf), List.length_append, Nat.zero_add]

/-! ### Directories -/

theorem SafeName.valid {n : Bytes} (h : SafeName n) : validateFilename (n ++ [0]) = true := by
  have := List.length_pos_iff.2 h.nonempty
  unfold validateFilename
  rw [if_neg (by rw [List.length_append]; simp; omega), if_neg (by rw [getLast_append]; simp), List.dropLast_concat, if_neg]
  · unfold dotOrDotDot
    have h1 := h.notDot
    have h2 := h.notDotDot
    simp [h1, h2]
  · rw [any_false_iff.2]
    · simp
    · intro c hc
      have h1 : c ≠ 0 := fun e => h.noNul (e ▸ hc)
      have h2 : c ≠ 47 := fun e => h.noSlash (e ▸ hc)
      simp [h1, h2]

def goodbyeBody (rows : List Goodbye.Item) (distance : Nat) : Bytes :=
  rows.flatMap itemBytes ++ (le64 distance ++ le64 (16 + 24 * rows.length + 24) ++ le64 tailMarker)

theorem items_length (rows : List Goodbye.Item) : (rows.flatMap itemBytes).length = 24 * rows.length := by
  induction rows with
  | nil => rfl
  | cons r rows ih =>
    rw [List.flatMap_cons, List.length_append, ih, List.length_cons]
    have : (itemBytes r).length = 24 := by unfold itemBytes; simp only [List.length_append, le64_length]
    omega

theorem goodbyeBody_length (rows : List Goodbye.Item) (distance : Nat) : (goodbyeBody rows distance).length = 24 * rows.length + 24 := by
  unfold goodbyeBody
  simp only [List.length_append, le64_length, items_length]

theorem goodbyeBody_drop (rows : List Goodbye.Item) (distance : Nat) :
    (goodbyeBody rows distance).drop ((goodbyeBody rows distance).length - 24) = le64 distance ++ (le64 (16 + 24 * rows.length + 24) ++ le64 tailMarker) := by
  rw [goodbyeBody_length, show 24 * rows.length + 24 - 24 = (rows.flatMap itemBytes).length by rw [items_length]; omega]
  unfold goodbyeBody
  rw [List.drop_left, List.append_assoc]

theorem goodbyeBody_take (rows : List Goodbye.Item) (distance : Nat) :
    (goodbyeBody rows distance).take ((goodbyeBody rows distance).length - 24) = rows.flatMap itemBytes := by
  rw [goodbyeBody_length, show 24 * rows.length + 24 - 24 = (rows.flatMap itemBytes).length by rw [items_length]; omega]
  unfold goodbyeBody
  rw [List.take_left]

theorem tailMarker_lt : tailMarker < 2 ^ 64 := by decide

theorem validGoodbye {rows : List Goodbye.Item} {distance : Nat} (h1 : 40 + 24 * rows.length ≤ distance) (h2 : distance < u64max) :
    validateGoodbye (goodbyeBody rows distance) = true ∧
      word 0 ((goodbyeBody rows distance).drop ((goodbyeBody rows distance).length - 24)) = distance := by
  have hmax : u64max = 2 ^ 64 - 1 := by decide
  have hd := goodbyeBody_drop rows distance
  have hl := goodbyeBody_length rows distance
  have e0 : le64 tailMarker = le64 tailMarker ++ [] := (List.append_nil _).symm
  have w0 : word 0 (le64 distance ++ (le64 (16 + 24 * rows.length + 24) ++ le64 tailMarker)) = distance := word_zero (by omega) _
  have w1 : word 1 (le64 distance ++ (le64 (16 + 24 * rows.length + 24) ++ le64 tailMarker)) = 16 + 24 * rows.length + 24 := word_one (by omega) _
  have w2 : word 2 (le64 distance ++ (le64 (16 + 24 * rows.length + 24) ++ le64 tailMarker)) = tailMarker := by
    rw [word_succ, e0]
    exact word_one tailMarker_lt _
  refine ⟨?_, by rw [hd]; exact w0⟩
  unfold validateGoodbye
  rw [if_neg (by rw [hl]; omega), if_neg]
  · simp only [hd, w0, w1, w2]
    rw [hl]
    rw [if_neg (by simp), if_neg (by simp only [bne_iff_ne, ne_eq, Classical.not_not]; omega), if_neg (by omega)]
    simp only [bne_iff_ne, ne_eq]
    omega
  · rw [hl, show 24 * rows.length + 24 - 24 = 24 * rows.length by omega, Nat.mul_mod_right]; simp

theorem parseDirRec_filename {n : Bytes} (h : SafeName n) (hl : n.length < 2 ^ 62) (x : Bytes) :
    parseDirRec (strRecord .filename n ++ x) = .ok (.filename n, (strRecord .filename n).length) := by
  have hmax : u64max = 2 ^ 64 - 1 := by decide
  have hp := List.length_pos_iff.2 h.nonempty
  have hb : (n ++ [0]).length = n.length + 1 := by simp
  unfold strRecord
  have h0 : word 0 (record .filename (n ++ [0]) ++ x) = 16 + (n ++ [0]).length := by rw [record_append]; exact word_zero (by omega) _
  have h1 : word 1 (record .filename (n ++ [0]) ++ x) = code .filename := by rw [record_append]; exact word_one (code_lt _) _
  have hr := record_length .filename (n ++ [0])
  unfold parseDirRec
  rw [if_neg (by rw [List.length_append]; omega)]
  simp only [h0, h1, rtype_code, record_take]
  rw [if_neg (by omega), if_neg (by simp only [beq_iff_eq]; omega), if_neg (by omega), if_neg (by rw [List.length_append]; omega), if_neg (by rw [h.valid]; simp),
    show n ++ [0] = n ++ 0 :: [] from rfl, cstr_terminated h.noNul]
  rw [hr]

theorem goodbyeBytes_eq (rows : List Goodbye.Item) (distance : Nat) : goodbyeBytes rows distance = record .goodbye (goodbyeBody rows distance) := rfl

theorem parseDirRec_goodbye {rows : List Goodbye.Item} {distance : Nat} (h1 : 40 + 24 * rows.length ≤ distance) (h2 : distance < u64max) (x : Bytes) :
    parseDirRec (goodbyeBytes rows distance ++ x) = .ok (.goodbye (rows.flatMap itemBytes) distance, (goodbyeBytes rows distance).length) := by
  have hmax : u64max = 2 ^ 64 - 1 := by decide
  have hl := goodbyeBody_length rows distance
  have hv := validGoodbye h1 h2
  have ht := goodbyeBody_take rows distance
  rw [goodbyeBytes_eq]
  generalize goodbyeBody rows distance = body at *
  have h0 : word 0 (record .goodbye body ++ x) = 16 + body.length := by rw [record_append]; exact word_zero (by omega) _
  have h1 : word 1 (record .goodbye body ++ x) = code .goodbye := by rw [record_append]; exact word_one (code_lt _) _
  have hr := record_length .goodbye body
  unfold parseDirRec
  rw [if_neg (by rw [List.length_append]; omega)]
  simp only [h0, h1, rtype_code, record_take]
  rw [if_neg (by omega), if_neg (by simp only [beq_iff_eq]; omega), if_neg (by omega), if_neg (by rw [List.length_append]; omega), if_neg (by rw [hv.1]; simp), ht, hv.2, hr]

theorem headRec_filename {d : FF} {st : PSt} {n : Bytes} (h : SafeName n) (hl : n.length < 2 ^ 62) (hs : st.entry.isSome = true) (x : Bytes) :
    headRec d st (strRecord .filename n ++ x) = .done .filename 0 := by
  have hmax : u64max = 2 ^ 64 - 1 := by decide
  have hb : (n ++ [0]).length = n.length + 1 := by simp
  refine headRec_end x (by omega) rfl (by decide) ?_ ?_
  · simp [pre, hs]; omega
  · simp only [acceptEnd, h.valid]; rfl

theorem headRec_goodbye {d : FF} {st : PSt} {rows : List Goodbye.Item} {distance : Nat} (h1 : 40 + 24 * rows.length ≤ distance) (h2 : distance < u64max)
    (hs : st.entry.isSome = true) (x : Bytes) : headRec d st (goodbyeBytes rows distance ++ x) = .done .goodbye 0 := by
  have hmax : u64max = 2 ^ 64 - 1 := by decide
  have hl := goodbyeBody_length rows distance
  rw [goodbyeBytes_eq]
  refine headRec_end x (by omega) rfl (by decide) ?_ ?_
  · simp [pre, hs, hl]; omega
  · simp only [acceptEnd, (validGoodbye h1 h2).1]; rfl

end Casync.Archive
