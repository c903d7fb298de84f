import Verif.Spec.Remote
import Verif.Props.ChunkId
/-!
Frames and messages of the remote protocol.
-/
namespace Casync.Remote
open Casync ChunkFile Spec

/-- A frame with this type and body. -/
def fr (t : Nat) (b : Bytes) : Bytes := le64 (16 + b.length) ++ le64 t ++ b

theorem encode_fr (m : Msg) : encode m = fr (typeOf m) (body m) := rfl

theorem fr_length (t : Nat) (b : Bytes) : (fr t b).length = 16 + b.length := by simp [fr]; omega

theorem take_le64 (n : Nat) (x : Bytes) : (le64 n ++ x).take 8 = le64 n := by
  have h : (le64 n).length = 8 := le64_length n
  generalize le64 n = z at h
  rw [← h]; exact List.take_left'  rfl

theorem drop_le64 (n : Nat) (x : Bytes) : (le64 n ++ x).drop 8 = x := by
  have h : (le64 n).length = 8 := le64_length n
  generalize le64 n = z at h
  rw [← h]; exact List.drop_left' rfl

theorem fr_drop8 (t : Nat) (b : Bytes) : (fr t b).drop 8 = le64 t ++ b := by
  rw [fr, List.append_assoc]; exact drop_le64 _ _

theorem fr_drop (t : Nat) (b : Bytes) (k : Nat) : (fr t b).drop (16 + k) = b.drop k := by
  rw [show 16 + k = 8 + (8 + k) by omega, ← List.drop_drop, fr_drop8, ← List.drop_drop, drop_le64]

theorem fr_isFrame (t : Nat) (b : Bytes) (h : 16 + b.length ≤ 16777216) : IsFrame (fr t b) := by
  refine ⟨by rw [fr_length]; omega, by rw [fr_length]; omega, ?_⟩
  rw [fr_length, fr, List.append_assoc, take_le64]

theorem isFrame_fr {f : Bytes} (h : IsFrame f) : ∃ t b, f = fr t b ∧ t < 2 ^ 64 ∧ 16 + b.length ≤ 16777216 := by
  obtain ⟨h1, h2, h3⟩ := h
  refine ⟨rdLE ((f.drop 8).take 8), f.drop 16, ?_, ?_, ?_⟩
  · rw [fr, le64_rdLE (by simp; omega), List.length_drop, show 16 + (f.length - 16) = f.length by omega, ← h3,
      show f.drop 16 = (f.drop 8).drop 8 by rw [List.drop_drop], List.append_assoc, List.take_append_drop, List.take_append_drop]
  · exact rdLE_lt64 (by simp; omega)
  · simp; omega

theorem rd_fr0 (t : Nat) (b : Bytes) (h : 16 + b.length ≤ 16777216) : rd (fr t b) 0 = .ok (16 + b.length) := by
  unfold rd
  rw [if_pos (by rw [fr_length]; omega), List.drop_zero]
  rw [fr, List.append_assoc, take_le64, rdLE_le64 (by omega)]

theorem rd_fr8 (t : Nat) (b : Bytes) (h : t < 2 ^ 64) : rd (fr t b) 8 = .ok t := by
  unfold rd
  rw [if_pos (by rw [fr_length]; omega), fr_drop8, take_le64, rdLE_le64 h]

theorem rd_fr16 (t : Nat) (b : Bytes) (h : 8 ≤ b.length) : rd (fr t b) 16 = .ok (rdLE (b.take 8)) := by
  unfold rd
  rw [if_pos (by rw [fr_length]; omega), show 16 = 16 + 0 by rfl, fr_drop, List.drop_zero]

theorem rdLE_word {x : Nat} {c : Bytes} (h : x < 2 ^ 64) : rdLE ((le64 x ++ c).take 8) = x := by rw [take_le64, rdLE_le64 h]

/-- A body that begins with a number. -/
theorem word_split {b : Bytes} (h : 8 ≤ b.length) : b = le64 (rdLE (b.take 8)) ++ b.drop 8 := by
  rw [le64_rdLE (by simp; omega), List.take_append_drop]

theorem splitIds_flatten : ∀ (n : Nat) (b : Bytes), b.length = n * 32 →
    (splitIds n b).flatten = b ∧ (∀ id ∈ splitIds n b, id.length = 32) ∧ (splitIds n b).length = n
  | 0, b, h => by
    have : b = [] := List.length_eq_zero_iff.1 (by omega)
    subst this; simp [splitIds]
  | n + 1, b, h => by
    obtain ⟨h1, h2, h3⟩ := splitIds_flatten n (b.drop 32) (by simp; omega)
    refine ⟨by simp [splitIds, h1, List.take_append_drop], ?_, by simp [splitIds, h3]⟩
    intro id hid
    rcases List.mem_cons.1 hid with rfl | hid
    · simp; omega
    · exact h2 id hid

theorem flatten_length {ids : List Bytes} (h : ∀ id ∈ ids, id.length = 32) : ids.flatten.length = ids.length * 32 := by
  induction ids with
  | nil => rfl
  | cons a l ih =>
    simp only [List.flatten_cons, List.length_append, List.length_cons]
    rw [ih (fun id hid => h id (List.mem_cons_of_mem _ hid)), h a List.mem_cons_self]; omega

theorem splitIds_of_flatten : ∀ {ids : List Bytes}, (∀ id ∈ ids, id.length = 32) → splitIds ids.length ids.flatten = ids
  | [], _ => rfl
  | a :: l, h => by
    have ha := h a List.mem_cons_self
    simp only [List.length_cons, List.flatten_cons, splitIds]
    rw [← ha, List.take_left' rfl, List.drop_left' rfl, splitIds_of_flatten (fun id hid => h id (List.mem_cons_of_mem _ hid))]

/-- What a validator should say. -/
def Says (t : Nat) (b : Bytes) (o : Option Msg) : Prop := ∀ m, o = some m ↔ typeOf m = t ∧ body m = b ∧ WF m

theorem says_hello (b : Bytes) (hb : 16 + b.length ≤ 16777216) :
    ∃ o, validateHello (fr HELLO b) = .ok o ∧ Says HELLO b o := by
  unfold validateHello
  rw [rd_fr0 _ _ hb, Res.bind_ok]
  by_cases h1 : 16 + b.length ≠ 24
  · rw [if_pos h1]
    refine ⟨none, rfl, fun m => ⟨(nomatch ·), fun ⟨ht, hbody, hw⟩ => ?_⟩⟩
    cases m with
    | hello fl => exact absurd (by rw [← hbody]; simp [body]) h1
    | file a d => cases a <;> exact absurd ht (by simp only [typeOf]; decide)
    | fileEof a => cases a <;> exact absurd ht (by simp only [typeOf]; decide)
    | _ => exact absurd ht (by simp only [typeOf]; decide)
  · rw [if_neg h1, rd_fr8 _ _ (by decide), Res.bind_ok, if_neg (by simp), rd_fr16 _ _ (by omega), Res.bind_ok]
    have hs := word_split (b := b) (by omega)
    have hd : b.drop 8 = [] := List.length_eq_zero_iff.1 (by simp; omega)
    have hlt : rdLE (b.take 8) < 2 ^ 64 := rdLE_lt64 (by simp; omega)
    rw [hd, List.append_nil] at hs
    generalize rdLE (b.take 8) = x at hs hlt
    subst hs
    have key : ∀ m, typeOf m = HELLO ∧ body m = le64 x ∧ WF m → m = .hello x ∧ x ≠ NO_FLAGS ∧ x ≠ 0 := by
      intro m ⟨ht, hbody, hw⟩
      cases m with
      | hello fl =>
        have hw' : fl ≠ 0 ∧ fl < 2 ^ 64 - 1 := hw
        have := le64_inj (by omega) hlt hbody
        subst this
        exact ⟨rfl, by intro he; rw [he] at hw'; exact absurd hw'.2 (by decide), hw'.1⟩
      | file a d => cases a <;> exact absurd ht (by simp only [typeOf]; decide)
      | fileEof a => cases a <;> exact absurd ht (by simp only [typeOf]; decide)
      | _ => exact absurd ht (by simp only [typeOf]; decide)
    by_cases h2 : x = NO_FLAGS
    · rw [if_pos h2]
      exact ⟨none, rfl, fun m => ⟨(nomatch ·), fun h => absurd h2 (key m h).2.1⟩⟩
    · rw [if_neg h2]
      by_cases h3 : x = 0
      · rw [if_pos h3]
        exact ⟨none, rfl, fun m => ⟨(nomatch ·), fun h => absurd h3 (key m h).2.2⟩⟩
      · rw [if_neg h3]
        refine ⟨_, rfl, fun m => ⟨fun h => ?_, fun h => by rw [(key m h).1]⟩⟩
        injection h with h; subst h
        refine ⟨rfl, rfl, h3, ?_⟩
        have : x ≠ 2 ^ 64 - 1 := h2
        omega

theorem says_file (a : Bool) (b : Bytes) (hb : 16 + b.length ≤ 16777216) :
    ∃ o, validateFile (if a then ARCHIVE else INDEX) a (fr (if a then ARCHIVE else INDEX) b) = .ok o ∧ Says (if a then ARCHIVE else INDEX) b o := by
  have key : ∀ m, typeOf m = (if a then ARCHIVE else INDEX) ∧ body m = b ∧ WF m → m = .file a b ∧ b ≠ [] := by
    intro m ⟨ht, hbody, hw⟩
    cases m with
    | file a' d => cases a <;> cases a' <;> first | exact absurd ht (by simp only [typeOf]; decide) | exact ⟨by rw [← hbody]; rfl, by rw [← hbody]; exact hw⟩
    | fileEof a' => cases a <;> cases a' <;> exact absurd ht (by simp only [typeOf]; decide)
    | _ => cases a <;> exact absurd ht (by simp only [typeOf]; decide)
  unfold validateFile
  rw [rd_fr0 _ _ hb, Res.bind_ok]
  by_cases h1 : 16 + b.length < 16 + 1
  · rw [if_pos h1]
    have : b = [] := List.length_eq_zero_iff.1 (by omega)
    exact ⟨none, rfl, fun m => ⟨(nomatch ·), fun h => absurd this (key m h).2⟩⟩
  · rw [if_neg h1, rd_fr8 _ _ (by cases a <;> decide), Res.bind_ok, if_neg (by simp), show 16 = 16 + 0 from rfl, fr_drop, List.drop_zero,
      List.take_of_length_le (by omega)]
    refine ⟨_, rfl, fun m => ⟨fun h => ?_, fun h => by rw [(key m h).1]⟩⟩
    injection h with h; subst h
    refine ⟨by cases a <;> rfl, rfl, ?_⟩
    show b ≠ []
    intro hb; rw [hb] at h1; simp at h1

theorem says_fileEof (a : Bool) (b : Bytes) (hb : 16 + b.length ≤ 16777216) :
    ∃ o, validateFileEof (if a then ARCHIVE_EOF else INDEX_EOF) a (fr (if a then ARCHIVE_EOF else INDEX_EOF) b) = .ok o ∧
      Says (if a then ARCHIVE_EOF else INDEX_EOF) b o := by
  have key : ∀ m, typeOf m = (if a then ARCHIVE_EOF else INDEX_EOF) ∧ body m = b ∧ WF m → m = .fileEof a ∧ b = [] := by
    intro m ⟨ht, hbody, hw⟩
    cases m with
    | file a' d => cases a <;> cases a' <;> exact absurd ht (by simp only [typeOf]; decide)
    | fileEof a' => cases a <;> cases a' <;> first | exact absurd ht (by simp only [typeOf]; decide) | exact ⟨rfl, by rw [← hbody]; rfl⟩
    | _ => cases a <;> exact absurd ht (by simp only [typeOf]; decide)
  unfold validateFileEof
  rw [rd_fr0 _ _ hb, Res.bind_ok]
  by_cases h1 : 16 + b.length ≠ 16
  · rw [if_pos h1]
    refine ⟨none, rfl, fun m => ⟨(nomatch ·), fun h => ?_⟩⟩
    rw [(key m h).2] at h1; simp at h1
  · rw [if_neg h1, rd_fr8 _ _ (by cases a <;> decide), Res.bind_ok, if_neg (by simp)]
    have : b = [] := List.length_eq_zero_iff.1 (by omega)
    refine ⟨_, rfl, fun m => ⟨fun h => ?_, fun h => by rw [(key m h).1]⟩⟩
    injection h with h; subst h
    exact ⟨by cases a <;> rfl, by rw [this]; rfl, trivial⟩

theorem says_goodbye (b : Bytes) (hb : 16 + b.length ≤ 16777216) :
    ∃ o, validateGoodbye (fr GOODBYE b) = .ok o ∧ Says GOODBYE b o := by
  have key : ∀ m, typeOf m = GOODBYE ∧ body m = b ∧ WF m → m = .goodbye ∧ b = [] := by
    intro m ⟨ht, hbody, hw⟩
    cases m with
    | goodbye => exact ⟨rfl, by rw [← hbody]; rfl⟩
    | file a' d => cases a' <;> exact absurd ht (by simp only [typeOf]; decide)
    | fileEof a' => cases a' <;> exact absurd ht (by simp only [typeOf]; decide)
    | _ => exact absurd ht (by simp only [typeOf]; decide)
  unfold validateGoodbye
  rw [rd_fr0 _ _ hb, Res.bind_ok]
  by_cases h1 : 16 + b.length ≠ 16
  · rw [if_pos h1]
    refine ⟨none, rfl, fun m => ⟨(nomatch ·), fun h => ?_⟩⟩
    rw [(key m h).2] at h1; simp at h1
  · rw [if_neg h1, rd_fr8 _ _ (by decide), Res.bind_ok, if_neg (by simp)]
    have : b = [] := List.length_eq_zero_iff.1 (by omega)
    refine ⟨_, rfl, fun m => ⟨fun h => ?_, fun h => by rw [(key m h).1]⟩⟩
    injection h with h; subst h
    exact ⟨rfl, by rw [this]; rfl, trivial⟩

theorem says_missing (b : Bytes) (hb : 16 + b.length ≤ 16777216) :
    ∃ o, validateMissing (fr MISSING b) = .ok o ∧ Says MISSING b o := by
  have key : ∀ m, typeOf m = MISSING ∧ body m = b ∧ WF m → m = .missing b ∧ b.length = 32 := by
    intro m ⟨ht, hbody, hw⟩
    cases m with
    | missing id => exact ⟨by rw [← hbody]; rfl, by rw [← hbody]; exact hw⟩
    | file a' d => cases a' <;> exact absurd ht (by simp only [typeOf]; decide)
    | fileEof a' => cases a' <;> exact absurd ht (by simp only [typeOf]; decide)
    | _ => exact absurd ht (by simp only [typeOf]; decide)
  unfold validateMissing
  rw [rd_fr0 _ _ hb, Res.bind_ok]
  by_cases h1 : 16 + b.length ≠ 48
  · rw [if_pos h1]
    refine ⟨none, rfl, fun m => ⟨(nomatch ·), fun h => ?_⟩⟩
    rw [(key m h).2] at h1; simp at h1
  · rw [if_neg h1, rd_fr8 _ _ (by decide), Res.bind_ok, if_neg (by simp), show 16 = 16 + 0 from rfl, fr_drop, List.drop_zero,
      List.take_of_length_le (by omega)]
    refine ⟨_, rfl, fun m => ⟨fun h => ?_, fun h => by rw [(key m h).1]⟩⟩
    injection h with h; subst h
    exact ⟨rfl, rfl, (by omega : b.length = 32)⟩

theorem flag_split {b : Bytes} (h : 8 ≤ b.length) (hx : ¬ rdLE (b.take 8) > 1) :
    b = le64 (if rdLE (b.take 8) == 1 then 1 else 0) ++ b.drop 8 := by
  have hs := word_split h
  have : (if rdLE (b.take 8) == 1 then 1 else 0) = rdLE (b.take 8) := by
    by_cases h1 : rdLE (b.take 8) = 1
    · rw [h1]; rfl
    · have : rdLE (b.take 8) = 0 := by omega
      rw [this]; rfl
  rw [this]; exact hs

theorem rdLE_flag (p : Bool) (c : Bytes) : rdLE ((le64 (if p then 1 else 0) ++ c).take 8) = if p then 1 else 0 :=
  rdLE_word (by cases p <;> decide)

theorem says_request (b : Bytes) (hb : 16 + b.length ≤ 16777216) :
    ∃ o, validateRequest (fr REQUEST b) = .ok o ∧ Says REQUEST b o := by
  have key : ∀ m, typeOf m = REQUEST ∧ body m = b ∧ WF m → ∃ p ids, m = .request p ids ∧ b = le64 (if p then 1 else 0) ++ ids.flatten ∧
      ids ≠ [] ∧ ∀ id ∈ ids, id.length = 32 := by
    intro m ⟨ht, hbody, hw⟩
    cases m with
    | request p ids => exact ⟨p, ids, rfl, hbody.symm, hw.1, hw.2⟩
    | file a' d => cases a' <;> exact absurd ht (by simp only [typeOf]; decide)
    | fileEof a' => cases a' <;> exact absurd ht (by simp only [typeOf]; decide)
    | _ => exact absurd ht (by simp only [typeOf]; decide)
  have len : ∀ (p : Bool) (ids : List Bytes), b = le64 (if p then 1 else 0) ++ ids.flatten → (∀ id ∈ ids, id.length = 32) →
      b.length = 8 + ids.length * 32 := by
    intro p ids hbe hi
    rw [hbe, List.length_append, le64_length, flatten_length hi]
  unfold validateRequest
  rw [rd_fr0 _ _ hb, Res.bind_ok]
  by_cases h1 : 16 + b.length < 24 + 32
  · rw [if_pos h1]
    refine ⟨none, rfl, fun m => ⟨(nomatch ·), fun h => ?_⟩⟩
    obtain ⟨p, ids, _, hbe, hne, hi⟩ := key m h
    have := len p ids hbe hi
    have : ids.length ≠ 0 := fun h0 => hne (List.length_eq_zero_iff.1 h0)
    omega
  · rw [if_neg h1]
    by_cases h2 : (16 + b.length - 24) % 32 ≠ 0
    · rw [if_pos h2]
      refine ⟨none, rfl, fun m => ⟨(nomatch ·), fun h => ?_⟩⟩
      obtain ⟨p, ids, _, hbe, hne, hi⟩ := key m h
      have := len p ids hbe hi
      omega
    · rw [if_neg h2, rd_fr8 _ _ (by decide), Res.bind_ok, if_neg (by simp), rd_fr16 _ _ (by omega), Res.bind_ok]
      by_cases h3 : rdLE (b.take 8) > 1
      · rw [if_pos h3]
        refine ⟨none, rfl, fun m => ⟨(nomatch ·), fun h => ?_⟩⟩
        obtain ⟨p, ids, _, hbe, hne, hi⟩ := key m h
        rw [hbe, rdLE_flag] at h3
        cases p <;> simp at h3
      · rw [if_neg h3, show 24 = 16 + 8 from rfl, fr_drop]
        have hk : (16 + b.length - (16 + 8)) / 32 * 32 = (b.drop 8).length := by simp; omega
        obtain ⟨s1, s2, s3⟩ := splitIds_flatten _ (b.drop 8) hk.symm
        refine ⟨_, rfl, fun m => ⟨fun h => ?_, fun h => ?_⟩⟩
        · injection h with h; subst h
          refine ⟨rfl, ?_, ?_, s2⟩
          · simp only [body]
            rw [s1]; exact (flag_split (by omega) h3).symm
          · intro h0; rw [h0] at s3; simp at s3; omega
        · obtain ⟨p, ids, rfl, hbe, hne, hi⟩ := key m h
          have hl := len p ids hbe hi
          have e1 : (rdLE (b.take 8) == 1) = p := by rw [hbe, rdLE_flag]; cases p <;> rfl
          have e2 : b.drop 8 = ids.flatten := by rw [hbe, drop_le64]
          have e3 : (16 + b.length - (16 + 8)) / 32 = ids.length := by omega
          rw [e1, e2, e3, splitIds_of_flatten hi]

theorem says_chunk (b : Bytes) (hb : 16 + b.length ≤ 16777216) :
    ∃ o, validateChunk (fr CHUNK b) = .ok o ∧ Says CHUNK b o := by
  have key : ∀ m, typeOf m = CHUNK ∧ body m = b ∧ WF m → ∃ p id d, m = .chunk id p d ∧ b = le64 (if p then 1 else 0) ++ (id ++ d) ∧
      id.length = 32 ∧ d ≠ [] := by
    intro m ⟨ht, hbody, hw⟩
    cases m with
    | chunk id p d => exact ⟨p, id, d, rfl, by rw [← hbody]; simp only [body, List.append_assoc], hw.1, hw.2⟩
    | file a' d => cases a' <;> exact absurd ht (by simp only [typeOf]; decide)
    | fileEof a' => cases a' <;> exact absurd ht (by simp only [typeOf]; decide)
    | _ => exact absurd ht (by simp only [typeOf]; decide)
  have len : ∀ (p : Bool) (id d : Bytes), b = le64 (if p then 1 else 0) ++ (id ++ d) → id.length = 32 →
      b.length = 40 + d.length := by
    intro p id d hbe hi
    rw [hbe, List.length_append, le64_length, List.length_append]; omega
  unfold validateChunk
  rw [rd_fr0 _ _ hb, Res.bind_ok]
  by_cases h1 : 16 + b.length < 56 + 1
  · rw [if_pos h1]
    refine ⟨none, rfl, fun m => ⟨(nomatch ·), fun h => ?_⟩⟩
    obtain ⟨p, id, d, _, hbe, hi, hd⟩ := key m h
    have := len p id d hbe hi
    have : d.length ≠ 0 := fun h0 => hd (List.length_eq_zero_iff.1 h0)
    omega
  · rw [if_neg h1, rd_fr8 _ _ (by decide), Res.bind_ok, if_neg (by simp), rd_fr16 _ _ (by omega), Res.bind_ok]
    by_cases h3 : rdLE (b.take 8) > 1
    · rw [if_pos h3]
      refine ⟨none, rfl, fun m => ⟨(nomatch ·), fun h => ?_⟩⟩
      obtain ⟨p, id, d, _, hbe, hi, hd⟩ := key m h
      rw [hbe, rdLE_flag] at h3
      cases p <;> simp at h3
    · rw [if_neg h3, show 24 = 16 + 8 from rfl, fr_drop, show 56 = 16 + 40 from rfl, fr_drop,
        List.take_of_length_le (l := b.drop 40) (by simp; omega)]
      refine ⟨_, rfl, fun m => ⟨fun h => ?_, fun h => ?_⟩⟩
      · injection h with h; subst h
        refine ⟨rfl, ?_, by simp; omega, ?_⟩
        · simp only [body]
          rw [List.append_assoc, show b.drop 40 = (b.drop 8).drop 32 by rw [List.drop_drop], List.take_append_drop]
          exact (flag_split (by omega) h3).symm
        · intro h0
          have := congrArg List.length h0
          simp at this; omega
      · obtain ⟨p, id, d, rfl, hbe, hi, hd⟩ := key m h
        have e1 : (rdLE (b.take 8) == 1) = p := by rw [hbe, rdLE_flag]; cases p <;> rfl
        have e2 : b.drop 8 = id ++ d := by rw [hbe, drop_le64]
        have e3 : b.drop 40 = d := by
          rw [show b.drop 40 = (b.drop 8).drop 32 by rw [List.drop_drop], e2, ← hi]; exact List.drop_left' rfl
        have e4 : (b.drop 8).take 32 = id := by rw [e2, ← hi]; exact List.take_left' rfl
        rw [e1, e3, e4]

theorem says_abort (t : Nat) (ht : t < 2 ^ 64) (h0 : t ≠ HELLO) (h1 : t ≠ INDEX) (h2 : t ≠ INDEX_EOF) (h3 : t ≠ ARCHIVE)
    (h4 : t ≠ ARCHIVE_EOF) (h5 : t ≠ REQUEST) (h6 : t ≠ CHUNK) (h7 : t ≠ MISSING) (h8 : t ≠ GOODBYE)
    (b : Bytes) (hb : 16 + b.length ≤ 16777216) : ∃ o, validateAbort (fr t b) = .ok o ∧ Says t b o := by
  have key : ∀ m, typeOf m = t ∧ body m = b ∧ WF m → ∃ x s, m = .abort x s ∧ t = ABORT ∧ b = le64 x ++ (s ++ [0]) ∧ x < 2 ^ 31 - 1 ∧
      ∀ c ∈ s, 32 ≤ c := by
    intro m ⟨ht, hbody, hw⟩
    cases m with
    | abort x s => exact ⟨x, s, rfl, ht.symm, by rw [← hbody]; simp only [body, List.append_assoc], hw.1, hw.2⟩
    | hello _ => exact absurd ht.symm h0
    | file a' d => cases a'; exact absurd ht.symm h1; exact absurd ht.symm h3
    | fileEof a' => cases a'; exact absurd ht.symm h2; exact absurd ht.symm h4
    | request _ _ => exact absurd ht.symm h5
    | chunk _ _ _ => exact absurd ht.symm h6
    | missing _ => exact absurd ht.symm h7
    | goodbye => exact absurd ht.symm h8
  unfold validateAbort
  rw [rd_fr0 _ _ hb, Res.bind_ok]
  by_cases hs : 16 + b.length < 24 + 1
  · rw [if_pos hs]
    refine ⟨none, rfl, fun m => ⟨(nomatch ·), fun h => ?_⟩⟩
    obtain ⟨x, s, _, _, hbe, _, _⟩ := key m h
    rw [hbe] at hs; simp at hs; omega
  · rw [if_neg hs, rd_fr8 _ _ ht, Res.bind_ok]
    by_cases ha : t ≠ ABORT
    · rw [if_pos ha]
      refine ⟨none, rfl, fun m => ⟨(nomatch ·), fun h => ?_⟩⟩
      obtain ⟨x, s, _, ht, _⟩ := key m h
      exact absurd ht ha
    · rw [if_neg ha, rd_fr16 _ _ (by omega), Res.bind_ok]
      by_cases hx : rdLE (b.take 8) ≥ 2 ^ 31 - 1
      · rw [if_pos hx]
        refine ⟨none, rfl, fun m => ⟨(nomatch ·), fun h => ?_⟩⟩
        obtain ⟨x, s, _, _, hbe, hx', _⟩ := key m h
        rw [hbe, rdLE_word (by omega)] at hx; omega
      · rw [if_neg hx]
        simp only
        rw [show 24 = 16 + 8 from rfl, fr_drop, show 16 + b.length - (16 + 8) = (b.drop 8).length by simp; omega, List.take_length]
        have hlt : rdLE (b.take 8) < 2 ^ 64 := by omega
        have hws := word_split (b := b) (by omega)
        have hl : (b.drop 8).length ≥ 1 := by simp; omega
        generalize rdLE (b.take 8) = x at *
        generalize b.drop 8 = c at *
        subst hws
        have key' : ∀ m, typeOf m = t ∧ body m = le64 x ++ c ∧ WF m → ∃ s, m = .abort x s ∧ c = s ++ [0] ∧ ∀ c ∈ s, 32 ≤ c := by
          intro m h
          obtain ⟨x', s, hm, _, hbe, hx', hs⟩ := key m h
          have e1 := congrArg (List.take 8) hbe
          have e2 := congrArg (List.drop 8) hbe
          rw [take_le64, take_le64] at e1
          rw [drop_le64, drop_le64] at e2
          have := le64_inj hlt (by omega) e1
          subst this
          exact ⟨s, hm, e2, hs⟩
        by_cases hp : (c.take (c.length - 1)).any (· < 32) = true
        · rw [if_pos hp]
          refine ⟨none, rfl, fun m => ⟨(nomatch ·), fun h => ?_⟩⟩
          obtain ⟨s, _, hc, hs⟩ := key' m h
          rw [hc] at hp
          simp only [List.length_append, List.length_cons, List.length_nil, Nat.zero_add, Nat.add_sub_cancel, List.take_left,
            List.any_eq_true, decide_eq_true_eq] at hp
          obtain ⟨y, hy, hy'⟩ := hp
          exact absurd (hs y hy) (by simpa using hy')
        · rw [if_neg hp]
          by_cases hz : c[c.length - 1]? ≠ some 0
          · rw [if_pos hz]
            refine ⟨none, rfl, fun m => ⟨(nomatch ·), fun h => ?_⟩⟩
            obtain ⟨s, _, hc, hs⟩ := key' m h
            rw [hc] at hz
            simp at hz
          · rw [if_neg hz]
            have hz' : c[c.length - 1]? = some 0 := by simpa using hz
            have hc : c = c.take (c.length - 1) ++ [0] := by
              have h1 := List.getElem?_eq_some_iff.1 hz'
              obtain ⟨h1, h2⟩ := h1
              have := List.take_append_drop (c.length - 1) c
              rw [List.drop_eq_getElem_cons h1, h2, List.drop_eq_nil_of_le (by omega)] at this
              exact this.symm
            refine ⟨_, rfl, fun m => ⟨fun h => ?_, fun h => ?_⟩⟩
            · injection h with h; subst h
              have ha' : t = ABORT := by simpa using ha
              refine ⟨by rw [ha']; rfl, ?_, by omega, ?_⟩
              · show le64 x ++ c.take (c.length - 1) ++ [0] = le64 x ++ c
                rw [List.append_assoc, ← hc]
              · intro y hy
                have := hp
                simp only [List.any_eq_true, decide_eq_true_eq, not_exists, not_and] at this
                simpa using this y hy
            · obtain ⟨s, rfl, hc', hs⟩ := key' m h
              rw [hc']
              simp

theorem validate_says (t : Nat) (ht : t < 2 ^ 64) (b : Bytes) (hb : 16 + b.length ≤ 16777216) :
    ∃ o, validate t (fr t b) = .ok o ∧ Says t b o := by
  unfold validate
  by_cases h0 : t = HELLO
  · subst h0; rw [if_pos rfl]; exact says_hello b hb
  rw [if_neg h0]
  by_cases h1 : t = INDEX
  · subst h1; rw [if_pos rfl]; exact says_file false b hb
  rw [if_neg h1]
  by_cases h2 : t = INDEX_EOF
  · subst h2; rw [if_pos rfl]; exact says_fileEof false b hb
  rw [if_neg h2]
  by_cases h3 : t = ARCHIVE
  · subst h3; rw [if_pos rfl]; exact says_file true b hb
  rw [if_neg h3]
  by_cases h4 : t = ARCHIVE_EOF
  · subst h4; rw [if_pos rfl]; exact says_fileEof true b hb
  rw [if_neg h4]
  by_cases h5 : t = REQUEST
  · subst h5; rw [if_pos rfl]; exact says_request b hb
  rw [if_neg h5]
  by_cases h6 : t = CHUNK
  · subst h6; rw [if_pos rfl]; exact says_chunk b hb
  rw [if_neg h6]
  by_cases h7 : t = MISSING
  · subst h7; rw [if_pos rfl]; exact says_missing b hb
  rw [if_neg h7]
  by_cases h8 : t = GOODBYE
  · subst h8; rw [if_pos rfl]; exact says_goodbye b hb
  rw [if_neg h8]
  exact says_abort t ht h0 h1 h2 h3 h4 h5 h6 h7 h8 b hb

end Casync.Remote
