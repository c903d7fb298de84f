import Verif.Spec.IndexIncremental
import Verif.Lemmas.IndexRead
namespace Casync.Index
open Casync Casync.Index.Spec

def nonAgain (rs : List (Res (Option Chunk))) : List (Res (Option Chunk)) :=
  rs.filter (fun r => decide (r ≠ .err .EAGAIN))

/-- The outcome of reading a record, without the state. -/
def recRes (h : Header) (k prev : Nat) (b : Bytes) (more : Bool) : Res (Option Chunk) :=
  if field b 4 = tailMarker ∧ field b 0 = 0 ∧ field b 1 = 0 ∧ field b 2 = 48 ∧
      field b 3 = 64 + 40 * k - 64 + 16 + 40 then
    if more then .err .EBADMSG else .ok none
  else if prev ≠ u64max ∧ prev ≥ field b 0 then .err .EBADMSG
  else if prev ≠ u64max ∧ field b 0 - prev > h.cmax then .err .EBADMSG
  else .ok (some { id := b.drop 8, endOffset := field b 0,
                   size := if prev = u64max then u64max else field b 0 - prev })

theorem recRes_ne_again (h k prev b more) : recRes h k prev b more ≠ .err .EAGAIN := by
  unfold recRes; repeat' split
  all_goals (intro h; cases h)
theorem recRes_ne_ub (h k prev b more) : recRes h k prev b more ≠ .ub := by
  unfold recRes; repeat' split
  all_goals (intro h; cases h)

theorem parseRecord_recRes (h : Header) (m eof raw file k prev pos) (b : Bytes) :
    parseRecord { rstate h m eof raw file k prev with pos := pos } b =
      match recRes h k prev b (decide (pos < file.length)) with
      | .ok none => .ok (none, { rstate h m eof raw file k prev with pos := pos })
      | .ok (some c) => .ok (some c, { rstate h m eof raw file (k + 1) (field b 0) with pos := pos })
      | .err e => .err e
      | .ub => .ub := by
  unfold parseRecord recRes
  simp only
  by_cases hc : field b 4 = tailMarker ∧ field b 0 = 0 ∧ field b 1 = 0 ∧ field b 2 = 48 ∧
      field b 3 = 64 + 40 * k - 64 + 16 + 40
  · have hc' : field b 4 = tailMarker ∧ field b 0 = 0 ∧ field b 1 = 0 ∧ field b 2 = 48 ∧
      field b 3 = (rstate h m eof raw file k prev).cooked - (rstate h m eof raw file k prev).startOffset + 16 + 40 := hc
    rw [if_pos hc, if_pos hc']
    have hr : (fdRead { rstate h m eof raw file k prev with pos := pos } 1).1 = (file.drop pos).take 1 := rfl
    rw [hr]
    by_cases hp : pos < file.length
    · rw [if_pos (by rw [List.length_take, List.length_drop]; omega), if_pos (by simpa using hp)]
    · have h0 : ((file.drop pos).take 1).length = 0 := by rw [List.length_take, List.length_drop]; omega
      rw [if_neg (by omega), if_neg (by simpa using hp)]
      have : (fdRead { rstate h m eof raw file k prev with pos := pos } 1).2 =
        { rstate h m eof raw file k prev with pos := pos + ((file.drop pos).take 1).length } := rfl
      rw [this, h0]
      rfl
  · have hc' : ¬ (field b 4 = tailMarker ∧ field b 0 = 0 ∧ field b 1 = 0 ∧ field b 2 = 48 ∧
      field b 3 = (rstate h m eof raw file k prev).cooked - (rstate h m eof raw file k prev).startOffset + 16 + 40) := hc
    rw [if_neg hc, if_neg hc']
    by_cases h1 : prev ≠ u64max ∧ prev ≥ field b 0
    · have h1' : (rstate h m eof raw file k prev).prev ≠ u64max ∧ (rstate h m eof raw file k prev).prev ≥ field b 0 := h1
      rw [if_pos h1, if_pos h1']
    · have h1' : ¬ ((rstate h m eof raw file k prev).prev ≠ u64max ∧ (rstate h m eof raw file k prev).prev ≥ field b 0) := h1
      rw [if_neg h1, if_neg h1']
      by_cases h2 : prev ≠ u64max ∧ field b 0 - prev > h.cmax
      · have h2' : (rstate h m eof raw file k prev).prev ≠ u64max ∧
          field b 0 - (rstate h m eof raw file k prev).prev > (rstate h m eof raw file k prev).cmax := h2
        rw [if_pos h2, if_pos h2']
      · have h2' : ¬ ((rstate h m eof raw file k prev).prev ≠ u64max ∧
          field b 0 - (rstate h m eof raw file k prev).prev > (rstate h m eof raw file k prev).cmax) := h2
        rw [if_neg h2, if_neg h2']
        rfl

/-- The outcome of reading record `k` of a file. -/
def recAt (h : Header) (file : Bytes) (k prev : Nat) : Res (Option Chunk) :=
  if ((file.drop (64 + 40 * k)).take 40).length ≠ 40 then .err .EPIPE
  else recRes h k prev ((file.drop (64 + 40 * k)).take 40) (decide (64 + 40 * k + 40 < file.length))

theorem recAt_ne_again (h file k prev) : recAt h file k prev ≠ .err .EAGAIN := by
  unfold recAt
  split
  · intro h; cases h
  · exact recRes_ne_again _ _ _ _ _
theorem recAt_ne_ub (h file k prev) : recAt h file k prev ≠ .ub := by
  unfold recAt
  split
  · intro h; cases h
  · exact recRes_ne_ub _ _ _ _ _

theorem readRecord_recAt (h : Header) (m eof raw file k prev) :
    readRecord h m eof raw file k prev =
      match recAt h file k prev with
      | .ok none => .ok (none, { rstate h m eof raw file k prev with pos := 64 + 40 * k + 40 })
      | .ok (some c) => .ok (some c, rstate h m eof raw file (k + 1) c.endOffset)
      | .err e => .err e
      | .ub => .ub := by
  unfold readRecord recAt
  simp only
  split
  · rfl
  · rename_i hl
    have hl : ((file.drop (64 + 40 * k)).take 40).length = 40 := by omega
    rw [hl, parseRecord_recRes]
    generalize hb : (file.drop (64 + 40 * k)).take 40 = b
    cases hr : recRes h k prev b (decide (64 + 40 * k + 40 < file.length)) with
    | ub => rfl
    | err e => rfl
    | ok o =>
      cases o with
      | none => rfl
      | some c =>
        have : c.endOffset = field b 0 := by
          unfold recRes at hr
          split at hr
          · split at hr <;> cases hr
          · split at hr
            · cases hr
            · split at hr
              · cases hr
              · injection hr with hr; injection hr with hr; rw [← hr]
        simp only [this]
        rfl

/-- Record `k` is determined once it and one more byte have arrived. -/
theorem recAt_prefix (h : Header) (F rest : Bytes) (k prev : Nat) (hl : 64 + 40 * (k + 1) + 1 ≤ F.length) :
    recAt h F k prev = recAt h (F ++ rest) k prev := by
  unfold recAt
  have e1 : ((F ++ rest).drop (64 + 40 * k)).take 40 = (F.drop (64 + 40 * k)).take 40 := by
    rw [List.drop_append_of_le_length (by omega), List.take_append_of_le_length (by rw [List.length_drop]; omega)]
  have e2 : decide (64 + 40 * k + 40 < (F ++ rest).length) = decide (64 + 40 * k + 40 < F.length) := by
    have a1 : 64 + 40 * k + 40 < (F ++ rest).length := by rw [List.length_append]; omega
    have a2 : 64 + 40 * k + 40 < F.length := by omega
    rw [decide_eq_true a1, decide_eq_true a2]
  rw [e1, e2]

/-- An incremental reader that has not parsed the head. -/
def ustate (F : Bytes) (e : Bool) : Index :=
  { mode := .incRead, wroteEof := e, raw := F.length, flags := Flags.none64, file := F }

theorem newIncRead_ustate : newIncRead = ustate [] false := rfl

theorem parseHead_indep (i j : Index) (b : Bytes) :
    (∃ e, parseHead i b = .err e ∧ parseHead j b = .err e) ∨
    (∃ i' j', parseHead i b = .ok i' ∧ parseHead j b = .ok j') := by
  cases hi : parseHead i b with
  | ub => exact absurd hi (parseHead_ne_ub _ _)
  | ok i' =>
    cases hj : parseHead j b with
    | ub => exact absurd hj (parseHead_ne_ub _ _)
    | ok j' => exact Or.inr ⟨_, _, rfl, rfl⟩
    | err e =>
      exfalso
      unfold parseHead at hi hj
      simp only at hi hj
      split at hi
      · cases hi
      · rename_i h1
        rw [if_neg h1] at hj
        split at hi
        · cases hi
        · cases hi
        · cases hi
        · rename_i h2
          rw [h2] at hj
          simp only at hj
          split at hi
          · cases hi
          · rename_i h3
            rw [if_neg h3] at hj
            split at hi
            · cases hi
            · rename_i h4
              rw [if_neg h4] at hj
              split at hi
              · cases hi
              · rename_i h5
                rw [if_neg h5] at hj
                split at hi
                · cases hi
                · rename_i h6
                  rw [if_neg h6] at hj
                  split at hi
                  · cases hi
                  · rename_i h7
                    rw [if_neg h7] at hj
                    cases hj
  | err e =>
    left
    refine ⟨e, rfl, ?_⟩
    unfold parseHead at hi ⊢
    simp only at hi ⊢
    split at hi
    · rename_i h1; rw [if_pos h1]; exact hi
    · rename_i h1
      rw [if_neg h1]
      split at hi
      · exact hi
      · cases hi
      · exact hi
      · split at hi
        · rename_i h3; rw [if_pos h3]; exact hi
        · rename_i h3
          rw [if_neg h3]
          split at hi
          · rename_i h4; rw [if_pos h4]; exact hi
          · rename_i h4
            rw [if_neg h4]
            split at hi
            · rename_i h5; rw [if_pos h5]; exact hi
            · rename_i h5
              rw [if_neg h5]
              split at hi
              · rename_i h6; rw [if_pos h6]; exact hi
              · rename_i h6
                rw [if_neg h6]
                split at hi
                · rename_i h7; rw [if_pos h7]; exact hi
                · cases hi

theorem writeHead_incRead {i : Index} (h : i.mode = .incRead) : writeHead i = .ok i := by
  unfold writeHead
  rw [if_pos (by simp [h])]

theorem writeHead_read {i : Index} (h : i.mode = .read) : writeHead i = .ok i := by
  unfold writeHead
  rw [if_pos (by simp [h])]

theorem readHead_ustate_wait {F : Bytes} (h : F.length < 64) : openIndex (ustate F false) = .ok (ustate F false) := by
  have hr : readHead (ustate F false) = .err .EAGAIN := by
    unfold readHead
    rw [if_neg (by simp [ustate]), if_neg (by simp [ustate]), if_neg (by simp [ustate])]
    have : enoughData (ustate F false) 64 = .ok false := by
      unfold enoughData
      simp [ustate]; omega
    rw [this]
  unfold openIndex
  rw [hr]
  exact writeHead_incRead rfl

/-- Opening once the head has arrived (or the end was signalled) does what opening the complete file does. -/
theorem openIndex_ustate {F rest : Bytes} {e : Bool} (h : 64 ≤ F.length ∨ (e = true ∧ rest = []))  :
    (∃ hd : Header, hd.Valid ∧ openIndex (ustate F e) = .ok (rstate hd .incRead e F.length F 0 0) ∧
      openIndex (newRead (F ++ rest)) = .ok (rstate hd .read false 0 (F ++ rest) 0 0)) ∨
    (∃ er, er ≠ .EAGAIN ∧ openIndex (ustate F e) = .err er ∧ openIndex (newRead (F ++ rest)) = .err er) := by
  have ht : (F ++ rest).take 64 = F.take 64 := by
    rcases h with h | ⟨_, h⟩
    · rw [List.take_append_of_le_length h]
    · rw [h, List.append_nil]
  have hr : readHead (ustate F e) =
      if (F.take 64).length ≠ 64 then .err .EPIPE
      else parseHead { ustate F e with pos := (F.take 64).length } (F.take 64) := by
    unfold readHead
    rw [if_neg (by simp [ustate]), if_neg (by simp [ustate]), if_neg (by simp [ustate])]
    have : enoughData (ustate F e) 64 = .ok true := by
      unfold enoughData
      rcases h with h | ⟨h, _⟩
      · simp [ustate, h]
      · simp [ustate, h]
    rw [this]
    have h1 : (fdRead (ustate F e) 64).1 = F.take 64 := rfl
    have h2 : (fdRead (ustate F e) 64).2 = { ustate F e with pos := (F.take 64).length } := by
      show { ustate F e with pos := 0 + (F.take 64).length } = _
      rw [Nat.zero_add]
    simp only [h1, h2]
  have hn := readHead_newRead (F ++ rest)
  rw [ht] at hn
  unfold openIndex
  by_cases hl : (F.take 64).length ≠ 64
  · rw [if_pos hl] at hr hn
    right
    exact ⟨.EPIPE, by simp, by rw [hr], by rw [hn]⟩
  · rw [if_neg hl] at hr hn
    have hl : (F.take 64).length = 64 := by omega
    rcases parseHead_indep { ustate F e with pos := (F.take 64).length }
      { newRead (F ++ rest) with pos := (F.take 64).length } (F.take 64) with ⟨er, h1, h2⟩ | ⟨i', j', h1, h2⟩
    · right
      have hne : er ≠ .EAGAIN := by rintro rfl; exact parseHead_ne_again _ _ h1
      rw [h1] at hr
      rw [h2] at hn
      refine ⟨er, hne, ?_, ?_⟩
      · rw [hr]; cases er <;> first | rfl | exact absurd rfl hne
      · rw [hn]; cases er <;> first | rfl | exact absurd rfl hne
    · left
      obtain ⟨hd, hv, hb, hi⟩ := parseHead_inv hl h1
      have h3 := parseHead_encHead hv { newRead (F ++ rest) with pos := (F.take 64).length }
      rw [← hb] at h3
      rw [h1] at hr
      rw [h3] at hn
      refine ⟨hd, hv, ?_, ?_⟩
      · rw [hr, hi, hl]
        exact writeHead_incRead rfl
      · rw [hn, hl]
        exact writeHead_read rfl

theorem seqReads_newRead {file : Bytes} {hd : Header} (n : Nat)
    (h : openIndex (newRead file) = .ok (rstate hd .read false 0 file 0 0)) :
    seqReads n (newRead file) = seqReads n (rstate hd .read false 0 file 0 0) := by
  cases n with
  | zero => rfl
  | succ n => rw [seqReads, seqReads, readChunk_newRead h]

theorem nonAgain_again (rs) : nonAgain (.err .EAGAIN :: rs) = nonAgain rs := by
  simp [nonAgain]
theorem nonAgain_cons {r} (rs) (h : r ≠ .err .EAGAIN) : nonAgain (r :: rs) = r :: nonAgain rs := by
  simp [nonAgain, h]
theorem nonAgain_nil : nonAgain [] = [] := rfl

theorem enoughData_rstate {hd : Header} {e : Bool} {F : Bytes} {k prev : Nat} (hF : F.length < 2 ^ 63)
    (hk : 64 + 40 * k ≤ F.length) :
    enoughData (rstate hd .incRead e F.length F k prev) 41 = .ok (e || decide (64 + 40 * (k + 1) + 1 ≤ F.length)) := by
  show (if e = true then Res.ok true
    else if 64 + 40 * k + 41 ≥ 2 ^ 64 then .err .E2BIG else .ok (decide (64 + 40 * k + 41 ≤ F.length))) = _
  cases e with
  | true => simp
  | false =>
    rw [if_neg (by decide), if_neg (by omega)]
    simp only [Bool.false_or]
    congr 1

theorem readChunk_inc {hd : Header} {e : Bool} {F : Bytes} {k prev : Nat} (hF : F.length < 2 ^ 63)
    (hk : 64 + 40 * k ≤ F.length) :
    readChunk (rstate hd .incRead e F.length F k prev) =
      if e = true ∨ 64 + 40 * (k + 1) + 1 ≤ F.length then readRecord hd .incRead e F.length F k prev
      else .err .EAGAIN := by
  unfold readChunk
  rw [openIndex_rstate (Or.inr rfl), Res.bind_ok, if_neg (by simp [rstate]), enoughData_rstate hF hk]
  by_cases h : e = true ∨ 64 + 40 * (k + 1) + 1 ≤ F.length
  · have : (e || decide (64 + 40 * (k + 1) + 1 ≤ F.length)) = true := by simpa using h
    rw [this, if_pos h]
    rfl
  · have : (e || decide (64 + 40 * (k + 1) + 1 ≤ F.length)) = false := by
      rw [Bool.eq_false_iff]; intro h'; exact h (by simpa using h')
    rw [this, if_neg h]

theorem noData_after_eof (ops : List Op) : ∀ r, Good r true ops → allData ops = [] := by
  induction ops with
  | nil => intro _ _; rfl
  | cons op ops ih =>
    intro r
    cases op with
    | write d => rintro ⟨_, h, _⟩; cases h
    | eof => rintro ⟨h, _⟩; cases h
    | read => rintro ⟨_, h⟩; exact ih r h

/-- The heart of C10 for a reader that has parsed the head. -/
theorem runInc_parsed {hd : Header} (ops : List Op) : ∀ (F : Bytes) (e : Bool) (k prev : Nat),
    Good F.length e ops → (F ++ allData ops).length < 2 ^ 63 → (e = true → allData ops = []) →
    64 + 40 * k ≤ F.length →
    (∃ m, nonAgain (runInc (rstate hd .incRead e F.length F k prev) ops) =
      seqReads m (rstate hd .read false 0 (F ++ allData ops) k prev)) ∧
    Timely F.length e k ops (runInc (rstate hd .incRead e F.length F k prev) ops) := by
  induction ops with
  | nil => intro F e k prev _ _ _ _; exact ⟨⟨0, rfl⟩, trivial⟩
  | cons op ops ih =>
    intro F e k prev hg hW he hk
    have hF : F.length < 2 ^ 63 := by rw [List.length_append] at hW; omega
    cases op with
    | write d =>
      obtain ⟨hd0, rfl, hg'⟩ := hg
      have hW' : (F ++ d ++ allData ops).length < 2 ^ 63 := by rw [List.append_assoc]; exact hW
      have hw : incWrite (rstate hd .incRead false F.length F k prev) d =
          .ok (rstate hd .incRead false (F ++ d).length (F ++ d) k prev) := by
        unfold incWrite
        rw [if_neg (by simpa using hd0), if_neg (by simp [rstate]), if_neg (by simp [rstate]),
          openIndex_rstate (Or.inr rfl), Res.bind_ok]
        have : ¬ ((rstate hd .incRead false F.length F k prev).raw + d.length ≥ 2 ^ 64) := by
          show ¬ (F.length + d.length ≥ 2 ^ 64)
          rw [List.length_append, List.length_append] at hW'; omega
        rw [if_neg this, List.length_append]
        rfl
      simp only [runInc, hw]
      have hg'' : Good (F ++ d).length false ops := by rw [List.length_append]; exact hg'
      have := ih (F ++ d) false k prev hg'' hW' (by simp) (by rw [List.length_append]; omega)
      rw [List.append_assoc] at this
      refine ⟨this.1, ?_⟩
      have h2 := this.2
      rw [List.length_append (as := F)] at h2 ⊢
      exact h2
    | eof =>
      obtain ⟨rfl, hg'⟩ := hg
      have hw : incEof (rstate hd .incRead false F.length F k prev) =
          .ok (rstate hd .incRead true F.length F k prev) := by
        unfold incEof
        rw [if_neg (by simp [rstate]), if_neg (by simp [rstate]), openIndex_rstate (Or.inr rfl), Res.bind_ok]
        rfl
      simp only [runInc, hw]
      have hnd : allData ops = [] := noData_after_eof ops _ hg'
      exact ih F true k prev hg' hW (fun _ => hnd) hk
    | read =>
      obtain ⟨_, hg'⟩ := hg
      simp only [runInc]
      rw [readChunk_inc hF hk]
      by_cases hready : e = true ∨ 64 + 40 * (k + 1) + 1 ≤ F.length
      · rw [if_pos hready, readRecord_recAt]
        have hrec : recAt hd F k prev = recAt hd (F ++ allData (.read :: ops)) k prev := by
          rcases hready with h | h
          · rw [show allData (.read :: ops) = [] from he h, List.append_nil]
          · exact recAt_prefix hd F _ k prev h
        have hseq : ∀ m, seqReads (m + 1) (rstate hd .read false 0 (F ++ allData (.read :: ops)) k prev) =
            match recAt hd F k prev with
            | .ok none => [.ok none]
            | .ok (some c) => .ok (some c) ::
                seqReads m (rstate hd .read false 0 (F ++ allData (.read :: ops)) (k + 1) c.endOffset)
            | .err e => [.err e]
            | .ub => [.ub] := by
          intro m
          rw [seqReads, readChunk_read, readRecord_recAt, ← hrec]
          cases recAt hd F k prev with
          | ub => rfl
          | err e => rfl
          | ok o => cases o <;> rfl
        cases hr : recAt hd F k prev with
        | ub => exact absurd hr (recAt_ne_ub _ _ _ _)
        | err er =>
          have hne : er ≠ .EAGAIN := by rintro rfl; exact recAt_ne_again _ _ _ _ hr
          simp only
          refine ⟨⟨1, ?_⟩, ?_⟩
          · rw [hseq, hr, nonAgain_cons _ (by simpa using hne), nonAgain_nil]
          · cases er <;> first | exact trivial | exact absurd rfl hne
        | ok o =>
          cases o with
          | none =>
            refine ⟨⟨1, ?_⟩, trivial⟩
            rw [hseq, hr]
            simp [nonAgain]
          | some c =>
            have hlen : 64 + 40 * (k + 1) ≤ F.length := by
              unfold recAt at hr
              split at hr
              · cases hr
              · rename_i hl
                have hl : ((F.drop (64 + 40 * k)).take 40).length = 40 := by omega
                rw [List.length_take, List.length_drop] at hl; omega
            obtain ⟨⟨m, hm⟩, ht⟩ := ih F e (k + 1) c.endOffset hg' hW he hlen
            refine ⟨⟨m + 1, ?_⟩, ht⟩
            rw [hseq, hr, nonAgain_cons _ (by simp), hm]
            rfl
      · rw [if_neg hready]
        obtain ⟨⟨m, hm⟩, ht⟩ := ih F e k prev hg' hW he hk
        refine ⟨⟨m, ?_⟩, ⟨?_, ?_⟩, ht⟩
        · rw [nonAgain_again]; exact hm
        · cases e with
          | false => rfl
          | true => exact absurd (Or.inl rfl) hready
        · omega

/-- Parsing the head early or late makes no difference. -/
theorem runInc_open {hd : Header} {F : Bytes} {e : Bool}
    (ho : openIndex (ustate F e) = .ok (rstate hd .incRead e F.length F 0 0)) (ops : List Op) :
    runInc (ustate F e) ops = runInc (rstate hd .incRead e F.length F 0 0) ops := by
  have ho' := openIndex_rstate (h := hd) (eof := e) (raw := F.length) (file := F) (k := 0) (prev := 0)
    (m := .incRead) (Or.inr rfl)
  induction ops with
  | nil => rfl
  | cons op ops ih =>
    cases op with
    | write d =>
      have : incWrite (ustate F e) d = incWrite (rstate hd .incRead e F.length F 0 0) d := by
        unfold incWrite; rw [ho, ho']; rfl
      simp only [runInc, this]
    | eof =>
      have : incEof (ustate F e) = incEof (rstate hd .incRead e F.length F 0 0) := by
        unfold incEof; rw [ho, ho']; rfl
      simp only [runInc, this]
    | read =>
      have : readChunk (ustate F e) = readChunk (rstate hd .incRead e F.length F 0 0) := by
        unfold readChunk; rw [ho, ho']
      simp only [runInc, this, ih]

theorem timely_err {er : Errno} (h : er ≠ .EAGAIN) (ops : List Op) : ∀ (r : Nat) (e : Bool) (k : Nat),
    Timely r e k ops [.err er] := by
  induction ops with
  | nil => intro r e k; exact trivial
  | cons op ops ih =>
    intro r e k
    cases op with
    | write d => exact ih _ _ _
    | eof => exact ih _ _ _
    | read => cases er <;> first | exact trivial | exact absurd rfl h

/-- The same from the start. -/
theorem runInc_unparsed (ops : List Op) : ∀ (F : Bytes) (e : Bool),
    Good F.length e ops → (F ++ allData ops).length < 2 ^ 63 → (e = true → allData ops = []) →
    (∃ m, nonAgain (runInc (ustate F e) ops) = seqReads m (newRead (F ++ allData ops))) ∧
    Timely F.length e 0 ops (runInc (ustate F e) ops) := by
  induction ops with
  | nil => intro F e _ _ _; exact ⟨⟨0, rfl⟩, trivial⟩
  | cons op ops ih =>
    intro F e hg hW he
    by_cases hready : 64 ≤ F.length ∨ (e = true ∧ allData (op :: ops) = [])
    · rcases openIndex_ustate hready with ⟨hd, hv, h1, h2⟩ | ⟨er, hne, h1, h2⟩
      · rw [runInc_open h1]
        have hk : 64 + 40 * 0 ≤ F.length := by
          obtain ⟨hd', _, ⟨r, hr⟩, hx⟩ := openIndex_newRead_inv h2
          rcases hready with h | ⟨_, h⟩
          · omega
          · rw [h, List.append_nil] at hr
            rw [hr, List.length_append, encHead_length]; omega
        obtain ⟨⟨m, hm⟩, ht⟩ := runInc_parsed (hd := hd) (op :: ops) F e 0 0 hg hW he hk
        exact ⟨⟨m, by rw [hm, seqReads_newRead m h2]⟩, ht⟩
      · have hrun : runInc (ustate F e) (op :: ops) = [.err er] := by
          cases op with
          | write d =>
            obtain ⟨hd0, rfl, _⟩ := hg
            have : incWrite (ustate F false) d = .err er := by
              unfold incWrite
              rw [if_neg (by simpa using hd0), if_neg (by simp [ustate]), if_neg (by simp [ustate]), h1]
              rfl
            simp only [runInc, this]
          | eof =>
            obtain ⟨rfl, _⟩ := hg
            have : incEof (ustate F false) = .err er := by
              unfold incEof
              rw [if_neg (by simp [ustate]), if_neg (by simp [ustate]), h1]
              rfl
            simp only [runInc, this]
          | read =>
            have : readChunk (ustate F e) = .err er := by
              unfold readChunk; rw [h1]; rfl
            simp only [runInc, this]
        rw [hrun]
        refine ⟨⟨1, ?_⟩, timely_err hne _ _ _ _⟩
        have : readChunk (newRead (F ++ allData (op :: ops))) = .err er := by
          unfold readChunk; rw [h2]; rfl
        rw [seqReads, this, nonAgain_cons _ (by simpa using hne), nonAgain_nil]
    · have hlt : F.length < 64 := by omega
      have hef : e = false := by
        cases e with
        | false => rfl
        | true => exact absurd (Or.inr ⟨rfl, he rfl⟩) hready
      subst hef
      have ho := readHead_ustate_wait hlt
      cases op with
      | write d =>
        obtain ⟨hd0, _, hg'⟩ := hg
        have hW' : (F ++ d ++ allData ops).length < 2 ^ 63 := by rw [List.append_assoc]; exact hW
        have hw : incWrite (ustate F false) d = .ok (ustate (F ++ d) false) := by
          unfold incWrite
          rw [if_neg (by simpa using hd0), if_neg (by simp [ustate]), if_neg (by simp [ustate]), ho, Res.bind_ok]
          have : ¬ ((ustate F false).raw + d.length ≥ 2 ^ 64) := by
            show ¬ (F.length + d.length ≥ 2 ^ 64)
            rw [List.length_append, List.length_append] at hW'; omega
          unfold ustate at this ⊢
          rw [if_neg this, List.length_append]
        simp only [runInc, hw]
        have hg'' : Good (F ++ d).length false ops := by rw [List.length_append]; exact hg'
        have := ih (F ++ d) false hg'' hW' (by simp)
        rw [List.append_assoc] at this
        refine ⟨this.1, ?_⟩
        have h2 := this.2
        rw [List.length_append (as := F)] at h2
        exact h2
      | eof =>
        obtain ⟨_, hg'⟩ := hg
        have hw : incEof (ustate F false) = .ok (ustate F true) := by
          unfold incEof
          rw [if_neg (by simp [ustate]), if_neg (by simp [ustate]), ho, Res.bind_ok]
          rfl
        simp only [runInc, hw]
        have hnd : allData ops = [] := noData_after_eof ops _ hg'
        exact ih F true hg' hW (fun _ => hnd)
      | read =>
        obtain ⟨hwin, hg'⟩ := hg
        have h41 : F.length < 41 := by
          rcases hwin rfl with h | h
          · exact h
          · omega
        have hr : readChunk (ustate F false) = .err .EAGAIN := by
          unfold readChunk
          rw [ho, Res.bind_ok, if_neg (by simp [ustate])]
          have : enoughData (ustate F false) 41 = .ok false := by
            unfold enoughData
            simp [ustate]; omega
          rw [this]
        simp only [runInc, hr]
        obtain ⟨⟨m, hm⟩, ht⟩ := ih F false hg' hW he
        refine ⟨⟨m, ?_⟩, ⟨rfl, by omega⟩, ht⟩
        rw [nonAgain_again]; exact hm

end Casync.Index
