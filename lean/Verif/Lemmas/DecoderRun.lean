import Verif.Lemmas.Decoder
/-!
A session that gets the archive in pieces is simulated by one in which all of it is in the buffer from the start and in which the content of
files is delivered byte by byte.
-/
namespace Casync.Archive
open Casync Flags

theorem headRec_done {d : FF} {st : PSt} {b : Bytes} {t : Term} {k : Nat} (h : headRec d st b = .done t k) : k ≤ b.length := by
  unfold headRec at h
  by_cases h1 : b.length < 16
  · rw [if_pos h1] at h; cases h
  rw [if_neg h1] at h
  by_cases h2 : word 0 b < 16
  · rw [if_pos h2] at h; cases h
  rw [if_neg h2] at h
  by_cases h3 : (word 0 b == u64max) = true
  · rw [if_pos h3] at h; cases h
  rw [if_neg h3] at h
  cases hr : rtype (word 1 b) with
  | none => rw [hr] at h; cases h
  | some r =>
    rw [hr] at h
    simp only at h
    by_cases h4 : (!pre r st (word 0 b)) = true
    · rw [if_pos h4] at h; cases h
    rw [if_neg h4] at h
    by_cases h5 : (r == .payload) = true
    · rw [if_pos h5] at h
      injection h with _ e2
      omega
    rw [if_neg h5] at h
    by_cases h6 : b.length < word 0 b
    · rw [if_pos h6] at h; cases h
    rw [if_neg h6] at h
    by_cases h7 : ends r = true
    · rw [if_pos h7] at h
      have hlen : ((b.take (word 0 b)).drop 16).length = word 0 b - 16 := by
        rw [List.length_drop, List.length_take]; omega
      generalize hbody : (b.take (word 0 b)).drop 16 = body at h hlen
      cases ha : acceptEnd r d.ff body with
      | none => rw [ha] at h; cases h
      | some t' =>
        rw [ha] at h
        injection h with e1 e2
        subst e1
        have hk : termSize t' ≤ word 0 b := by
          have hp4 : pre r st (word 0 b) = true := by simpa using h4
          cases r <;> first | (exact absurd h7 (by decide)) | skip
          · unfold acceptEnd at ha
            simp only at ha
            split at ha
            · injection ha with ha; subst ha
              rename_i hv
              have : 2 ≤ body.length := by
                unfold validateTarget at hv
                by_cases c : body.length < 2
                · rw [if_pos c] at hv; simp at hv
                · omega
              simp only [termSize, List.length_dropLast]; omega
            · cases ha
          · unfold acceptEnd at ha
            simp only at ha
            split at ha
            · injection ha with ha; subst ha
              simp only [pre, Bool.and_eq_true, beq_iff_eq] at hp4
              simp only [termSize]; omega
            · cases ha
          · exact absurd rfl h5
          · unfold acceptEnd at ha
            simp only at ha
            split at ha
            · injection ha with ha; subst ha; exact Nat.zero_le _
            · cases ha
          · unfold acceptEnd at ha
            simp only at ha
            split at ha
            · injection ha with ha; subst ha; exact Nat.zero_le _
            · cases ha
        omega
    · rw [if_neg h7] at h
      cases ha : accept r d st ((b.take (word 0 b)).drop 16) with
      | ok p => rw [ha] at h; cases h
      | err e => rw [ha] at h; cases h
      | ub => rw [ha] at h; cases h

theorem parseLoop_off : ∀ (n : Nat) (d : FF) (st : PSt) (off : Nat) (b : Bytes) (d' : FF) (st' : PSt) (t : Term) (o : Nat),
    b.length ≤ n → parseLoop d st off b = (d', .ok (st', t, o)) → off ≤ o ∧ o ≤ off + b.length ∧ (off < o ∨ st'.entry = st.entry) := by
  intro n
  induction n with
  | zero =>
    intro d st off b d' st' t o hn h
    rw [parseLoop_eq] at h
    have : headRec d st b = .request := by unfold headRec; rw [if_pos (by omega)]
    rw [this] at h
    injection h with _ h; cases h
  | succ n ih =>
    intro d st off b d' st' t o hn h
    rw [parseLoop_eq] at h
    cases hh : headRec d st b with
    | request => rw [hh] at h; injection h with _ h; cases h
    | err e => rw [hh] at h; injection h with _ h; cases h
    | done t k =>
      rw [hh] at h
      injection h with _ h
      injection h with h
      injection h with h1 h2
      injection h2 with h2 h3
      have := headRec_done hh
      subst h1
      refine ⟨by omega, by omega, Or.inr rfl⟩
    | more d1 st1 l =>
      rw [hh] at h
      obtain ⟨_, hl1, hl2, _⟩ := headRec_more hh
      have := ih d1 st1 (off + l) (b.drop l) d' st' t o (by rw [List.length_drop]; omega) h
      rw [List.length_drop] at this
      omega

theorem parseEntry_off {d d' : FF} {root : Bool} {b : Bytes} {p : Parsed} {off : Nat} (h : parseEntry d root b = (d', .ok (p, off))) :
    0 < off ∧ off ≤ b.length := by
  unfold parseEntry at h
  generalize hp : parseLoop d {} 0 b = q at h
  obtain ⟨d1, r1⟩ := q
  cases r1 with
  | request => injection h with _ h; cases h
  | err e => injection h with _ h; cases h
  | ok a =>
    obtain ⟨st, t, o⟩ := a
    have := parseLoop_off b.length _ _ _ _ _ _ _ _ (Nat.le_refl _) hp
    simp only at h
    cases he : st.entry with
    | none => rw [he] at h; injection h with _ h; cases h
    | some e =>
      rw [he] at h this
      simp only at h
      split at h
      · injection h with _ h
        injection h with h
        injection h with _ h
        subst h
        simp at this
        omega
      · injection h with _ h; cases h

theorem parseDirRec_size {b : Bytes} {r : DirRec} {l : Nat} (h : parseDirRec b = .ok (r, l)) : 17 ≤ l ∧ l ≤ b.length := by
  unfold parseDirRec at h
  by_cases h1 : b.length < 16
  · rw [if_pos h1] at h; cases h
  rw [if_neg h1] at h
  simp only at h
  by_cases h2 : word 0 b < 16
  · rw [if_pos h2] at h; cases h
  rw [if_neg h2] at h
  by_cases h3 : (word 0 b == u64max) = true
  · rw [if_pos h3] at h; cases h
  rw [if_neg h3] at h
  split at h
  · by_cases h4 : word 0 b < 17
    · rw [if_pos h4] at h; cases h
    rw [if_neg h4] at h
    by_cases h5 : b.length < word 0 b
    · rw [if_pos h5] at h; cases h
    rw [if_neg h5] at h
    split at h
    · cases h
    · injection h with h; injection h with _ h; omega
  · by_cases h4 : word 0 b < 40
    · rw [if_pos h4] at h; cases h
    rw [if_neg h4] at h
    by_cases h5 : b.length < word 0 b
    · rw [if_pos h5] at h; cases h
    rw [if_neg h5] at h
    split at h
    · cases h
    · injection h with h; injection h with _ h; omega
  · cases h

/-- All of the archive in the buffer. -/
def full (d : Dec) (x : Bytes) : Dec := { d with buf := d.buf ++ x, eof := true }

theorem full_nil {d : Dec} (h : d.eof = true) : full d [] = d := by
  cases d; simp only at h; simp [full, h]

@[simp] theorem isNaked_full (d : Dec) (x : Bytes) : isNaked (full d x) = isNaked d := rfl
@[simp] theorem nodeMode_full (d : Dec) (x : Bytes) (n : DNode) : nodeMode (full d x) n = nodeMode d n := rfl
@[simp] theorem isNaked_enter (d : Dec) (s : DState) : isNaked (enterState d s) = isNaked d := rfl
@[simp] theorem nodeMode_enter (d : Dec) (s : DState) (n : DNode) : nodeMode (enterState d s) n = nodeMode d n := rfl
theorem enterState_full (d : Dec) (s : DState) (x : Bytes) : enterState (full d x) s = full (enterState d s) x := rfl

/-- What a step leaves alone. -/
structure Keeps (s s' : Dec) : Prop where
  cfg : s'.cfg = s.cfg
  eof : s'.eof = s.eof
  buf : s'.buf = s.buf
  size : s'.stepSize ≤ s'.buf.length

theorem stepFinalize_keeps (s : Dec) (h : s.stepSize = 0) : Keeps s (stepFinalize s).1 := by
  unfold stepFinalize
  split
  · exact ⟨rfl, rfl, rfl, by rw [h]; exact Nat.zero_le _⟩
  · split
    · exact ⟨rfl, rfl, rfl, Nat.zero_le _⟩
    · exact ⟨rfl, rfl, rfl, Nat.zero_le _⟩

/-- Where the payload of a file can be delivered: the state, and how much. -/
structure PayAt (s : Dec) (k : Nat) : Prop where
  state : s.state = .inPayload
  size0 : s.stepSize = 0
  len : k ≤ s.buf.length
  node : ∃ n rest m, s.nodes = n :: rest ∧ nodeMode s n = some m ∧ (isType m ifReg || isType m ifBlk) = true ∧
    ∀ sz, nodeSize n = some sz → s.payloadOff + k ≤ sz

/-- The result of `stepPayload`. -/
inductive PayRes (s : Dec) : Dec × Res Ev → Prop
  | err (e) : PayRes s (s, .err e)
  | crash : PayRes s (s, .ub)
  | doneFile : PayRes s (enterState s .finalize, .ok .doneFile)
  | finished : s.eof = true → PayRes s (enterState (enterState s .finalize) .eof, .ok .finished)
  | payload (k) : 0 < k → PayAt s k → PayRes s (setStep s k, .ok .payload)
  | request : PayRes s (s, .ok .request)
  | skip (k) : s.cfg.wantPayload = false → PayRes s (enterState (setSkip s k) .skipping, .ok .skip)

theorem stepPayload_res (s : Dec) (hs : s.state = .inPayload) (h0 : s.stepSize = 0) : PayRes s (stepPayload s) := by
  unfold stepPayload
  cases hn : s.nodes with
  | nil => exact .err _
  | cons n rest =>
    simp only
    cases hm : nodeMode s n with
    | none => exact .err _
    | some m =>
      simp only
      by_cases c1 : (!(isType m ifReg || isType m ifBlk)) = true
      · rw [if_pos c1]; exact .crash
      rw [if_neg c1]
      by_cases c2 : pastEnd n s.payloadOff = true
      · rw [if_pos c2]; exact .crash
      rw [if_neg c2]
      by_cases c3 : nodeSize n = some s.payloadOff
      · rw [if_pos c3]; exact .doneFile
      rw [if_neg c3]
      have c1' : (isType m ifReg || isType m ifBlk) = true := by
        cases hx : (isType m ifReg || isType m ifBlk) <;> simp_all
      by_cases c4 : s.buf ≠ []
      · rw [if_pos c4]
        have hpos : 0 < s.buf.length := List.length_pos_iff.2 c4
        cases hz : nodeSize n with
        | none =>
          exact .payload s.buf.length hpos ⟨hs, h0, Nat.le_refl _, n, rest, m, hn, hm, c1', by intro sz h; rw [hz] at h; cases h⟩
        | some z =>
          unfold pastEnd at c2
          rw [hz] at c2 c3
          simp only [decide_eq_true_eq] at c2
          have c3' : z ≠ s.payloadOff := fun e => c3 (by rw [e])
          refine .payload (min s.buf.length (z - s.payloadOff)) (by omega) ⟨hs, h0, Nat.min_le_left _ _, n, rest, m, hn, hm, c1', ?_⟩
          intro sz h
          rw [hz] at h
          injection h with h
          subst h
          have := Nat.min_le_right s.buf.length (z - s.payloadOff)
          omega
      · rw [if_neg c4]
        by_cases c5 : s.eof = true
        · rw [if_pos c5]
          by_cases c6 : (nodeSize n).isSome = true
          · rw [if_pos c6]; exact .err _
          rw [if_neg c6]
          by_cases c7 : rest ≠ []
          · rw [if_pos c7]; exact .err _
          rw [if_neg c7]
          by_cases c8 : isNaked s = true
          · rw [if_pos c8]
            have hr : rest = [] := by simpa using c7
            have : stepFinalize (enterState s .finalize) = (enterState (enterState s .finalize) .eof, .ok .finished) := by
              unfold stepFinalize
              have : (enterState s .finalize).nodes = [n] := by show s.nodes = _; rw [hn, hr]
              rw [this]
              exact if_pos (Nat.zero_le _)
            rw [this]
            exact .finished c5
          · rw [if_neg c8]; exact .doneFile
        · rw [if_neg c5]
          cases hz : nodeSize n with
          | none => exact .request
          | some z =>
            simp only
            by_cases c9 : (!s.cfg.wantPayload) = true
            · rw [if_pos c9]; exact .skip _ (by simpa using c9)
            · rw [if_neg c9]; exact .request

theorem stepPayload_keeps (s : Dec) (hs : s.state = .inPayload) (h : s.stepSize = 0) : Keeps s (stepPayload s).1 := by
  have hr := stepPayload_res s hs h
  generalize stepPayload s = p at hr
  cases hr with
  | err => exact ⟨rfl, rfl, rfl, by rw [h]; exact Nat.zero_le _⟩
  | crash => exact ⟨rfl, rfl, rfl, by rw [h]; exact Nat.zero_le _⟩
  | request => exact ⟨rfl, rfl, rfl, by rw [h]; exact Nat.zero_le _⟩
  | doneFile => exact ⟨rfl, rfl, rfl, Nat.zero_le _⟩
  | finished => exact ⟨rfl, rfl, rfl, Nat.zero_le _⟩
  | skip => exact ⟨rfl, rfl, rfl, Nat.zero_le _⟩
  | payload k hk ha => exact ⟨rfl, rfl, rfl, ha.len⟩

/-- Nothing is known of the root before its ENTRY record was seen. -/
def InitOK (s : Dec) : Prop := s.state = .init → ∀ n ∈ s.nodes, n.parsed = none

/-- How a step of a decoder that has seen the first bytes relates to one of a decoder that has all of them. -/
inductive Sim (s : Dec) (x : Bytes) (f : Dec → Dec × Res Ev) : Dec × Res Ev → Prop
  | same {s' r} : s'.buf = s.buf → s'.eof = s.eof → s'.cfg = s.cfg → s'.stepSize ≤ s'.buf.length → InitOK s' → r ≠ .ok .request →
      r ≠ .ok .payload → r ≠ .ok .skip → f (full s x) = (full s' x, r) → Sim s x f (s', r)
  | request {s'} : s'.buf = s.buf → s'.eof = s.eof → s'.cfg = s.cfg → s'.stepSize = 0 → InitOK s' →
      stepNode (full s' x) = f (full s x) → Sim s x f (s', .ok .request)
  | payload {q k} : q.buf = s.buf → q.eof = s.eof → q.cfg = s.cfg → 0 < k → PayAt q k → f (full s x) = stepPayload (full q x) →
      Sim s x f (setStep q k, .ok .payload)

theorem stepPayload_sim (s : Dec) (x : Bytes) (he : s.eof = false ∨ x = []) (h0 : s.stepSize = 0) (hs : s.state = .inPayload)
    (hw : s.cfg.wantPayload = true) : Sim s x stepPayload (stepPayload s) := by
  have hI : InitOK s := fun h => by rw [hs] at h; cases h
  have hsz : s.stepSize ≤ s.buf.length := by rw [h0]; exact Nat.zero_le _
  have hF : ∀ t : Dec, t.state ≠ .init → InitOK t := fun t h h' => absurd h' h
  have hres := stepPayload_res s hs h0
  conv => arg 4; unfold stepPayload
  cases hn : s.nodes with
  | nil =>
    refine .same rfl rfl rfl hsz hI (by simp) (by simp) (by simp) ?_
    unfold stepPayload; rw [show (full s x).nodes = s.nodes from rfl, hn]
  | cons n rest =>
    have hu : stepPayload (full s x) = stepPayload (full s x) := rfl
    conv at hu => rhs; unfold stepPayload
    rw [show (full s x).nodes = s.nodes from rfl, hn] at hu
    simp only [nodeMode_full] at hu
    simp only
    cases hm : nodeMode s n with
    | none =>
      rw [hm] at hu
      exact .same rfl rfl rfl hsz hI (by simp) (by simp) (by simp) hu
    | some m =>
      rw [hm] at hu
      simp only at hu ⊢
      by_cases c1 : (!(isType m ifReg || isType m ifBlk)) = true
      · rw [if_pos c1] at hu ⊢
        exact .same rfl rfl rfl hsz hI (by simp) (by simp) (by simp) hu
      rw [if_neg c1] at hu ⊢
      rw [show (full s x).payloadOff = s.payloadOff from rfl] at hu
      by_cases c2 : pastEnd n s.payloadOff = true
      · rw [if_pos c2] at hu ⊢
        exact .same rfl rfl rfl hsz hI (by simp) (by simp) (by simp) hu
      rw [if_neg c2] at hu ⊢
      by_cases c3 : nodeSize n = some s.payloadOff
      · rw [if_pos c3] at hu ⊢
        exact .same rfl rfl rfl (Nat.zero_le _) (hF _ (by simp [enterState])) (by simp) (by simp) (by simp) hu
      rw [if_neg c3] at hu ⊢
      have c1' : (isType m ifReg || isType m ifBlk) = true := by
        cases hx : (isType m ifReg || isType m ifBlk) <;> simp_all
      by_cases c4 : s.buf ≠ []
      · rw [if_pos c4]
        have hpos : 0 < s.buf.length := List.length_pos_iff.2 c4
        cases hz : nodeSize n with
        | none =>
          exact .payload rfl rfl rfl hpos ⟨hs, h0, Nat.le_refl _, n, rest, m, hn, hm, c1', by intro sz h; rw [hz] at h; cases h⟩ rfl
        | some z =>
          unfold pastEnd at c2
          rw [hz] at c2 c3
          simp only [decide_eq_true_eq] at c2
          have c3' : z ≠ s.payloadOff := fun e => c3 (by rw [e])
          refine .payload rfl rfl rfl (by omega) ⟨hs, h0, Nat.min_le_left _ _, n, rest, m, hn, hm, c1', ?_⟩ rfl
          intro sz h
          rw [hz] at h
          injection h with h
          subst h
          have := Nat.min_le_right s.buf.length (z - s.payloadOff)
          omega
      · rw [if_neg c4]
        have hx : s.eof = true → full s x = s := by
          intro h
          rcases he with he | he
          · rw [he] at h; cases h
          · rw [he]; exact full_nil h
        have hx' : ∀ t : Dec, t.eof = true → s.eof = true → full t x = t := by
          intro t h h2
          rcases he with he | he
          · rw [he] at h2; cases h2
          · rw [he]; exact full_nil h
        by_cases c5 : s.eof = true
        · rw [if_pos c5]
          rw [if_neg (by rw [hx c5]; exact c4), if_pos (by rw [hx c5]; exact c5)] at hu
          by_cases c6 : (nodeSize n).isSome = true
          · rw [if_pos c6] at hu ⊢
            exact .same rfl rfl rfl hsz hI (by simp) (by simp) (by simp) hu
          rw [if_neg c6] at hu ⊢
          by_cases c7 : rest ≠ []
          · rw [if_pos c7] at hu ⊢
            exact .same rfl rfl rfl hsz hI (by simp) (by simp) (by simp) hu
          rw [if_neg c7] at hu ⊢
          by_cases c8 : isNaked s = true
          · rw [if_pos c8]
            rw [if_pos (by rw [hx c5]; exact c8)] at hu
            have hr : rest = [] := by simpa using c7
            have h1 : stepFinalize (enterState s .finalize) = (enterState (enterState s .finalize) .eof, .ok .finished) := by
              unfold stepFinalize
              have : (enterState s .finalize).nodes = [n] := by show s.nodes = _; rw [hn, hr]
              rw [this]
              exact if_pos (Nat.zero_le _)
            rw [h1]
            rw [hx c5, h1] at hu
            refine .same rfl rfl rfl (Nat.zero_le _) (hF _ (by simp [enterState])) (by simp) (by simp) (by simp) ?_
            rw [hx c5, hu, hx' _ (by exact c5) c5]
          · rw [if_neg c8]
            rw [if_neg (by rw [hx c5]; exact c8)] at hu
            exact .same rfl rfl rfl (Nat.zero_le _) (hF _ (by simp [enterState])) (by simp) (by simp) (by simp) hu
        rw [if_neg c5]
        have hreq : Sim s x stepPayload (s, .ok .request) := .request rfl rfl rfl h0 hI (by
          unfold stepNode
          rw [show (full s x).state = .inPayload from hs])
        cases hz : nodeSize n with
        | none => exact hreq
        | some z =>
          simp only
          rw [if_neg (by rw [hw]; simp)]
          exact hreq

theorem stepDirectory_sim (s : Dec) (x : Bytes) (h0 : s.stepSize = 0) (hs : s.state = .inDirectory) :
    Sim s x stepDirectory (stepDirectory s) := by
  have hI : InitOK s := fun h => by rw [hs] at h; cases h
  have hsz : s.stepSize ≤ s.buf.length := by rw [h0]; exact Nat.zero_le _
  have hF : ∀ t : Dec, t.state ≠ .init → InitOK t := fun t h h' => absurd h' h
  have hu : stepDirectory (full s x) = stepDirectory (full s x) := rfl
  conv at hu => rhs; unfold stepDirectory
  conv => arg 4; unfold stepDirectory
  rw [show (full s x).nodes = s.nodes from rfl] at hu
  cases hn : s.nodes with
  | nil =>
    rw [hn] at hu
    exact .same rfl rfl rfl hsz hI (by simp) (by simp) (by simp) hu
  | cons n rest =>
    rw [hn] at hu
    simp only [nodeMode_full] at hu
    simp only
    cases hm : nodeMode s n with
    | none =>
      rw [hm] at hu
      exact .same rfl rfl rfl hsz hI (by simp) (by simp) (by simp) hu
    | some m =>
      rw [hm] at hu
      simp only at hu ⊢
      by_cases c1 : (!isType m ifDir) = true
      · rw [if_pos c1] at hu ⊢
        exact .same rfl rfl rfl hsz hI (by simp) (by simp) (by simp) hu
      rw [if_neg c1] at hu ⊢
      rw [show (full s x).buf = s.buf ++ x from rfl] at hu
      cases hp : parseDirRec s.buf with
      | request =>
        refine .request rfl rfl rfl h0 hI ?_
        unfold stepNode
        rw [show (full s x).state = .inDirectory from hs]
      | err e =>
        rw [parseDirRec_append x (by rw [hp]; simp), hp] at hu
        exact .same rfl rfl rfl hsz hI (by simp) (by simp) (by simp) hu
      | ok a =>
        obtain ⟨r, l⟩ := a
        have hl := parseDirRec_size hp
        rw [parseDirRec_append x (by rw [hp]; simp), hp] at hu
        cases r with
        | filename name =>
          simp only at hu ⊢
          by_cases c2 : (n :: rest).length ≥ nodesMax
          · rw [if_pos c2] at hu ⊢
            exact .same rfl rfl rfl hsz hI (by simp) (by simp) (by simp) hu
          · rw [if_neg c2] at hu ⊢
            exact .same rfl rfl rfl hl.2 (hF _ (by simp [enterState, setStep])) (by simp) (by simp) (by simp) hu
        | goodbye tb eo =>
          simp only at hu ⊢
          rw [show (full s x).archiveOff = s.archiveOff from rfl] at hu
          by_cases c2 : eo ≠ s.archiveOff - n.entryOff
          · rw [if_pos c2] at hu ⊢
            exact .same rfl rfl rfl hsz hI (by simp) (by simp) (by simp) hu
          · rw [if_neg c2] at hu ⊢
            exact .same rfl rfl rfl hl.2 (hF _ (by simp [enterState, setStep])) (by simp) (by simp) (by simp) hu

theorem stepParse_sim (s : Dec) (x : Bytes) (h0 : s.stepSize = 0) (hs : (s.state = .init ∧ isNaked s = false) ∨ s.state = .entered)
    (hI : InitOK s) : Sim s x stepParse (stepParse s) := by
  have hsz : s.stepSize ≤ s.buf.length := by rw [h0]; exact Nat.zero_le _
  have hF : ∀ t : Dec, t.state ≠ .init → InitOK t := fun t h h' => absurd h' h
  have hu : stepParse (full s x) = stepParse (full s x) := rfl
  conv at hu => rhs; unfold stepParse
  conv => arg 4; unfold stepParse
  rw [show (full s x).nodes = s.nodes from rfl] at hu
  cases hn : s.nodes with
  | nil =>
    rw [hn] at hu
    exact .same rfl rfl rfl hsz hI (by simp) (by simp) (by simp) hu
  | cons n rest =>
    rw [hn] at hu
    simp only
    simp only at hu
    rw [show (full s x).ff = s.ff from rfl, show (full s x).buf = s.buf ++ x from rfl] at hu
    generalize hp : parseEntry s.ff (rest == []) s.buf = p
    obtain ⟨ff, r⟩ := p
    have hIe : ∀ st' : Dec, st'.state = s.state → st'.nodes = { n with parsed := none } :: rest → InitOK st' := by
      intro st' h1 h2 h3 m hm
      rw [h2] at hm
      rcases List.mem_cons.1 hm with rfl | hm
      · rfl
      · exact hI (by rw [← h1]; exact h3) m (by rw [hn]; exact List.mem_cons_of_mem _ hm)
    cases r with
    | request =>
      simp only
      refine .request rfl rfl rfl h0 (hIe _ rfl rfl) ?_
      have hr := parseEntry_retry x hp
      have hst : stepNode (full { s with ff := ff, nodes := { n with parsed := none } :: rest } x) =
          stepParse (full { s with ff := ff, nodes := { n with parsed := none } :: rest } x) := by
        rcases hs with ⟨hs, hk⟩ | hs
        · unfold stepNode
          rw [show (full { s with ff := ff, nodes := { n with parsed := none } :: rest } x).state = .init from hs]
          simp only
          rw [if_neg]
          have hnp : n.parsed = none := hI hs n (by rw [hn]; exact List.mem_cons_self)
          have : isNaked (full { s with ff := ff, nodes := { n with parsed := none } :: rest } x) = isNaked s := by
            unfold isNaked
            simp only [full, hn, hnp]
            rfl
          rw [this, hk]; simp
        · unfold stepNode
          rw [show (full { s with ff := ff, nodes := { n with parsed := none } :: rest } x).state = .entered from hs]
      have hv : stepParse (full { s with ff := ff, nodes := { n with parsed := none } :: rest } x) =
          stepParse (full { s with ff := ff, nodes := { n with parsed := none } :: rest } x) := rfl
      conv at hv => rhs; unfold stepParse
      rw [show (full { s with ff := ff, nodes := { n with parsed := none } :: rest } x).nodes = { n with parsed := none } :: rest from rfl,
        show (full { s with ff := ff, nodes := { n with parsed := none } :: rest } x).ff = ff from rfl,
        show (full { s with ff := ff, nodes := { n with parsed := none } :: rest } x).buf = s.buf ++ x from rfl] at hv
      simp only at hv
      rw [hr] at hv
      rw [hst, hu, hv]
      rfl
    | err e =>
      rw [parseEntry_append x hp (by simp)] at hu
      exact .same rfl rfl rfl hsz (hIe _ rfl rfl) (by simp) (by simp) (by simp) hu
    | ok a =>
      obtain ⟨pp, off⟩ := a
      have := parseEntry_off hp
      rw [parseEntry_append x hp (by simp)] at hu
      exact .same rfl rfl rfl this.2 (hF _ (by simp [enterState, setStep])) (by simp) (by simp) (by simp) hu

theorem Sim.mono {s s1 : Dec} {x : Bytes} {f g : Dec → Dec × Res Ev} {p : Dec × Res Ev} (h : Sim s1 x g p) (hb : s1.buf = s.buf)
    (he : s1.eof = s.eof) (hc : s1.cfg = s.cfg) (hfg : f (full s x) = g (full s1 x)) : Sim s x f p := by
  cases h with
  | same a1 a2 a3 a4 a5 a6 a7 a8 a9 => exact .same (a1.trans hb) (a2.trans he) (a3.trans hc) a4 a5 a6 a7 a8 (hfg.trans a9)
  | request a1 a2 a3 a4 a5 a6 => exact .request (a1.trans hb) (a2.trans he) (a3.trans hc) a4 a5 (a6.trans hfg.symm)
  | payload a1 a2 a3 a4 a5 a6 => exact .payload (a1.trans hb) (a2.trans he) (a3.trans hc) a4 a5 (hfg.trans a6)

theorem stepFinalize_sim (s : Dec) (x : Bytes) (h0 : s.stepSize = 0) (hs : s.state ≠ .init) : Sim s x stepFinalize (stepFinalize s) := by
  have hI : InitOK s := fun h => absurd h hs
  have hsz : s.stepSize ≤ s.buf.length := by rw [h0]; exact Nat.zero_le _
  have hF : ∀ t : Dec, t.state ≠ .init → InitOK t := fun t h h' => absurd h' h
  have hu : stepFinalize (full s x) = stepFinalize (full s x) := rfl
  conv at hu => rhs; unfold stepFinalize
  conv => arg 4; unfold stepFinalize
  rw [show (full s x).nodes = s.nodes from rfl] at hu
  split
  · rename_i hn; rw [hn] at hu
    exact .same rfl rfl rfl hsz hI (by simp) (by simp) (by simp) hu
  · rename_i a r hn; rw [hn] at hu
    by_cases c : r.length ≤ s.cfg.boundary
    · rw [if_pos c]
      simp only [show (full s x).cfg = s.cfg from rfl, if_pos c] at hu
      exact .same rfl rfl rfl (Nat.zero_le _) (hF _ (by simp [enterState])) (by simp) (by simp) (by simp) hu
    · rw [if_neg c]
      simp only [show (full s x).cfg = s.cfg from rfl, if_neg c] at hu
      exact .same rfl rfl rfl (Nat.zero_le _) (hF _ (by simp [enterState])) (by simp) (by simp) (by simp) hu

theorem stepNode_sim (s : Dec) (x : Bytes) (he : s.eof = false ∨ x = []) (h0 : s.stepSize = 0) (hw : s.cfg.wantPayload = true) (hI : InitOK s) :
    Sim s x stepNode (stepNode s) := by
  have hsz : s.stepSize ≤ s.buf.length := by rw [h0]; exact Nat.zero_le _
  have hF : ∀ t : Dec, t.state ≠ .init → InitOK t := fun t h h' => absurd h' h
  have hu : stepNode (full s x) = stepNode (full s x) := rfl
  conv at hu => rhs; unfold stepNode
  rw [show (full s x).state = s.state from rfl] at hu
  conv => arg 4; unfold stepNode
  cases hs : s.state with
  | init =>
    rw [hs] at hu
    simp only at hu ⊢
    cases hk : isNaked s with
    | true =>
      rw [if_pos (by rw [isNaked_full, hk])] at hu
      rw [if_pos rfl]
      exact (stepPayload_sim (enterState s .inPayload) x he rfl rfl hw).mono rfl rfl rfl hu
    | false =>
      rw [if_neg (by rw [isNaked_full, hk]; simp)] at hu
      rw [if_neg (by simp)]
      exact (stepParse_sim s x h0 (Or.inl ⟨hs, hk⟩) hI).mono rfl rfl rfl hu
  | entered =>
    rw [hs] at hu
    exact (stepParse_sim s x h0 (Or.inr hs) hI).mono rfl rfl rfl hu
  | entry =>
    rw [hs] at hu
    simp only at hu ⊢
    rw [show (full s x).nodes = s.nodes from rfl] at hu
    cases hn : s.nodes with
    | nil =>
      rw [hn] at hu
      exact .same rfl rfl rfl hsz hI (by simp) (by simp) (by simp) hu
    | cons n rest =>
      rw [hn] at hu
      simp only [nodeMode_full] at hu
      simp only
      cases hm : nodeMode s n with
      | none =>
        rw [hm] at hu
        exact .same rfl rfl rfl hsz hI (by simp) (by simp) (by simp) hu
      | some m =>
        rw [hm] at hu
        simp only at hu ⊢
        by_cases c1 : isType m ifReg = true
        · rw [if_pos c1] at hu ⊢
          exact (stepPayload_sim (enterState s .inPayload) x he rfl rfl hw).mono rfl rfl rfl hu
        rw [if_neg c1] at hu ⊢
        by_cases c2 : isType m ifDir = true
        · rw [if_pos c2] at hu ⊢
          exact (stepDirectory_sim (enterState s .inDirectory) x rfl rfl).mono rfl rfl rfl hu
        rw [if_neg c2] at hu ⊢
        exact .same rfl rfl rfl (Nat.zero_le _) (hF _ (by simp [enterState])) (by simp) (by simp) (by simp) hu
  | inPayload =>
    rw [hs] at hu
    exact (stepPayload_sim s x he h0 hs hw).mono rfl rfl rfl hu
  | skipping =>
    rw [hs] at hu
    exact .same rfl rfl rfl (Nat.zero_le _) (hF _ (by simp [enterState])) (by simp) (by simp) (by simp) hu
  | inDirectory =>
    rw [hs] at hu
    exact (stepDirectory_sim s x h0 hs).mono rfl rfl rfl hu
  | goodbye =>
    rw [hs] at hu
    exact .same rfl rfl rfl (Nat.zero_le _) (hF _ (by simp [enterState])) (by simp) (by simp) (by simp) hu
  | finalize =>
    rw [hs] at hu
    exact (stepFinalize_sim s x h0 (by rw [hs]; simp)).mono rfl rfl rfl hu
  | eof =>
    rw [hs] at hu
    exact .same rfl rfl rfl hsz hI (by simp) (by simp) (by simp) hu

end Casync.Archive
