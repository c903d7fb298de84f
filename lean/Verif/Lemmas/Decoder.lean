import Verif.Spec.Decoder
/-!
Feeding lemmas: parsing a prefix that is not enough changes nothing but what is known about the flags; parsing a prefix that is enough gives
what parsing more gives.
-/
namespace Casync.Archive
open Casync Flags

theorem word_append (i : Nat) (b x : Bytes) (h : 8 * i + 8 ≤ b.length) : word i (b ++ x) = word i b := by
  unfold word
  rw [List.drop_append_of_le_length (by omega), List.take_append_of_le_length (by rw [List.length_drop]; omega)]

theorem take_append_le (l : Nat) (b x : Bytes) (h : l ≤ b.length) : (b ++ x).take l = b.take l :=
  List.take_append_of_le_length h

/-- A second look at the feature flags of a record that was accepted. -/
theorem validateFeatureFlags_again {d d' : FF} {f : Word} (h : validateFeatureFlags d f = some d') :
    validateFeatureFlags d' f = some d' ∧ d'.ff = f ∧ d'.expected = d.expected ∧ d'.mask = d.mask := by
  unfold validateFeatureFlags at h
  by_cases h1 : (f == none64) = true
  · rw [if_pos h1] at h; cases h
  rw [if_neg h1] at h
  by_cases h2 : (d.expected != none64 && f != d.expected) = true
  · rw [if_pos h2] at h; cases h
  rw [if_neg h2] at h
  generalize hn : notNormalized f = nb at h
  cases nb
  · simp only [Bool.false_eq_true, if_false] at h
    have key : ∀ d'' : FF, d''.expected = d.expected → d''.ff = f → validateFeatureFlags d'' f = some d'' := by
      intro d'' e1 e2
      unfold validateFeatureFlags
      rw [if_neg h1, e1, if_neg h2, hn]
      simp only [Bool.false_eq_true, if_false]
      rw [e2, if_neg h1]
      simp
    by_cases h3 : (d.ff == none64) = true
    · rw [if_pos h3] at h
      split at h
      · injection h with h; subst h; exact ⟨key _ rfl rfl, rfl, rfl, rfl⟩
      · cases h
    · rw [if_neg h3] at h
      by_cases h4 : (d.ff != f) = true
      · rw [if_pos h4] at h; cases h
      · rw [if_neg h4] at h
        injection h with h; subst h
        have : d.ff = f := by simpa using h4
        exact ⟨key _ rfl this, this, rfl, rfl⟩
  · simp at h

theorem acceptEntry_again {d d' : FF} {e : Entry} (h : acceptEntry d e = .ok d') : acceptEntry d' e = .ok d' := by
  unfold acceptEntry at h
  cases hv : validateFeatureFlags d e.ff with
  | none => rw [hv] at h; cases h
  | some d1 =>
    rw [hv] at h
    have h1 := validateFeatureFlags_again hv
    have : d1 = d' := by
      simp only at h
      by_cases c1 : (!validateMode d1.ff e.mode e.flags) = true
      · rw [if_pos c1] at h; cases h
      by_cases c2 : (!validateEntryFlags d1.ff e.flags) = true
      · rw [if_neg c1, if_pos c2] at h; cases h
      by_cases c3 : (!validateUidGid d1.ff e.uid) = true
      · rw [if_neg c1, if_neg c2, if_pos c3] at h; cases h
      by_cases c4 : (!validateUidGid d1.ff e.gid) = true
      · rw [if_neg c1, if_neg c2, if_neg c3, if_pos c4] at h; cases h
      by_cases c5 : (!validateNsec d1.ff e.mtime) = true
      · rw [if_neg c1, if_neg c2, if_neg c3, if_neg c4, if_pos c5] at h; cases h
      by_cases c6 : ((e.ff &&& ~~~flagsMax) != 0#64) = true
      · rw [if_neg c1, if_neg c2, if_neg c3, if_neg c4, if_neg c5, if_pos c6] at h; cases h
      rw [if_neg c1, if_neg c2, if_neg c3, if_neg c4, if_neg c5, if_neg c6] at h
      exact Res.ok.inj h
    subst this
    unfold acceptEntry
    rw [h1.1]
    exact h

/-- The records after ENTRY do not change what is known about the flags. -/
theorem accept_ff {r : RType} {d d' : FF} {st st' : PSt} {body : Bytes} (hr : r ≠ .entry) (h : accept r d st body = .ok (d', st')) :
    d' = d ∧ st'.entry = st.entry := by
  cases r <;> first | exact absurd rfl hr | skip
  all_goals
    unfold accept at h
    simp only at h
    repeat' split at h
    all_goals first
      | cases h; done
      | (injection h with h; injection h with h1 h2; subst h1; subst h2; exact ⟨rfl, rfl⟩)

theorem accept_entry {d d' : FF} {st st' : PSt} {body : Bytes} (h : accept .entry d st body = .ok (d', st')) :
    acceptEntry d (readEntry body) = .ok d' ∧ st' = { st with entry := some (readEntry body) } := by
  unfold accept at h
  simp only at h
  cases ha : acceptEntry d (readEntry body) with
  | ok d1 =>
    rw [ha] at h
    have h := Res.ok.inj h
    injection h with h1 h2
    exact ⟨by rw [h1], h2.symm⟩
  | err e => rw [ha] at h; cases h
  | ub => rw [ha] at h; cases h

/-- One turn of the loop of `parseLoop`. -/
inductive One
  | request
  | err (e : Errno)
  | done (t : Term) (n : Nat)
  | more (d : FF) (st : PSt) (l : Nat)

def headRec (d : FF) (st : PSt) (buf : Bytes) : One :=
  if buf.length < 16 then .request
  else if word 0 buf < 16 then .err .EBADMSG
  else if word 0 buf == u64max then .err .EBADMSG
  else match rtype (word 1 buf) with
    | none => .err .EBADMSG
    | some r =>
      if !pre r st (word 0 buf) then .err .EBADMSG
      else if r == .payload then .done (.payload (word 0 buf - 16)) 16
      else if buf.length < word 0 buf then .request
      else if ends r then
        match acceptEnd r d.ff ((buf.take (word 0 buf)).drop 16) with
        | none => .err .EBADMSG
        | some t => .done t (termSize t)
      else match accept r d st ((buf.take (word 0 buf)).drop 16) with
        | .ok (d, st) => .more d st (word 0 buf)
        | .err e => .err e
        | .ub => .err .EBADMSG

theorem parseLoop_eq (d : FF) (st : PSt) (off : Nat) (buf : Bytes) :
    parseLoop d st off buf = match headRec d st buf with
      | .request => (d, .request)
      | .err e => (d, .err e)
      | .done t n => (d, .ok (st, t, off + n))
      | .more d' st' l => parseLoop d' st' (off + l) (buf.drop l) := by
  rw [parseLoop, headRec]
  by_cases h1 : buf.length < 16
  · rw [dif_pos h1, if_pos h1]
  rw [dif_neg h1, if_neg h1]
  simp only
  by_cases h2 : word 0 buf < 16
  · rw [dif_pos h2, if_pos h2]
  rw [dif_neg h2, if_neg h2]
  by_cases h3 : (word 0 buf == u64max) = true
  · rw [if_pos h3, if_pos h3]
  rw [if_neg h3, if_neg h3]
  cases rtype (word 1 buf) with
  | none => rfl
  | some r =>
    simp only
    by_cases h4 : (!pre r st (word 0 buf)) = true
    · rw [if_pos h4, if_pos h4]
    rw [if_neg h4, if_neg h4]
    by_cases h5 : (r == .payload) = true
    · rw [if_pos h5, if_pos h5]
    rw [if_neg h5, if_neg h5]
    by_cases h6 : buf.length < word 0 buf
    · rw [dif_pos h6, if_pos h6]
    rw [dif_neg h6, if_neg h6]
    by_cases h7 : ends r = true
    · rw [if_pos h7, if_pos h7]
      cases acceptEnd r d.ff ((buf.take (word 0 buf)).drop 16) <;> rfl
    · rw [if_neg h7, if_neg h7]
      cases accept r d st ((buf.take (word 0 buf)).drop 16) with
      | ok p => rfl
      | err e => rfl
      | ub => rfl

/-- More data does not change a decision. -/
theorem headRec_append (d : FF) (st : PSt) (b x : Bytes) (h : headRec d st b ≠ .request) : headRec d st (b ++ x) = headRec d st b := by
  unfold headRec at h ⊢
  by_cases h1 : b.length < 16
  · rw [if_pos h1] at h; exact absurd rfl h
  have h1' : ¬ (b ++ x).length < 16 := by rw [List.length_append]; omega
  rw [if_neg h1] at h ⊢
  rw [if_neg h1', word_append 0 b x (by omega), word_append 1 b x (by omega)]
  by_cases h2 : word 0 b < 16
  · rw [if_pos h2, if_pos h2]
  rw [if_neg h2] at h ⊢
  rw [if_neg h2]
  by_cases h3 : (word 0 b == u64max) = true
  · rw [if_pos h3, if_pos h3]
  rw [if_neg h3] at h ⊢
  rw [if_neg h3]
  cases hr : rtype (word 1 b) with
  | none => rfl
  | some r =>
    rw [hr] at h
    simp only at h ⊢
    by_cases h4 : (!pre r st (word 0 b)) = true
    · rw [if_pos h4, if_pos h4]
    rw [if_neg h4] at h ⊢
    rw [if_neg h4]
    by_cases h5 : (r == .payload) = true
    · rw [if_pos h5, if_pos h5]
    rw [if_neg h5] at h ⊢
    rw [if_neg h5]
    by_cases h6 : b.length < word 0 b
    · rw [if_pos h6] at h; exact absurd rfl h
    have h6' : ¬ (b ++ x).length < word 0 b := by rw [List.length_append]; omega
    rw [if_neg h6, if_neg h6', take_append_le _ _ _ (by omega)]

theorem headRec_more {d d' : FF} {st st' : PSt} {b : Bytes} {l : Nat} (h : headRec d st b = .more d' st' l) :
    l = word 0 b ∧ 16 ≤ l ∧ l ≤ b.length ∧
      ∃ r, rtype (word 1 b) = some r ∧ pre r st l = true ∧ ends r = false ∧ accept r d st ((b.take l).drop 16) = .ok (d', st') := by
  unfold headRec at h
  by_cases h1 : b.length < 16
  · rw [if_pos h1] at h; cases h
  rw [if_neg h1] at h
  by_cases h2 : word 0 b < 16
  · rw [if_pos h2] at h; cases h
  rw [if_neg h2] at h
  by_cases h3 : (word 0 b == u64max) = true
  · rw [if_pos h3] at h; cases h
  rw [if_neg h3] at h
  cases hr : rtype (word 1 b) with
  | none => rw [hr] at h; cases h
  | some r =>
    rw [hr] at h
    simp only at h
    by_cases h4 : (!pre r st (word 0 b)) = true
    · rw [if_pos h4] at h; cases h
    rw [if_neg h4] at h
    by_cases h5 : (r == .payload) = true
    · rw [if_pos h5] at h; cases h
    rw [if_neg h5] at h
    by_cases h6 : b.length < word 0 b
    · rw [if_pos h6] at h; cases h
    rw [if_neg h6] at h
    by_cases h7 : ends r = true
    · rw [if_pos h7] at h
      cases ha : acceptEnd r d.ff ((b.take (word 0 b)).drop 16) with
      | none => rw [ha] at h; cases h
      | some t => rw [ha] at h; cases h
    · rw [if_neg h7] at h
      cases ha : accept r d st ((b.take (word 0 b)).drop 16) with
      | ok p =>
        rw [ha] at h
        obtain ⟨p1, p2⟩ := p
        simp only at h
        injection h with e1 e2 e3
        subst e1; subst e2
        exact ⟨e3.symm, by omega, by omega, r, rfl, by rw [← e3]; simpa using h4, by simpa using h7, by rw [← e3]; exact ha⟩
      | err e => rw [ha] at h; cases h
      | ub => rw [ha] at h; cases h

theorem parseLoop_append (x : Bytes) : ∀ (n : Nat) (d : FF) (st : PSt) (off : Nat) (b : Bytes) (d' : FF) (r : Parse (PSt × Term × Nat)),
    b.length ≤ n → parseLoop d st off b = (d', r) → (∀ (h : r = .request), False) → parseLoop d st off (b ++ x) = (d', r) := by
  intro n
  induction n with
  | zero =>
    intro d st off b d' r hn h hr
    rw [parseLoop_eq] at h
    have : headRec d st b = .request := by unfold headRec; rw [if_pos (by omega)]
    rw [this] at h
    injection h with _ h; exact absurd h.symm (fun e => hr e)
  | succ n ih =>
    intro d st off b d' r hn h hr
    rw [parseLoop_eq] at h ⊢
    cases hh : headRec d st b with
    | request => rw [hh] at h; injection h with _ h; exact absurd h.symm (fun e => hr e)
    | err e => rw [headRec_append _ _ _ _ (by rw [hh]; simp), hh]; rw [hh] at h; exact h
    | done t k => rw [headRec_append _ _ _ _ (by rw [hh]; simp), hh]; rw [hh] at h; exact h
    | more d1 st1 l =>
      rw [headRec_append _ _ _ _ (by rw [hh]; simp), hh]
      rw [hh] at h
      simp only at h ⊢
      obtain ⟨_, hl1, hl2, _⟩ := headRec_more hh
      rw [List.drop_append_of_le_length hl2]
      exact ih d1 st1 (off + l) (b.drop l) d' r (by rw [List.length_drop]; omega) h hr

/-- Once ENTRY has been seen the flags are known. -/
theorem parseLoop_ff : ∀ (n : Nat) (d : FF) (st : PSt) (off : Nat) (b : Bytes), b.length ≤ n → st.entry.isSome = true →
    (parseLoop d st off b).1 = d := by
  intro n
  induction n with
  | zero =>
    intro d st off b hn _
    rw [parseLoop_eq]
    have : headRec d st b = .request := by unfold headRec; rw [if_pos (by omega)]
    rw [this]
  | succ n ih =>
    intro d st off b hn he
    rw [parseLoop_eq]
    cases hh : headRec d st b with
    | request => rfl
    | err e => rfl
    | done t k => rfl
    | more d1 st1 l =>
      simp only
      obtain ⟨_, hl1, hl2, r, _, hp, _, ha⟩ := headRec_more hh
      have hr : r ≠ .entry := by
        intro e; subst e
        unfold pre at hp
        simp only [Bool.and_eq_true] at hp
        rw [Option.isNone_iff_eq_none] at hp
        rw [hp.1] at he; simp at he
      obtain ⟨e1, e2⟩ := accept_ff hr ha
      rw [ih d1 st1 (off + l) (b.drop l) (by rw [List.length_drop]; omega) (by rw [e2]; exact he), e1]

theorem pre_first {r : RType} {st : PSt} {l : Nat} (he : st.entry = none) (hp : pre r st l = true) : r = .entry := by
  cases r <;> simp [pre, he] at hp ⊢

/-- After a request, a second try with more data sees what a first try with all of it sees. -/
theorem parseLoop_retry (st : PSt) (off : Nat) (b x : Bytes) (d d' : FF) (h : parseLoop d st off b = (d', .request)) :
    parseLoop d' st off (b ++ x) = parseLoop d st off (b ++ x) := by
  cases he : st.entry with
  | some e =>
    have := parseLoop_ff b.length d st off b (Nat.le_refl _) (by rw [he]; rfl)
    rw [h] at this
    simp only at this
    rw [this]
  | none =>
    rw [parseLoop_eq] at h
    cases hh : headRec d st b with
    | request => rw [hh] at h; injection h with h1 _; rw [h1]
    | err e => rw [hh] at h; injection h with _ h2; cases h2
    | done t k => rw [hh] at h; injection h with _ h2; cases h2
    | more d1 st1 l =>
      rw [hh] at h
      simp only at h
      obtain ⟨hl, hl1, hl2, r, hr, hp, hends, ha⟩ := headRec_more hh
      have hre := pre_first he hp
      subst hre
      obtain ⟨ha1, ha2⟩ := accept_entry ha
      have hff := parseLoop_ff (b.drop l).length d1 st1 (off + l) (b.drop l) (Nat.le_refl _) (by rw [ha2]; rfl)
      rw [h] at hff
      simp only at hff
      subst hff
      have hh' : headRec d' st b = headRec d st b := by
        rw [hh]
        have key : ∀ z, accept .entry z st ((b.take (word 0 b)).drop 16) = .ok (d', st1) → headRec z st b = .more d' st1 (word 0 b) := by
          intro z hz
          unfold headRec
          have n3 : ¬ (word 0 b == u64max) = true := by
            intro c
            unfold headRec at hh
            rw [if_neg (by omega), if_neg (by omega), if_pos c] at hh
            cases hh
          rw [if_neg (by omega), if_neg (by omega), if_neg n3, hr]
          simp only
          rw [← hl, hp, if_neg (by decide), if_neg (by decide), if_neg (by omega), if_neg (by decide), hl, hz]
        rw [key d', hl]
        rw [← hl]
        unfold accept
        simp only
        rw [acceptEntry_again ha1, ha2]
        rfl
      rw [parseLoop_eq d', parseLoop_eq d, headRec_append _ _ _ _ (by rw [hh', hh]; simp), hh',
        headRec_append _ _ _ _ (by rw [hh]; simp), hh]

theorem parseEntry_append {d d' : FF} {root : Bool} {b : Bytes} {r : Parse (Parsed × Nat)} (x : Bytes)
    (h : parseEntry d root b = (d', r)) (hr : r ≠ .request) : parseEntry d root (b ++ x) = (d', r) := by
  unfold parseEntry at h ⊢
  generalize hp : parseLoop d {} 0 b = p at h
  obtain ⟨d1, r1⟩ := p
  cases r1 with
  | request => simp only at h; injection h with _ h2; exact absurd h2.symm hr
  | err e => rw [parseLoop_append x b.length _ _ _ _ _ _ (Nat.le_refl _) hp (by intro c; cases c)]; exact h
  | ok a => rw [parseLoop_append x b.length _ _ _ _ _ _ (Nat.le_refl _) hp (by intro c; cases c)]; exact h

theorem parseEntry_retry {d d' : FF} {root : Bool} {b : Bytes} (x : Bytes) (h : parseEntry d root b = (d', .request)) :
    parseEntry d' root (b ++ x) = parseEntry d root (b ++ x) := by
  unfold parseEntry at h ⊢
  generalize hp : parseLoop d {} 0 b = p at h
  obtain ⟨d1, r1⟩ := p
  cases r1 with
  | request => simp only at h; injection h with h1 _; subst h1; rw [parseLoop_retry _ _ _ _ _ _ hp]
  | err e => simp only at h; injection h with _ h2; cases h2
  | ok a =>
    obtain ⟨st, t, off⟩ := a
    simp only at h
    cases hst : st.entry with
    | none => rw [hst] at h; injection h with _ h2; cases h2
    | some e =>
      rw [hst] at h
      simp only at h
      split at h
      · injection h with _ h2; cases h2
      · injection h with _ h2; cases h2

theorem parseDirRec_append {b : Bytes} (x : Bytes) (h : parseDirRec b ≠ .request) : parseDirRec (b ++ x) = parseDirRec b := by
  unfold parseDirRec at h ⊢
  by_cases h1 : b.length < 16
  · rw [if_pos h1] at h; exact absurd rfl h
  have h1' : ¬ (b ++ x).length < 16 := by rw [List.length_append]; omega
  rw [if_neg h1] at h ⊢
  rw [if_neg h1', word_append 0 b x (by omega), word_append 1 b x (by omega)]
  simp only at h ⊢
  by_cases h2 : word 0 b < 16
  · rw [if_pos h2, if_pos h2]
  rw [if_neg h2] at h ⊢
  rw [if_neg h2]
  by_cases h3 : (word 0 b == u64max) = true
  · rw [if_pos h3, if_pos h3]
  rw [if_neg h3] at h ⊢
  rw [if_neg h3]
  split at h
  · by_cases h4 : word 0 b < 17
    · rw [if_pos h4, if_pos h4]
    rw [if_neg h4] at h ⊢
    rw [if_neg h4]
    by_cases h5 : b.length < word 0 b
    · rw [if_pos h5] at h; exact absurd rfl h
    have h5' : ¬ (b ++ x).length < word 0 b := by rw [List.length_append]; omega
    rw [if_neg h5, if_neg h5', take_append_le _ _ _ (by omega)]
  · by_cases h4 : word 0 b < 40
    · rw [if_pos h4, if_pos h4]
    rw [if_neg h4] at h ⊢
    rw [if_neg h4]
    by_cases h5 : b.length < word 0 b
    · rw [if_pos h5] at h; exact absurd rfl h
    have h5' : ¬ (b ++ x).length < word 0 b := by rw [List.length_append]; omega
    rw [if_neg h5, if_neg h5', take_append_le _ _ _ (by omega)]
  · rfl

end Casync.Archive
