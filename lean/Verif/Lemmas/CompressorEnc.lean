import Verif.Lemmas.CompressorLoad
/-!
Lemmas for C61: compressing.
-/
namespace Casync.Stream
open Casync

section
variable {σ : Type} {L : Lib σ} {fmt : Format} {At : Kind → σ → Bytes → Bytes → Option Bytes → Prop}

/-- What has been said to the encoder goes with what is going to be said to it. -/
structure Told (k : Kind) (pending : Bytes) (f : Option Bytes) : Prop where
  same : f = none ∨ f = some pending
  zstd : k = .zstd → pending ≠ [] → f = none

theorem encode_run (hL : Encodes L fmt At) (c : Ctx σ) (k : Kind) (hk : c.kind = k) (d z : Bytes) (ha : At k c.state d z none) (hi : c.pending ≠ [])
    (fin : Bool) (hact : action c fin = .ok false) :
    (encode L c fin = .err .EIO ∧ ¬ NeverBad L) ∨
    (∃ r out c' m, encode L c fin = .ok (r, out, c') ∧ c'.kind = k ∧ c'.pending = c.pending.drop m ∧ m ≤ c.pending.length ∧
      At k c'.state (d ++ c.pending.take m) (z ++ out) none ∧ (0 < m ∨ out ≠ []) ∧
      (r = .more ∧ c'.pending ≠ [] ∨ r = .good ∧ c'.pending = [])) := by
  have h := hL.run k c.state d z c.pending BLOCK ha hi (by decide)
  have hb : NeverBad L → (L.encode c.state false c.pending BLOCK).answer ≠ .bad := fun h => h _ _ _ _
  unfold encode
  rw [hact]
  simp only [Res.bind_ok, Res.pure_eq]
  generalize L.encode c.state false c.pending BLOCK = s at *
  cases hs : s.answer with
  | bad => exact .inl ⟨rfl, fun h' => hb h' hs⟩
  | fin => exact absurd hs h.2.1
  | more =>
    refine .inr ?_
    obtain ⟨h1, h2⟩ := h.2.2 hs
    by_cases hr : (c.pending.drop s.used).length > 0
    · refine ⟨.more, s.out, ⟨c.kind, s.next, c.pending.drop s.used⟩, s.used, ?_, hk, rfl, h.1, h1, h2, .inl ⟨rfl, List.length_pos_iff.1 hr⟩⟩
      simp only [encodeRet, if_pos hr, Res.bind_ok]
    · refine ⟨.good, s.out, ⟨c.kind, s.next, c.pending.drop s.used⟩, s.used, ?_, hk, rfl, h.1, h1, h2,
        .inr ⟨rfl, List.length_eq_zero_iff.1 (Nat.eq_zero_of_not_pos hr)⟩⟩
      simp only [encodeRet, if_neg hr, Res.bind_ok]

theorem encode_finish (hL : Encodes L fmt At) (c : Ctx σ) (k : Kind) (hk : c.kind = k) (d z : Bytes) (f : Option Bytes) (ha : At k c.state d z f)
    (hf : f = none ∨ f = some c.pending) (hzs : k = .zstd → c.pending = []) (hact : action c true = .ok true) :
    (encode L c true = .err .EIO ∧ ¬ NeverBad L) ∨
    (∃ out c', encode L c true = .ok (.eof, out, c') ∧ fmt k (z ++ out) (d ++ c.pending)) ∨
    (∃ r out c' m f', encode L c true = .ok (r, out, c') ∧ c'.kind = k ∧ c'.pending = c.pending.drop m ∧ m ≤ c.pending.length ∧
      At k c'.state (d ++ c.pending.take m) (z ++ out) f' ∧ Told k c'.pending f' ∧ (0 < m ∨ out ≠ []) ∧
      (r = .more ∧ c'.pending ≠ [] ∨ r = .good ∧ c'.pending = [])) := by
  have h := hL.finish k c.state d z f c.pending BLOCK ha hf (by decide)
  have hb : NeverBad L → (L.encode c.state true c.pending BLOCK).answer ≠ .bad := fun h => h _ _ _ _
  unfold encode
  rw [hact]
  simp only [Res.bind_ok, Res.pure_eq]
  generalize L.encode c.state true c.pending BLOCK = s at *
  cases hs : s.answer with
  | bad => exact .inl ⟨rfl, fun h' => hb h' hs⟩
  | fin =>
    refine .inr (.inl ?_)
    obtain ⟨h1, h2⟩ := h.2.1 hs
    have hr : ¬ (c.pending.drop s.used).length > 0 := by rw [List.length_drop]; omega
    refine ⟨s.out, ⟨c.kind, s.next, c.pending.drop s.used⟩, ?_, h2⟩
    cases hkk : c.kind <;> simp only [encodeRet, if_neg hr, Res.bind_ok]
  | more =>
    refine .inr (.inr ?_)
    obtain ⟨h1, h2⟩ := h.2.2 hs
    have htold : Told k (c.pending.drop s.used) (some (c.pending.drop s.used)) :=
      ⟨.inr rfl, fun hz hn => absurd (by rw [hzs hz]; exact List.drop_nil) hn⟩
    by_cases hr : (c.pending.drop s.used).length > 0
    · refine ⟨.more, s.out, ⟨c.kind, s.next, c.pending.drop s.used⟩, s.used, _, ?_, hk, rfl, h.1, h1, htold, h2,
        .inl ⟨rfl, List.length_pos_iff.1 hr⟩⟩
      simp only [encodeRet, if_pos hr, Res.bind_ok]
    · refine ⟨.good, s.out, ⟨c.kind, s.next, c.pending.drop s.used⟩, s.used, _, ?_, hk, rfl, h.1, h1, htold, h2,
        .inr ⟨rfl, List.length_eq_zero_iff.1 (Nat.eq_zero_of_not_pos hr)⟩⟩
      simp only [encodeRet, if_neg hr, Res.bind_ok]

/-- What one call of `compressor_encode` comes to, told to finish. -/
theorem encode_true (hL : Encodes L fmt At) (c : Ctx σ) (k : Kind) (hk : c.kind = k) (d z : Bytes) (f : Option Bytes) (ha : At k c.state d z f)
    (hf : Told k c.pending f) :
    (encode L c true = .err .EIO ∧ ¬ NeverBad L) ∨
    (∃ out c', encode L c true = .ok (.eof, out, c') ∧ fmt k (z ++ out) (d ++ c.pending)) ∨
    (∃ r out c' m f', encode L c true = .ok (r, out, c') ∧ c'.kind = k ∧ c'.pending = c.pending.drop m ∧ m ≤ c.pending.length ∧
      At k c'.state (d ++ c.pending.take m) (z ++ out) f' ∧ Told k c'.pending f' ∧ (0 < m ∨ out ≠ []) ∧
      (r = .more ∧ c'.pending ≠ [] ∨ r = .good ∧ c'.pending = [])) := by
  by_cases hz : k = .zstd
  · by_cases hp : c.pending = []
    · refine encode_finish hL c k hk d z f ha hf.same (fun _ => hp) ?_
      unfold action
      rw [hk, hz]
      simp only
      rw [if_neg (by rw [hp]; simp), if_pos trivial]
    · have hfn := hf.zstd hz hp
      rw [hfn] at ha
      have hact : action c true = .ok false := by
        unfold action
        rw [hk, hz]
        simp only
        rw [if_pos (List.length_pos_iff.2 hp)]
      rcases encode_run hL c k hk d z ha hp true hact with h | ⟨r, out, c', m, h1, h2, h3, h4, h5, h6, h7⟩
      · exact .inl h
      · exact .inr (.inr ⟨r, out, c', m, none, h1, h2, h3, h4, h5, ⟨.inl rfl, fun _ _ => rfl⟩, h6, h7⟩)
  · refine encode_finish hL c k hk d z f ha hf.same (fun h => absurd h hz) ?_
    unfold action
    rw [hk]
    cases k with
    | xz => rfl
    | gzip => rfl
    | zstd => exact absurd rfl hz

/-- The same, not told to finish. -/
theorem encode_false (hL : Encodes L fmt At) (c : Ctx σ) (k : Kind) (hk : c.kind = k) (d z : Bytes) (ha : At k c.state d z none)
    (hi : c.pending ≠ []) :
    (encode L c false = .err .EIO ∧ ¬ NeverBad L) ∨
    (∃ r out c' m, encode L c false = .ok (r, out, c') ∧ c'.kind = k ∧ c'.pending = c.pending.drop m ∧ m ≤ c.pending.length ∧
      At k c'.state (d ++ c.pending.take m) (z ++ out) none ∧ (0 < m ∨ out ≠ []) ∧
      (r = .more ∧ c'.pending ≠ [] ∨ r = .good ∧ c'.pending = [])) := by
  refine encode_run hL c k hk d z ha hi false ?_
  unfold action
  cases c.kind with
  | xz => rfl
  | gzip => rfl
  | zstd => simp only; rw [if_pos (List.length_pos_iff.2 hi)]

theorem compressLoop_spec (hL : Encodes L fmt At) (k : Kind) (D buf : Bytes) : ∀ (n : Nat) (c : Ctx σ) (d z : Bytes) (f : Option Bytes),
    c.kind = k → At k c.state d z f → Told k c.pending f → d ++ c.pending = D → n > c.pending.length + (LIMIT - z.length) → z.length < LIMIT →
    ∃ r, compressLoop L n c (buf ++ z) z.length = some r ∧ r ≠ .ub ∧
      (∀ b, r = .ok b → ∃ u, b = buf ++ u ∧ fmt k u D ∧ 1 ≤ u.length ∧ u.length < LIMIT) ∧
      (NeverBad L → fmt.Ok → Small fmt At D → ∃ b, r = .ok b) := by
  have hLim : LIMIT = 134217728 := by decide
  intro n
  induction n with
  | zero => intro c d z f _ _ _ _ hn; omega
  | succ n ih =>
    intro c d z f hk ha hf hD hn hz
    unfold compressLoop
    rcases encode_true hL c k hk d z f ha hf with ⟨he, hnb⟩ | ⟨out, c', he, hfm⟩ | ⟨r, out, c', m, f', he, hk', hp, hm, ha', hf', hprog, hr⟩
    · rw [he]
      exact ⟨_, rfl, (by intro h; cases h), (by intro b h; cases h), fun h => absurd h hnb⟩
    · rw [he]
      simp only
      rw [hD] at hfm
      by_cases hlim : z.length + out.length ≥ LIMIT
      · rw [if_pos hlim]
        refine ⟨_, rfl, (by intro h; cases h), (by intro b h; cases h), fun _ _ hs => ?_⟩
        have := hs.whole k _ hfm
        rw [List.length_append] at this
        omega
      rw [if_neg hlim]
      by_cases h1 : z.length + out.length < 1
      · rw [if_pos h1]
        refine ⟨_, rfl, (by intro h; cases h), (by intro b h; cases h), fun _ ho _ => ?_⟩
        have := (ho.magic k _ _ hfm).length_le
        rw [List.length_append] at this
        have h2 : 2 ≤ (Magic k).length := by cases k <;> decide
        omega
      · rw [if_neg h1]
        refine ⟨_, rfl, (by intro h; cases h), ?_, fun _ _ _ => ⟨_, rfl⟩⟩
        intro b hb
        injection hb with hb
        refine ⟨z ++ out, by rw [← hb, List.append_assoc], hfm, ?_, ?_⟩ <;> rw [List.length_append] <;> omega
    · rw [he]
      simp only
      have hD' : (d ++ c.pending.take m) ++ c'.pending = D := by
        rw [hp, List.append_assoc, List.take_append_drop, hD]
      by_cases hlim : z.length + out.length ≥ LIMIT
      · rw [if_pos hlim]
        refine ⟨_, rfl, (by intro h; cases h), (by intro b h; cases h), fun _ _ hs => ?_⟩
        have := hs.way k _ _ _ _ ha' ⟨_, hD'⟩
        rw [List.length_append] at this
        omega
      rw [if_neg hlim]
      have hpl : c'.pending.length = c.pending.length - m := by rw [hp, List.length_drop]
      have hfu : n > c'.pending.length + (LIMIT - (z ++ out).length) := by
        rw [List.length_append, hpl]
        rcases hprog with h | h
        · omega
        · have h' : out.length > 0 := List.length_pos_iff.2 h
          omega
      have := ih c' _ (z ++ out) f' hk' ha' hf' hD' hfu (by rw [List.length_append]; omega)
      rw [← List.append_assoc, List.length_append] at this
      rcases hr with ⟨rfl, _⟩ | ⟨rfl, _⟩ <;> exact this

/-- The loop of `ca_load_and_compress_fd`. -/
theorem loadCompressLoop_spec (hL : Encodes L fmt At) (k : Kind) {io : Nat → Chop} (hio : FullReads io) (D buf : Bytes) :
    ∀ (n : Nat) (c : Ctx σ) (fresh eof : Bool) (rest d z : Bytes) (dc i : Nat) (f : Option Bytes),
    c.kind = k → At k c.state d z f → Told k c.pending f → d ++ (c.pending ++ rest) = D → dc = d.length + c.pending.length →
    (eof = true → rest = []) → (eof = false → f = none) → (fresh = true → c.pending = []) → (fresh = false → eof = false → c.pending ≠ []) →
    n > 2 * (c.pending.length + rest.length + (LIMIT - z.length)) + (if fresh = true then 1 else 0) → z.length < LIMIT → dc < LIMIT →
    ∃ r, loadCompressLoop L io n c fresh eof rest (buf ++ z) z.length dc i = some r ∧ r ≠ .ub ∧
      (∀ b, r = .ok b → ∃ u, b = buf ++ u ∧ fmt k u D ∧ 1 ≤ u.length ∧ u.length < LIMIT ∧ 1 ≤ D.length ∧ D.length < LIMIT) ∧
      (NeverBad L → NoFail io → fmt.Ok → Small fmt At D → 1 ≤ D.length → D.length < LIMIT → ∃ b, r = .ok b) := by
  have hLim : LIMIT = 134217728 := by decide
  intro n
  induction n with
  | zero => intro c fresh eof rest d z dc i f _ _ _ _ _ _ _ _ _ hn; omega
  | succ n ih =>
    intro c fresh eof rest d z dc i f hk ha hf hD hdc heof hne hfr hnf hn hz hdcL
    have hDl : D.length = d.length + (c.pending.length + rest.length) := by rw [← hD, List.length_append, List.length_append]
    cases fresh with
    | true =>
      unfold loadCompressLoop
      have hpn := hfr rfl
      cases hr : read rest BLOCK (io i) with
      | err e =>
        refine ⟨_, rfl, (by intro h; cases h), (by intro b h; cases h), fun _ h => ?_⟩
        obtain ⟨l, rest', h'⟩ := read_noFail h rest BLOCK i
        rw [hr] at h'; cases h'
      | ub => exact absurd hr (read_nub _ _ _)
      | ok p =>
        obtain ⟨l, rest'⟩ := p
        obtain ⟨h1, h2, h3, h4⟩ := read_ok _ _ (by decide) _ _ _ hr
        simp only
        have hrl : l.length + rest'.length = rest.length := by rw [← List.length_append, h1]
        have hfull : l.length < BLOCK → rest' = [] := by
          intro hl
          cases hio' : io i with
          | fail e => rw [hio'] at hr; cases hr
          | give m =>
            have hm := hio i m hio'
            rw [hio'] at hr
            unfold read at hr
            injection hr with hr; injection hr with hr1 hr2
            have hB : BLOCK = 65536 := by decide
            rw [← hr1, List.length_take] at hl
            rw [← hr2]
            exact List.drop_of_length_le (by omega)
        rw [hpn] at hDl hdc
        by_cases hlim : dc + l.length ≥ LIMIT
        · rw [if_pos hlim]
          refine ⟨_, rfl, (by intro h; cases h), (by intro b h; cases h), fun _ _ _ _ _ hDL => ?_⟩
          simp only [List.length_nil] at hDl hdc
          omega
        rw [if_neg hlim]
        simp only [List.length_nil] at hDl hdc
        have hf' : Told k (input c l).pending f := by
          rcases hf.same with h | h
          · exact ⟨.inl h, fun _ _ => h⟩
          · cases heo : eof with
            | false => have := hne heo; exact ⟨.inl this, fun _ _ => this⟩
            | true =>
              have hl : l = [] := by
                have := heof heo
                rw [this] at hrl
                simp only [List.length_nil] at hrl
                exact List.length_eq_zero_iff.1 (by omega)
              refine ⟨.inr ?_, fun _ hn' => absurd hl hn'⟩
              rw [h, hpn]
              exact congrArg some hl.symm
        have := ih (input c l) false (decide (l.length < BLOCK)) rest' d z (dc + l.length) (i + 1) f hk ha hf'
          (by
            show d ++ (l ++ rest') = D
            rw [h1, ← hD, hpn]; rfl)
          (by show dc + l.length = d.length + l.length; omega)
          (fun h => hfull (of_decide_eq_true h))
          (by
            intro h
            cases heo : eof with
            | false => exact hne heo
            | true =>
              exfalso
              have h' := of_decide_eq_false h
              rw [heof heo] at hrl
              simp only [List.length_nil] at hrl
              have hB : BLOCK = 65536 := by decide
              omega)
          (by intro h; cases h)
          (by
            intro _ h h'
            have h'' := of_decide_eq_false h
            rw [show l = [] from h'] at h''
            exact h'' (by decide))
          (by
            show n > 2 * (l.length + rest'.length + (LIMIT - z.length)) + 0
            rw [if_pos rfl, hpn] at hn
            simp only [List.length_nil] at hn
            omega) hz (by omega)
        exact this
    | false =>
      unfold loadCompressLoop
      have step : ∀ (r : Ret) (out : Bytes) (c' : Ctx σ) (m : Nat) (f' : Option Bytes), encode L c eof = .ok (r, out, c') → c'.kind = k →
          c'.pending = c.pending.drop m → m ≤ c.pending.length → At k c'.state (d ++ c.pending.take m) (z ++ out) f' → Told k c'.pending f' →
          (eof = false → f' = none) → (0 < m ∨ out ≠ []) → (r = .more ∧ c'.pending ≠ [] ∨ r = .good ∧ c'.pending = []) →
          ∃ r, (match encode L c eof with
            | .err e => some (.err e)
            | .ub => some .ub
            | .ok (r, out, c') =>
              if z.length + out.length ≥ LIMIT then some (.err .EBADMSG)
              else match r with
                | .more => loadCompressLoop L io n c' false eof rest (buf ++ z ++ out) (z.length + out.length) dc i
                | .good => loadCompressLoop L io n c' true eof rest (buf ++ z ++ out) (z.length + out.length) dc i
                | .eof => some (if z.length + out.length < 1 ∨ dc < 1 then .err .EBADMSG else .ok (buf ++ z ++ out))) = some r ∧ r ≠ .ub ∧
            (∀ b, r = .ok b → ∃ u, b = buf ++ u ∧ fmt k u D ∧ 1 ≤ u.length ∧ u.length < LIMIT ∧ 1 ≤ D.length ∧ D.length < LIMIT) ∧
            (NeverBad L → NoFail io → fmt.Ok → Small fmt At D → 1 ≤ D.length → D.length < LIMIT → ∃ b, r = .ok b) := by
        intro r out c' m f' he hk' hp hm ha' hf' hne' hprog hr
        rw [he]
        simp only
        have hD' : (d ++ c.pending.take m) ++ (c'.pending ++ rest) = D := by
          rw [hp, ← List.append_assoc, List.append_assoc d, List.take_append_drop, List.append_assoc, hD]
        by_cases hlim : z.length + out.length ≥ LIMIT
        · rw [if_pos hlim]
          refine ⟨_, rfl, (by intro h; cases h), (by intro b h; cases h), fun _ _ _ hs _ _ => ?_⟩
          have := hs.way k _ _ _ _ ha' ⟨_, hD'⟩
          rw [List.length_append] at this
          omega
        rw [if_neg hlim]
        have hpl : c'.pending.length = c.pending.length - m := by rw [hp, List.length_drop]
        have hfu : n > 2 * (c'.pending.length + rest.length + (LIMIT - (z ++ out).length)) + 1 := by
          rw [List.length_append, hpl]
          rw [if_neg (by intro h; cases h)] at hn
          rcases hprog with h | h
          · omega
          · have h' : out.length > 0 := List.length_pos_iff.2 h
            omega
        have hdc' : dc = (d ++ c.pending.take m).length + c'.pending.length := by
          rw [List.length_append, List.length_take, hpl]; omega
        rcases hr with ⟨rfl, hp'⟩ | ⟨rfl, hp'⟩
        · have := ih c' false eof rest _ (z ++ out) dc i f' hk' ha' hf' hD' hdc' heof hne' (by intro h; cases h) (fun _ _ => hp')
            (by rw [if_neg (by intro h; cases h)]; omega) (by rw [List.length_append]; omega) hdcL
          rw [← List.append_assoc, List.length_append] at this
          exact this
        · have := ih c' true eof rest _ (z ++ out) dc i f' hk' ha' hf' hD' hdc' heof hne' (fun _ => hp') (by intro h; cases h)
            (by rw [if_pos rfl]; omega) (by rw [List.length_append]; omega) hdcL
          rw [← List.append_assoc, List.length_append] at this
          exact this
      cases heo : eof with
      | false =>
        have hfn := hne heo
        rw [hfn] at ha
        rcases encode_false hL c k hk d z ha (hnf rfl heo) with ⟨he, hnb⟩ | ⟨r, out, c', m, h1, h2, h3, h4, h5, h6, h7⟩
        · rw [he]
          exact ⟨_, rfl, (by intro h; cases h), (by intro b h; cases h), fun h => absurd h hnb⟩
        · have := step r out c' m none (by rw [heo]; exact h1) h2 h3 h4 h5 ⟨.inl rfl, fun _ _ => rfl⟩ (fun _ => rfl) h6 h7
          rw [heo] at this
          exact this
      | true =>
        rcases encode_true hL c k hk d z f ha hf with ⟨he, hnb⟩ | ⟨out, c', he, hfm⟩ | ⟨r, out, c', m, f', h1, h2, h3, h4, h5, h6, h7, h8⟩
        · rw [he]
          exact ⟨_, rfl, (by intro h; cases h), (by intro b h; cases h), fun h => absurd h hnb⟩
        · rw [he]
          simp only
          have hrn := heof heo
          rw [hrn, List.append_nil] at hD
          rw [hrn] at hDl
          simp only [List.length_nil] at hDl
          rw [hD] at hfm
          by_cases hlim : z.length + out.length ≥ LIMIT
          · rw [if_pos hlim]
            refine ⟨_, rfl, (by intro h; cases h), (by intro b h; cases h), fun _ _ _ hs _ _ => ?_⟩
            have := hs.whole k _ hfm
            rw [List.length_append] at this
            omega
          rw [if_neg hlim]
          by_cases h1 : z.length + out.length < 1 ∨ dc < 1
          · rw [if_pos h1]
            refine ⟨_, rfl, (by intro h; cases h), (by intro b h; cases h), fun _ _ ho _ h3 h4 => ?_⟩
            have := (ho.magic k _ _ hfm).length_le
            rw [List.length_append] at this
            have h2 : 2 ≤ (Magic k).length := by cases k <;> decide
            omega
          · rw [if_neg h1]
            refine ⟨_, rfl, (by intro h; cases h), ?_, fun _ _ _ _ _ _ => ⟨_, rfl⟩⟩
            intro b hb
            injection hb with hb
            refine ⟨z ++ out, by rw [← hb, List.append_assoc], hfm, ?_, ?_, by omega, by omega⟩ <;> rw [List.length_append] <;> omega
        · have := step r out c' m f' (by rw [heo]; exact h1) h2 h3 h4 h5 h6 (by rw [heo]; intro h; cases h) h7 h8
          rw [heo] at this
          exact this

end
end Casync.Stream
