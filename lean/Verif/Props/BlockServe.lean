import Verif.Props.BlockDevice
/-!
C53: requests are answered.
-/
namespace Casync.Nbd
open Casync Casync.Nbd.Spec

variable {image : Bytes} {C D : Choice → Prop} {I L : Source → Nat → Prop} {K : Source → Prop}

/-- How the synchronizer stands on its way to the data, with a bound on the number of steps. -/
inductive Live (image : Bytes) (I L : Source → Nat → Prop) (K : Source → Prop) (o n : Nat) (buffer : Bytes) (s : Syncer) : Nat → Prop
  | eof (h : s.dec.state = .eof) : Live image I L K o n buffer s 1
  | prep (h : s.dec.state = .prepSeek) (hs : s.dec.seekOff = some o) (hb : buffer = []) (ho : o < image.length) : Live image I L K o n buffer s (2 * n + 3)
  | seeking (h : s.dec.state = .seeking) (hs : s.dec.seekOff = some o) (hb : buffer = []) (hbuf : s.dec.buf = []) (hst : s.dec.stepSize = 0)
      (he : s.dec.gotEof = false) (hL : L s.src o) (ho : o < image.length) : Live image I L K o n buffer s (2 * n + 2)
  | full (h : s.dec.state = .payload) (hbuf : s.dec.buf.drop s.dec.stepSize ≠ []) (he : s.dec.gotEof = false) (pos : Nat) (hL : L s.src pos) (hp : pos ≤ image.length) :
      Live image I L K o n buffer s (2 * (n - buffer.length) + 1)
  | empty (h : s.dec.state = .payload) (hbuf : s.dec.buf.drop s.dec.stepSize = []) (he : s.dec.gotEof = false) (pos : Nat) (hL : L s.src pos) (hp : pos ≤ image.length) :
      Live image I L K o n buffer s (2 * (n - buffer.length) + 2)
  | done (h : s.dec.state = .payload) (hbuf : s.dec.buf.drop s.dec.stepSize = []) (he : s.dec.gotEof = true) : Live image I L K o n buffer s 1

/-- What a step with a helpful outside does. -/
theorem live_sync (ok : SourceOk image C I K) (lv : SourceLive image D I K L) {s : Syncer} {o n m : Nat} {buffer : Bytes} (h : SvInv image I K o buffer s)
    (hl : Live image I L K o n buffer s m) {ready answer short io} (hC : C (.decode ready answer short io)) (hD : D (.decode ready answer short io)) :
    (∃ s', syncStep s (.decode ready answer short io) = .ok (.finished, s')) ∨
    (∃ s', syncStep s (.decode ready answer short io) = .ok (.step, s') ∧ ∃ m' < m, Live image I L K o n buffer s' m') ∨
    (∃ s' p, syncStep s (.decode ready answer short io) = .ok (.payload, s') ∧ decPayload s'.dec = .ok p ∧ p ≠ [] ∧
      ((buffer ++ p).length < n → ∃ m' < m, Live image I L K o n (buffer ++ p) s' m')) := by
  obtain ⟨hb, ho, _⟩ := h
  unfold syncStep
  simp only
  unfold stepDecode
  rw [if_neg (by rw [ho]; simp)]
  obtain ⟨d', ha, a1, a2, a3, a4, a5, a6⟩ := advance_ok hb.step
  have hreq : ∀ (d : Naked) (pos : Nat), d.state = .payload → d.stepSize = 0 → d.buf = [] → d.gotEof = false → L s.src pos → pos ≤ image.length →
      ∃ s', dispatch s ready answer short io (payloadStep d).1 (payloadStep d).2 = .ok (.step, s') ∧
        ∃ m' < 2 * (n - buffer.length) + 2, Live image I L K o n buffer s' m' := by
    intro d pos h1 h2 h3 h4 hL hp
    unfold payloadStep
    rw [if_neg (by simpa using h3), if_neg (by rw [h4]; simp)]
    unfold dispatch
    simp only
    rcases Nat.lt_or_ge pos image.length with hlt | hge
    · obtain ⟨s', b, hr, hne, hL'⟩ := lv.data hL hD hlt
      have hfit : pos + b.length ≤ image.length := by
        rcases ok.request (lv.inv hL) hC with ⟨e, h⟩ | ⟨s2, h, _⟩ | ⟨s2, b2, h, _, g, _⟩ | ⟨s2, h, _⟩
        · rw [hr] at h; cases h
        · rw [hr] at h; simp at h
        · rw [hr] at h
          injection h with h
          injection h with h _
          injection h with h
          subst h
          have := congrArg List.length g
          rw [List.length_take, List.length_drop] at this
          omega
        · rw [hr] at h; simp at h
      rw [hr]
      simp only [Res.bind_ok]
      unfold decPut
      rw [if_neg hne, if_neg (by rw [h4]; simp)]
      refine ⟨_, rfl, _, Nat.lt_succ_self _, .full h1 ?_ h4 (pos + b.length) hL' hfit⟩
      show (d.buf ++ b).drop d.stepSize ≠ []
      rw [h2, h3, List.nil_append, List.drop_zero]; exact hne
    · obtain ⟨s', hr⟩ := lv.eof hL hD (Nat.le_antisymm hp hge)
      rw [hr]
      simp only [Res.bind_ok]
      refine ⟨_, rfl, 1, by omega, .done h1 ?_ rfl⟩
      show d.buf.drop d.stepSize = []
      rw [h3, List.drop_nil]
  unfold decStep
  cases hl with
  | eof h => rw [if_pos h]; exact .inl ⟨_, rfl⟩
  | prep h hs hbf hlt =>
    right; left
    rw [if_neg (by rw [h]; simp), ha, Res.bind_ok]
    unfold stepNode
    rw [a1, h]
    simp only
    rw [a5, hs]
    simp only [Res.bind_ok]
    unfold dispatch decSeekOffset
    simp only
    rw [if_neg (by simp)]
    simp only [Res.bind_ok]
    obtain ⟨pos, hI⟩ := hb.src
    obtain ⟨⟨pos', hr⟩, hk⟩ := ok.reset hI
    obtain ⟨src, g1, g2⟩ := lv.start hr (hk hb.known) hlt
    rw [g1]
    exact ⟨_, rfl, 2 * n + 2, by omega, .seeking rfl rfl hbf rfl rfl rfl g2 hlt⟩
  | seeking h hs hbf hbuf hst he hL hlt =>
    right; left
    rw [if_neg (by rw [h]; simp), ha, Res.bind_ok]
    unfold stepNode
    rw [a1, h]
    simp only
    rw [a5, hs]
    simp only [Res.bind_ok]
    obtain ⟨s', g1, m', g2, g3⟩ := hreq { d' with state := .payload, payloadOff := o, seekOff := none } o rfl a3 (by rw [a2, hbuf, List.drop_nil]) (by rw [a4, he]) hL
      (Nat.le_of_lt hlt)
    rw [hbf, List.length_nil, Nat.sub_zero] at g2
    exact ⟨s', g1, m', g2, g3⟩
  | full h hbuf he pos hL hp =>
    right; right
    rw [if_neg (by rw [h]; simp), ha, Res.bind_ok]
    unfold stepNode
    rw [a1, h]
    simp only [Res.bind_ok]
    have hne : d'.buf ≠ [] := by rw [a2]; exact hbuf
    have hlen : 0 < d'.buf.length := List.length_pos_iff.2 hne
    unfold payloadStep
    rw [if_pos hne]
    refine ⟨_, d'.buf, rfl, ?_, hne, fun hlt => ?_⟩
    · unfold decPayload
      simp only
      rw [if_neg (by rw [a1, h]; simp), if_neg hne, if_neg (by omega), if_neg (by omega), List.take_length]
    · rw [List.length_append] at hlt
      refine ⟨2 * (n - (buffer ++ d'.buf).length) + 2, by rw [List.length_append]; omega, .empty (by rw [← h]; exact a1) ?_ (by rw [← he]; exact a4) pos hL hp⟩
      show d'.buf.drop d'.buf.length = []
      rw [List.drop_length]
  | empty h hbuf he pos hL hp =>
    right; left
    rw [if_neg (by rw [h]; simp), ha, Res.bind_ok]
    unfold stepNode
    rw [a1, h]
    simp only [Res.bind_ok]
    exact hreq d' pos (by rw [a1, h]) a3 (by rw [a2]; exact hbuf) (by rw [a4, he]) hL hp
  | done h hbuf he =>
    left
    rw [if_neg (by rw [h]; simp), ha, Res.bind_ok]
    unfold stepNode
    rw [a1, h]
    simp only [Res.bind_ok]
    unfold payloadStep
    rw [if_neg (by rw [a2]; simpa using hbuf), if_pos (by rw [a4, he])]
    exact ⟨_, rfl⟩

/-- Sending works if the data have the right length. -/
theorem send_ok {t : Tool} {h : Bytes} {o n : Nat} (w : WellFormed h o n) (hd : t.dev.last = request h o n) (s : Syncer) {data : Bytes} (hl : data.length = n) {e : Env}
    (he : e.writeError = none) : ∃ b t', send t s o data e = ([.wrote b], .ok t') := by
  obtain ⟨h1, h2, h3, h4, h5⟩ := request_fields w hd
  have hp := w.pos
  unfold send putData
  rw [if_neg (by omega), if_neg (by rw [h1]; decide), if_neg (by rw [h4]; simp), if_neg (by rw [h5, hl]; simp)]
  unfold writeReply
  rw [he]
  exact ⟨_, _, rfl⟩

theorem live_round (ok : SourceOk image C I K) (lv : SourceLive image D I K L) {t : Tool} {h : Bytes} {o n m : Nat} {buffer : Bytes} (w : WellFormed h o n)
    (hp : t.phase = .serving o n buffer) (hd : t.dev.last = request h o n) (hb : buffer.length < n) (hs : SvInv image I K o buffer t.sync)
    (hl : Live image I L K o n buffer t.sync m) {e : Env} {ready answer short io} (hc : e.choice = .decode ready answer short io)
    (hC : C e.choice) (hD : D e.choice) (he : e.writeError = none) :
    (∃ b t', round t e = ([.wrote b], .ok t')) ∨
    (∃ t' buffer', round t e = ([], .ok t') ∧ t'.phase = .serving o n buffer' ∧ ∃ m' < m, Live image I L K o n buffer' t'.sync m') := by
  rw [hc] at hC hD
  unfold round
  rw [hp]
  simp only
  unfold servingRound
  rw [hc]
  rcases live_sync ok lv hs hl hC hD with ⟨s', h1⟩ | ⟨s', h1, m', h2, h3⟩ | ⟨s', p, h1, h2, h3, h4⟩
  · rw [h1]
    simp only
    rw [if_neg (by omega)]
    exact .inl (send_ok w hd s' (by rw [List.length_append, List.length_replicate]; omega) he)
  · rw [h1]
    exact .inr ⟨_, buffer, rfl, hp, m', h2, h3⟩
  · rw [h1]
    simp only
    rw [h2]
    simp only
    by_cases g1 : buffer.length = 0 ∧ p.length ≥ n
    · rw [if_pos g1]
      exact .inl (send_ok w hd s' (by rw [List.length_take]; omega) he)
    · rw [if_neg g1]
      by_cases g2 : (buffer ++ p).length ≥ n
      · rw [if_pos g2]
        exact .inl (send_ok w hd s' (by rw [List.length_take]; omega) he)
      · rw [if_neg g2]
        obtain ⟨m', h5, h6⟩ := h4 (by omega)
        exact .inr ⟨_, buffer ++ p, rfl, rfl, m', h5, h6⟩

/-- A helpful round. -/
def Good (C D : Choice → Prop) (e : Env) : Prop := (∃ ready answer short io, e.choice = .decode ready answer short io) ∧ C e.choice ∧ D e.choice ∧ e.writeError = none ∧ e.input ≠ .ub

theorem live_run (ok : SourceOk image C I K) (hlen : image.length < 2 ^ 64) (lv : SourceLive image D I K L) {h : Bytes} {o n : Nat} (w : WellFormed h o n) :
    ∀ (m : Nat) (es : List Env) (t : Tool) (buffer : Bytes), t.phase = .serving o n buffer → t.dev.last = request h o n → Inv image I K t →
    Live image I L K o n buffer t.sync m → m ≤ es.length → (∀ e ∈ es, Good C D e) →
    ∃ k ≤ m, ∃ t', run t (es.take k) = ([.wrote (reply image h o n)], .ok t') ∧ t'.phase = .waiting ∧ Inv image I K t' := by
  intro m
  induction m using Nat.strongRecOn with
  | _ m ih =>
    intro es t buffer hp hd hi hl hm hg
    have hpos : 0 < m := by cases hl <;> omega
    cases es with
    | nil => simp only [List.length_nil] at hm; omega
    | cons e es =>
      obtain ⟨⟨ready, answer, short, io, hc⟩, hC, hD, he, hin⟩ := hg e List.mem_cons_self
      have hsv : buffer.length < n ∧ SvInv image I K o buffer t.sync := by
        cases hi with
        | sizing h' => rw [hp] at h'; cases h'
        | waiting h' => rw [hp] at h'; cases h'
        | serving h' o' n' b' p' w' d' l' s' =>
          rw [hp] at p'
          injection p' with e1 e2 e3
          subst e1; subst e2; subst e3
          exact ⟨l', s'⟩
      have hri := round_inv ok hlen hi hC hin
      rcases hri with ⟨h', _⟩ | ⟨h', _⟩ | ⟨h2, s2, l2, b2, p2, d2, w2, hcase⟩
      · rw [hp] at h'; cases h'
      · rw [hp] at h'; cases h'
      · rw [hp] at p2
        injection p2 with e1 e2 e3
        subst e1; subst e2; subst e3
        have : h = h2 := request_inj w w2 (by rw [← hd, d2])
        subst this
        rcases live_round ok lv w hp hd hsv.1 hsv.2 hl hc hC hD he with ⟨b, t', hr⟩ | ⟨t', b', hr, hp', m', hm', hl'⟩
        · rcases hcase with ⟨_, h'⟩ | ⟨t2, b2, h', _⟩ | ⟨_, _, h', _⟩ | ⟨t2, h', hi2, hp2⟩
          · rw [hr] at h'; cases h'
          · rw [hr] at h'; cases h'
          · rw [hr] at h'; cases h'
          · refine ⟨1, hpos, t2, ?_, hp2, hi2⟩
            rw [List.take_succ_cons, List.take_zero, run, h']
            rfl
        · rcases hcase with ⟨_, h'⟩ | ⟨t2, b2, h', hi2, hp2, hd2⟩ | ⟨_, _, h', _⟩ | ⟨t2, h', hi2, hp2⟩
          · rw [hr] at h'; cases h'
          · rw [hr] at h'
            injection h' with _ h'
            injection h' with h'
            subst h'
            obtain ⟨k, hk, t3, g1, g2, g3⟩ := ih m' hm' es t' b' hp' hd2 hi2 hl' (by simp only [List.length_cons] at hm; omega)
              (fun e he' => hg e (List.mem_cons_of_mem _ he'))
            refine ⟨k + 1, by omega, t3, ?_, g2, g3⟩
            rw [List.take_succ_cons, run, hr]
            simp only
            rw [g1]
            rfl
          · rw [hr] at h'; cases h'
          · rw [hr] at h'; cases h'

theorem run_append (t : Tool) : ∀ (es es' : List Env) (tr : List Obs) (t' : Tool), run t es = (tr, .ok t') → run t (es ++ es') = (tr ++ (run t' es').1, (run t' es').2) := by
  intro es
  induction es generalizing t with
  | nil =>
    intro es' tr t' h
    rw [run] at h
    injection h with h1 h2
    injection h2 with h2
    subst h1; subst h2
    rfl
  | cons e es ih =>
    intro es' tr t' h
    rw [List.cons_append, run]
    rw [run] at h
    cases hr : round t e with
    | mk o r =>
      rw [hr] at h
      cases r with
      | err => simp at h
      | ub => simp at h
      | ok t1 =>
        simp only at h ⊢
        injection h with h1 h2
        rw [ih t1 es' (run t1 es).1 t' (by rw [← h2])]
        rw [← h1, List.append_assoc]

/-- Where the tool is, from what was seen. -/
def Consistent (t : Tool) (tr : List Obs) : Prop :=
  match t.phase with
  | .sizing => tr = []
  | .waiting => ∃ pre x, tr = pre ++ [x] ∧ ∀ m, x ≠ .received m
  | .serving _ _ _ => ∃ pre m, tr = pre ++ [.received m]

theorem run_consistent (ok : SourceOk image C I K) (hlen : image.length < 2 ^ 64) : ∀ (es : List Env) (t : Tool) (pre : List Obs), Inv image I K t →
    (∀ e ∈ es, C e.choice ∧ e.input ≠ .ub) → Consistent t pre → ∀ tr t', run t es = (tr, .ok t') → Consistent t' (pre ++ tr) := by
  intro es
  induction es with
  | nil =>
    intro t pre _ _ hc tr t' h
    rw [run] at h
    injection h with h1 h2
    injection h2 with h2
    subst h1; subst h2
    rw [List.append_nil]; exact hc
  | cons e es ih =>
    intro t pre hi he hc tr t' h
    obtain ⟨hC, hin⟩ := he e List.mem_cons_self
    have next : ∀ o t1, round t e = (o, .ok t1) → Inv image I K t1 → Consistent t1 (pre ++ o) → Consistent t' (pre ++ tr) := by
      intro o t1 hr hi1 hc1
      rw [run, hr] at h
      simp only at h
      injection h with h1 h2
      have := ih t1 (pre ++ o) hi1 (fun e he' => he e (List.mem_cons_of_mem _ he')) hc1 (run t1 es).1 t' (by rw [← h2])
      rw [List.append_assoc, h1] at this
      exact this
    have bad : ∀ o er, round t e = (o, .err er) → False := by
      intro o er hr
      rw [run, hr] at h
      cases h
    rcases round_inv ok hlen hi hC hin with ⟨hp, hcs⟩ | ⟨hp, hcs⟩ | ⟨hd, s, l, b, hp, hlast, w, hcs⟩
    · unfold Consistent at hc
      rw [hp] at hc
      have hc : pre = [] := hc
      rcases hcs with ⟨er, hr⟩ | ⟨t1, hr, hi1, hp1⟩ | ⟨k, t1, hr, _, _, _, hi1, hp1⟩
      · exact (bad _ _ hr).elim
      · refine next _ _ hr hi1 ?_
        unfold Consistent
        rw [hp1, List.append_nil]; exact hc
      · refine next _ _ hr hi1 ?_
        unfold Consistent
        rw [hp1]
        exact ⟨pre, _, rfl, by simp⟩
    · unfold Consistent at hc
      rw [hp] at hc
      rcases hcs with ⟨er, hr⟩ | ⟨t1, hr, hi1, hp1⟩ | ⟨m, er, hr, _⟩ | ⟨_, _, _, er, hr, _⟩ | ⟨hd, s, l, t1, hr, _, _, hp1, hi1⟩
      · exact (bad _ _ hr).elim
      · refine next _ _ hr hi1 ?_
        unfold Consistent
        rw [hp1, List.append_nil]; exact hc
      · exact (bad _ _ hr).elim
      · exact (bad _ _ hr).elim
      · refine next _ _ hr hi1 ?_
        unfold Consistent
        rw [hp1]
        exact ⟨pre, _, rfl⟩
    · unfold Consistent at hc
      rw [hp] at hc
      rcases hcs with ⟨er, hr⟩ | ⟨t1, b', hr, hi1, hp1, _⟩ | ⟨_, er, hr, _⟩ | ⟨t1, hr, hi1, hp1⟩
      · exact (bad _ _ hr).elim
      · refine next _ _ hr hi1 ?_
        unfold Consistent
        rw [hp1, List.append_nil]; exact hc
      · exact (bad _ _ hr).elim
      · refine next _ _ hr hi1 ?_
        unfold Consistent
        rw [hp1]
        exact ⟨pre, _, rfl, by simp⟩

/-- A request that comes when the tool waits is answered. -/
theorem answered (ok : SourceOk image C I K) (hlen : image.length < u64max) (lv : SourceLive image D I K L) {t : Tool} (hi : Inv image I K t) (hp : t.phase = .waiting)
    {h : Bytes} {o n : Nat} (w : WellFormed h o n) (ho : o ≤ image.length) {e : Env} (hin : e.input = .ok (request h o n)) {es : List Env}
    (hm : 2 * n + 3 ≤ es.length) (hC : C e.choice) (hg : ∀ e ∈ es, Good C D e) :
    ∃ k ≤ 2 * n + 3, ∃ t', run t (e :: es.take k) = ([.received (request h o n), .wrote (reply image h o n)], .ok t') := by
  have hu : u64max = 2 ^ 64 - 1 := by decide
  have hlen' : image.length < 2 ^ 64 := by omega
  -- the first round
  have hfirst : ∃ t1, round t e = ([.received (request h o n)], .ok t1) ∧ t1.phase = .serving o n [] ∧ t1.dev.last = request h o n ∧ Inv image I K t1 ∧
      ∃ m ≤ 2 * n + 3, Live image I L K o n [] t1.sync m := by
    cases hi with
    | sizing h' => rw [hp] at h'; cases h'
    | serving _ _ _ _ h' => rw [hp] at h'; cases h'
    | waiting _ hs hd =>
      have ht : (request h o n).take 28 = request h o n := List.take_of_length_le (by rw [request_length w.handle]; omega)
      unfold round
      rw [hp]
      simp only
      unfold waitingRound received
      rw [if_neg (by rw [hd.magic]; simp), hin]
      simp only
      rcases devStep_idle hd (request h o n) with ⟨h2, s, l, w2, hb, he⟩ | ⟨hb, _⟩
      · rw [ht] at hb
        obtain ⟨_, _, g3, g4, g5⟩ := request_fields w (d := { last := request h o n }) rfl
        obtain ⟨_, _, k3, k4, k5⟩ := request_fields w2 (d := { last := request h o n }) hb
        rw [g3] at k3; rw [g4] at k4; rw [g5] at k5
        subst k3; subst k4; subst k5
        rw [he, ht]
        simp only
        obtain ⟨h1, _, _, h4, h5⟩ := request_fields w (d := { t.dev with last := request h o n }) rfl
        have e1 : getRequestOffset { t.dev with last := request h o n } = .ok o := by
          unfold getRequestOffset
          rw [if_neg (by rw [h1]; decide), h4]
        have e2 : getRequestSize { t.dev with last := request h o n } = .ok n := by
          unfold getRequestSize
          rw [if_neg (by rw [h1]; decide), h5]
        rw [e1, e2, Res.bind_ok, Res.bind_ok]
        rcases seekOffset_spec ok hs o with ⟨g1, _⟩ | ⟨_, s', g2, g3⟩
        · omega
        · rw [g2]
          refine ⟨_, rfl, rfl, rfl, .serving h o n [] rfl w rfl w.pos g3, ?_⟩
          show ∃ m ≤ 2 * n + 3, Live image I L K o n [] s' m
          have hst := g3.stage
          generalize hbb : ([] : Bytes) = bb at hst
          cases hst with
          | nowhere _ hlt => omega
          | eof h _ => exact ⟨1, by omega, .eof h⟩
          | prep h hs _ hlt => exact ⟨_, Nat.le_refl _, .prep h hs hbb.symm hlt⟩
          | seeking h' =>
            exfalso
            unfold seekOffset at g2
            split at g2
            · cases g2
            · obtain ⟨x, y1, y2⟩ := Res.bind_eq_ok.1 g2
              obtain ⟨d, y3, y4⟩ := Res.bind_eq_ok.1 y2
              injection y4 with y4
              subst y4
              unfold decSeek at y3
              split at y3
              · cases y3
              · split at y3
                · cases y3
                · split at y3
                  · injection y3 with y3; subst y3; cases h'
                  · split at y3
                    · injection y3 with y3; subst y3; cases h'
                    · injection y3 with y3; subst y3; cases h'
          | payload h' =>
            exfalso
            unfold seekOffset at g2
            split at g2
            · cases g2
            · obtain ⟨x, y1, y2⟩ := Res.bind_eq_ok.1 g2
              obtain ⟨d, y3, y4⟩ := Res.bind_eq_ok.1 y2
              injection y4 with y4
              subst y4
              unfold decSeek at y3
              split at y3
              · cases y3
              · split at y3
                · cases y3
                · split at y3
                  · injection y3 with y3; subst y3; cases h'
                  · split at y3
                    · injection y3 with y3; subst y3; cases h'
                    · injection y3 with y3; subst y3; cases h'
      · exact absurd ht (hb h o n w)
  obtain ⟨t1, r1, r2, r3, r4, m, r5, r6⟩ := hfirst
  obtain ⟨k, hk, t', g1, _, _⟩ := live_run ok hlen' lv w m es t1 [] r2 r3 r4 r6 (by omega) hg
  refine ⟨k, by omega, t', ?_⟩
  rw [run, r1]
  simp only
  rw [g1]
  rfl

end Casync.Nbd
