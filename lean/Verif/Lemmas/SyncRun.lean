import Verif.Lemmas.SyncInv
namespace Casync.Sync
open Casync Casync.Index Casync.Index.Spec

variable {hd : Header} {cs : List (Bytes × Nat)} {enc rest : Bytes}

/-! ### Arrival of index data -/

theorem arrive_at (c : Canon hd cs enc) {i q d rest'} (h : At hd cs enc rest i q) (hr : rest = d ++ rest') :
    (∃ e, incWrite i d = .err e) ∨ (∃ i', incWrite i d = .ok i' ∧ At hd cs enc rest' i' q ∧ ¬ Complete i) := by
  unfold incWrite
  by_cases h0 : d.length = 0
  · left; rw [if_pos h0]; exact ⟨_, rfl⟩
  rw [if_neg h0]
  by_cases h1 : i.mode ≠ .incRead
  · left; rw [if_pos h1]; exact ⟨_, rfl⟩
  rw [if_neg h1]
  by_cases h2 : i.wroteEof = true
  · left; rw [if_pos h2]; exact ⟨_, rfl⟩
  rw [if_neg h2]
  rcases h.opened c with ⟨F, rfl, hF, hl, rfl⟩ | ⟨s, hg, hcm, hfile, p, ck, v, ho, hrh, hst⟩
  · rw [readHead_ustate_wait hl, Res.bind_ok]
    split
    · exact .inl ⟨_, rfl⟩
    · right
      refine ⟨_, rfl, ?_⟩
      have := At.newInc (hd := hd) (cs := cs) (rest := rest') (F ++ d) false (by rw [List.append_assoc, ← hr, hF]) (by simp)
      have e : ustate (F ++ d) false = { ustate F false with file := (ustate F false).file ++ d, raw := (ustate F false).raw + d.length } := by
        simp [ustate]
      rw [e] at this
      exact ⟨this, by simp [Complete, ustate]⟩
  · rw [ho, Res.bind_ok]
    split
    · exact .inl ⟨_, rfl⟩
    · right
      refine ⟨_, rfl, ?_⟩
      have hnc : ¬ Complete i := by
        rintro (h | h)
        · rw [h] at h1; exact h1 (by simp)
        · exact h2 h
      rcases hst with ⟨rfl, rfl, rfl, hre⟩ | ⟨_, _, _, hc⟩
      · cases hg with
        | file => exact absurd (hcm.2 rfl) hnc
        | inc F e hF he h64 =>
          have he' : e = false := by
            cases e with
            | true => exact absurd (hcm.2 rfl) hnc
            | false => rfl
          subst he'
          have := At.mid (hd := hd) (cs := cs) (rest := rest') ⟨.incRead, false, (F ++ d).length, F ++ d⟩ q
            (.inc (F ++ d) false (by rw [List.append_assoc, ← hr, hF]) (by simp) (by rw [List.length_append]; omega)) (h.le c).2 (by
              rcases hre with h | h | h
              · cases h
              · exact .inr (.inl h)
              · have h : 64 + 40 * q + 1 ≤ F.length := h
                refine .inr (.inr ?_)
                show _ ≤ (F ++ d).length
                rw [List.length_append]; omega)
          have e : rst hd ⟨.incRead, false, (F ++ d).length, F ++ d⟩ q (E cs q) =
              { gst hd ⟨.incRead, false, F.length, F⟩ (64 + 40 * q) (64 + 40 * q) q (E cs q) with
                file := (gst hd ⟨.incRead, false, F.length, F⟩ (64 + 40 * q) (64 + 40 * q) q (E cs q)).file ++ d,
                raw := (gst hd ⟨.incRead, false, F.length, F⟩ (64 + 40 * q) (64 + 40 * q) q (E cs q)).raw + d.length } := by
            simp [rst, rstate, gst]
          rw [e] at this
          exact ⟨this, hnc⟩
      · exact absurd (hcm.2 hc) hnc

theorem arriveEof_at (c : Canon hd cs enc) {i q} (h : At hd cs enc rest i q) (hr : rest = []) :
    (∃ e, incEof i = .err e) ∨ (∃ i', incEof i = .ok i' ∧ At hd cs enc rest i' q ∧ Complete i') := by
  unfold incEof
  by_cases h1 : i.mode ≠ .incRead
  · left; rw [if_pos h1]; exact ⟨_, rfl⟩
  rw [if_neg h1]
  by_cases h2 : i.wroteEof = true
  · left; rw [if_pos h2]; exact ⟨_, rfl⟩
  rw [if_neg h2]
  have hl := c.len
  rcases h.opened c with ⟨F, rfl, hF, hl', rfl⟩ | ⟨s, hg, hcm, hfile, p, ck, v, ho, hrh, hst⟩
  · exfalso
    rw [hr, List.append_nil] at hF
    rw [hF] at hl'; omega
  · rw [ho, Res.bind_ok]
    right
    refine ⟨_, rfl, ?_⟩
    have hnc : ¬ Complete i := by
      rintro (h | h)
      · rw [h] at h1; exact h1 (by simp)
      · exact h2 h
    rcases hst with ⟨rfl, rfl, rfl, hre⟩ | ⟨_, _, _, hc⟩
    · cases hg with
      | file => exact absurd (hcm.2 rfl) hnc
      | inc F e hF he h64 =>
        exact ⟨At.mid (hd := hd) (cs := cs) (rest := rest) ⟨.incRead, true, F.length, F⟩ q (.inc F true hF (fun _ => hr) h64) (h.le c).2 (.inl rfl), .inr rfl⟩
    · exact absurd (hcm.2 hc) hnc

/-! ### Prefetching -/

theorem bind_has {α β : Type} {x : Res α} {f : α → Res β} (hx : x ≠ .ub) : (∃ e, (x >>= f) = .err e) ∨ ∃ a, x = .ok a ∧ (x >>= f) = f a := by
  cases x with
  | ok a => exact .inr ⟨a, rfl, rfl⟩
  | err e => exact .inl ⟨e, rfl⟩
  | ub => exact absurd rfl hx

/-- The ids of chunks `p`, `p+1`, ... (`m` of them) that are not at hand. -/
def wanted (cs : List (Bytes × Nat)) (has : Bytes → Res Bool) (p m : Nat) : List Bytes :=
  (((cs.drop p).take m).map (·.1)).filter fun id => has id = .ok false

theorem prefetchLoop_rst (c : Canon hd cs enc) {s : Src} (hg : Src.Good enc rest s) {has : Bytes → Res Bool} {ask : Bytes → Res Unit} (hh : ∀ id, has id ≠ .ub)
    (ha : ∀ id, ask id ≠ .ub) : ∀ (fuel q prev : Nat), q ≤ cs.length → s.Reached q → (prev = E cs q ∨ prev = u64max) → s.F.length < fuel + q →
    (∃ e, prefetchLoop has ask fuel (rst hd s q prev) = .err e) ∨
    (∃ m p' c' v', prefetchLoop has ask fuel (rst hd s q prev) = .ok (m, wanted cs has q m, gst hd s p' c' (q + m) v') ∧ q + m ≤ cs.length ∧
      (s.complete = true → q + m = cs.length)) := by
  intro fuel
  induction fuel with
  | zero =>
    intro q prev hq hr hp hf
    have := hg.len c hq hr
    omega
  | succ fuel ih =>
    intro q prev hq hr hp hf
    rw [prefetchLoop]
    rcases read_rst c hg hq hr hp with ⟨h1, h2, _⟩ | ⟨hr', ⟨hlt, sz, h1, hsz⟩ | ⟨he, h1⟩⟩
    · right
      rw [h1]
      exact ⟨0, _, _, _, rfl, hq, fun h => by rw [h2] at h; cases h⟩
    · rw [h1]
      simp only
      have hrec := ih (q + 1) (E cs (q + 1)) (by omega) hr' (.inl rfl) (by omega)
      have hdr : cs.drop q = cs[q] :: cs.drop (q + 1) := List.drop_eq_getElem_cons hlt
      rcases bind_has (f := fun h => if h = true then prefetchLoop has ask fuel (rst hd s (q + 1) (E cs (q + 1))) >>= fun x => Res.ok (x.1 + 1, x.2.1, x.2.2)
          else ask cs[q].1 >>= fun _ => prefetchLoop has ask fuel (rst hd s (q + 1) (E cs (q + 1))) >>= fun x => Res.ok (x.1 + 1, cs[q].1 :: x.2.1, x.2.2)) (hh cs[q].1) with ⟨e, h⟩ | ⟨b, hb, h⟩
      · exact .inl ⟨e, h⟩
      · rw [h]
        cases b with
        | true =>
          rw [if_pos rfl]
          rcases hrec with ⟨e, h⟩ | ⟨m, p', c', v', h, hm, hcm⟩
          · rw [h]; exact .inl ⟨e, rfl⟩
          · right
            rw [h]
            refine ⟨m + 1, p', c', v', ?_, by omega, fun h => by have := hcm h; omega⟩
            rw [Res.bind_ok]
            have : wanted cs has q (m + 1) = wanted cs has (q + 1) m := by
              unfold wanted
              rw [hdr, List.take_succ_cons, List.map_cons, List.filter_cons_of_neg (by rw [hb]; simp)]
            rw [this, show q + (m + 1) = q + 1 + m by omega]
        | false =>
          rw [if_neg (by simp)]
          rcases bind_has (f := fun _ => prefetchLoop has ask fuel (rst hd s (q + 1) (E cs (q + 1))) >>= fun x => Res.ok (x.1 + 1, cs[q].1 :: x.2.1, x.2.2)) (ha cs[q].1) with ⟨e, h⟩ | ⟨_, _, h⟩
          · exact .inl ⟨e, h⟩
          · rw [h]
            rcases hrec with ⟨e, h⟩ | ⟨m, p', c', v', h, hm, hcm⟩
            · rw [h]; exact .inl ⟨e, rfl⟩
            · right
              rw [h]
              refine ⟨m + 1, p', c', v', ?_, by omega, fun h => by have := hcm h; omega⟩
              rw [Res.bind_ok]
              have : wanted cs has q (m + 1) = cs[q].1 :: wanted cs has (q + 1) m := by
                unfold wanted
                rw [hdr, List.take_succ_cons, List.map_cons, List.filter_cons_of_pos (by rw [hb]; simp)]
              rw [this, show q + (m + 1) = q + 1 + m by omega]
    · right
      rw [h1]
      exact ⟨0, _, _, _, rfl, hq, fun _ => by omega⟩

theorem restore_gst (c : Canon hd cs enc) {s : Src} (hg : Src.Good enc rest s) {q : Nat} (hq : q ≤ cs.length) (hr : s.Reached q) (p ck it v : Nat) :
    restorePosition (gst hd s p ck it v) q = .ok (rst hd s q (E cs q)) := by
  have hll := c.hl
  unfold restorePosition
  by_cases h : q > 0
  · rw [if_pos h, setPosition_gst hg (by omega), Res.bind_ok]
    have hr' : s.Reached (q - 1) := by
      rcases hr with h | h | h
      · exact .inl h
      · exact .inr (.inl (by omega))
      · exact .inr (.inr (by omega))
    have hpv : (if q - 1 = 0 then 0 else u64max) = E cs (q - 1) ∨ (if q - 1 = 0 then 0 else u64max) = u64max := by
      by_cases h : q - 1 = 0
      · rw [h]; left; rw [E_zero]; rfl
      · right; rw [if_neg h]
    rcases read_rst c hg (q := q - 1) (by omega) hr' hpv with ⟨_, h2, h3⟩ | ⟨_, ⟨hlt, sz, h1, _⟩ | ⟨he, _⟩⟩
    · exfalso
      rcases hr with h | h | h
      · rw [h2] at h; cases h
      · omega
      · apply h3
        rw [show q - 1 + 1 = q by omega]
        exact h
    · rw [h1, Res.bind_ok, show q - 1 + 1 = q by omega]
    · omega
  · rw [if_neg h, setPosition_gst hg (by omega)]
    have : q = 0 := by omega
    subst this
    rw [E_zero]; rfl

theorem available_gst (c : Canon hd cs enc) {s : Src} (hg : Src.Good enc rest s) {i p ck it v} (ho : readHead i = .ok (gst hd s p ck it v)) :
    ∃ n, available i = .ok (n, gst hd s p ck it v) ∧ n ≤ cs.length ∧ (∀ q, q < n → s.Reached (q + 1)) ∧ (s.complete = true → n = cs.length) := by
  have hl := c.len
  unfold available
  rw [ho, Res.bind_ok, if_neg (by simp [gst])]
  have h64 : (gst hd s p ck it v).startOffset = 64 := rfl
  cases hg with
  | file =>
    refine ⟨(enc.length - (64 + 40)) / 40, ?_, by omega, fun q hq => .inl rfl, fun _ => by omega⟩
    show (if enc.length < 64 + 40 then _ else _) = _
    rw [if_neg (by omega)]
    show (if true = true ∧ (enc.length - (64 + 40)) % 40 ≠ 0 then _ else _) = _
    rw [if_neg (by omega)]
    rfl
  | inc F e hF he hF64 =>
    have hFl : F.length ≤ enc.length := by rw [← hF, List.length_append]; omega
    by_cases hsm : F.length < 64 + 40
    · have he' : e = false := by
        cases e with
        | false => rfl
        | true =>
          have := he rfl
          rw [this, List.append_nil] at hF
          rw [hF] at hsm; omega
      subst he'
      refine ⟨0, ?_, Nat.zero_le _, fun q hq => by omega, fun h => by cases h⟩
      show (if F.length < 64 + 40 then _ else _) = _
      rw [if_pos hsm]
      rfl
    · refine ⟨(F.length - (64 + 40)) / 40, ?_, by omega, fun q hq => .inr (.inr ?_), fun h => ?_⟩
      · show (if F.length < 64 + 40 then _ else _) = _
        rw [if_neg hsm]
        show (if e = true ∧ (F.length - (64 + 40)) % 40 ≠ 0 then _ else _) = _
        rw [if_neg]
        · rfl
        · rintro ⟨h1, h2⟩
          have := he h1
          rw [this, List.append_nil] at hF
          rw [hF] at h2; omega
      · show _ ≤ F.length
        omega
      · have : F = enc := Good.file_of_complete (.inc F e hF he hF64) h
        rw [this]; omega

/-- The prefetch pass leaves the reader where it was. -/
theorem prefetch_at (c : Canon hd cs enc) {r : Reader} {q : Nat} (h : At hd cs enc rest r.index q) {ready has ask} (hh : ∀ id, has id ≠ .ub)
    (ha : ∀ id, ask id ≠ .ub) :
    (∃ e, prefetch r ready has ask = .err e) ∨
    (∃ ids i' k, prefetch r ready has ask = .ok (.done ids, { r with index := i', prefetched := k }) ∧ At hd cs enc rest i' q ∧ i'.file = r.index.file ∧ (Complete r.index → Complete i') ∧
      ((ids = [] ∧ k = r.prefetched ∧ (Complete r.index → ready = true → cs.length ≤ r.prefetched)) ∨
       (r.prefetched < k ∧ k ≤ cs.length ∧ ids = wanted cs has r.prefetched (k - r.prefetched) ∧ (Complete r.index → k = cs.length)))) := by
  unfold prefetch
  by_cases hready : ready = false
  · right
    rw [if_pos hready]
    exact ⟨[], r.index, r.prefetched, rfl, h, rfl, id, .inl ⟨rfl, rfl, fun _ h => by rw [hready] at h; cases h⟩⟩
  rw [if_neg hready]
  rcases h.opened c with ⟨F, hi, hF, hl, hq0⟩ | ⟨s, hg, hcm, hfile, p, ck, v, ho, hrh, hst⟩
  · have : available r.index = .err .EAGAIN := by
      unfold available
      rw [hi, readHead_new_wait hl]
      rfl
    rw [this]
    right
    exact ⟨[], r.index, r.prefetched, rfl, h, rfl, id, .inl ⟨rfl, rfl, fun hc => by rw [hi] at hc; simp [Complete, ustate] at hc⟩⟩
  · have hq := (h.le c).2
    have hreach : s.Reached q := by
      rcases hst with ⟨_, _, _, hr⟩ | ⟨_, _, _, hc⟩
      · exact hr
      · exact .inl hc
    have hat : At hd cs enc rest (gst hd s p ck q v) q := by
      rcases hst with ⟨rfl, rfl, rfl, hr⟩ | ⟨rfl, rfl, rfl, hc⟩
      · exact .mid s q hg hq hr
      · exact .fin s v hg hc
    obtain ⟨n, hav, hn, hnr, hnc⟩ := available_gst c hg hrh
    rw [hav]
    simp only
    by_cases hp : r.prefetched ≥ n
    · rw [if_pos hp]
      right
      refine ⟨[], _, r.prefetched, rfl, hat, hfile, fun h => complete_src.2 (hcm.1 h), .inl ⟨rfl, rfl, fun hc _ => ?_⟩⟩
      have := hnc (hcm.1 hc)
      omega
    · rw [if_neg hp]
      have hll := c.hl
      have hrp : s.Reached r.prefetched := by
        rcases hnr r.prefetched (by omega) with h | h | h
        · exact .inl h
        · omega
        · exact .inr (.inr (by omega))
      rw [setPosition_gst hg (by omega), Res.bind_ok]
      have hpv : (if r.prefetched = 0 then 0 else u64max) = E cs r.prefetched ∨ (if r.prefetched = 0 then 0 else u64max) = u64max := by
        by_cases h : r.prefetched = 0
        · rw [h]; left; rw [E_zero]; rfl
        · right; rw [if_neg h]
      have hload := prefetchLoop_rst c hg hh ha (s.F.length + 1) r.prefetched _ (by omega) hrp hpv (by omega)
      have hfl : (rst hd s r.prefetched (if r.prefetched = 0 then 0 else u64max)).file.length + 1 = s.F.length + 1 := rfl
      rw [hfl]
      rcases hload with ⟨e, he⟩ | ⟨m, p', c', v', hm, hm1, hm2⟩
      · left
        rw [he]
        exact ⟨e, rfl⟩
      · rw [hm, Res.bind_ok]
        simp only
        have hip : (gst hd s p ck q v).itemPos = q := rfl
        rw [hip, restore_gst c hg hq hreach, Res.bind_ok]
        right
        refine ⟨_, _, _, rfl, .mid s q hg hq hreach, hfile, fun h => complete_src.2 (hcm.1 h), ?_⟩
        by_cases hm0 : m = 0
        · -- the first chunk is available, so at least one was seen
          exfalso
          subst hm0
          have h1 := hnr r.prefetched (by omega)
          have : ∃ fuel, s.F.length + 1 = fuel + 1 := ⟨_, rfl⟩
          rw [prefetchLoop] at hm
          rcases read_rst c hg (q := r.prefetched) (by omega) hrp hpv with ⟨_, h2, h3⟩ | ⟨_, ⟨hlt, sz, h4, _⟩ | ⟨he, _⟩⟩
          · rcases h1 with h | h | h
            · rw [h2] at h; cases h
            · omega
            · exact h3 h
          · rw [h4] at hm
            simp only at hm
            obtain ⟨b, _, hm⟩ := Res.bind_eq_ok.1 hm
            split at hm
            · obtain ⟨x, _, hm⟩ := Res.bind_eq_ok.1 hm
              injection hm with hm; injection hm with hm _
              omega
            · obtain ⟨_, _, hm⟩ := Res.bind_eq_ok.1 hm
              obtain ⟨x, _, hm⟩ := Res.bind_eq_ok.1 hm
              injection hm with hm; injection hm with hm _
              omega
          · omega
        · right
          refine ⟨by omega, hm1, ?_, fun hc => hm2 (hcm.1 hc)⟩
          rw [show r.prefetched + m - r.prefetched = m by omega]

end Casync.Sync
