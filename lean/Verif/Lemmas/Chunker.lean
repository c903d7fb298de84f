import Verif.Lemmas.ChunkerHash
/-! Simulation of the chunker state machine by the reference chunker. -/
namespace Casync.Chunker
open Casync Casync.Chunker.Spec

/-- Position (1-based) of the first cut in `p`, when `d` are the bytes since the last cut. -/
def cutPos (s : Sizes) (d : List UInt8) : List UInt8 → Option Nat
  | [] => none
  | b :: r => if isCut s (d ++ [b]) then some 1 else (cutPos s (d ++ [b]) r).map (· + 1)

def skipOf (s : Sizes) : Nat := s.min - 48

/-- `c` is the state reached after the bytes `d` since the last cut. -/
structure Rep (s : Sizes) (c : Chunker) (d : List UInt8) : Prop where
  cfg : sizesOf c = s
  csize : c.csize = d.length
  wlen : c.window.length = 48
  fixed : s.fixed → d.length < s.avg
  low : ¬ s.fixed → d.length < skipOf s + 48 →
    c.h = 0 ∧ c.wsize = d.length - skipOf s ∧ c.window.take c.wsize = d.drop (skipOf s)
  high : ¬ s.fixed → skipOf s + 48 ≤ d.length →
    c.wsize = 48 ∧ c.h = windowHash (lastN 48 d) ∧
    ∀ i, i < d.length → d.length ≤ i + 48 → c.window[(i - skipOf s) % 48]? = d[i]?

theorem rep_reset {s : Sizes} {c : Chunker} (hv : s.Valid) (hc : sizesOf c = s)
    (hw : c.window.length = 48) : Rep s (reset c) [] := by
  refine ⟨hc, rfl, hw, ?_, ?_, ?_⟩
  · intro _; have := hv.1; have := hv.2.1; simp; omega
  · intro _ _; simp [reset]
  · intro _ h; simp at h

theorem rep_fresh {c : Chunker} (h : Fresh c) : Rep (sizesOf c) c [] := by
  obtain ⟨hv, h1, h2, h3, h4⟩ := h
  have : reset c = c := by cases c; simp_all [reset]
  rw [← this]; exact rep_reset hv rfl h4

theorem isCut_low {s : Sizes} {d : List UInt8} (hf : ¬ s.fixed) (h : d.length < skipOf s + 48) :
    ¬ isCut s d := by
  unfold isCut skipOf at *
  rw [if_neg hf]
  omega

theorem cutPos_low {s : Sizes} (hf : ¬ s.fixed) (m : Nat) (d p : List UInt8)
    (hm : m ≤ p.length) (h : d.length + m < skipOf s + 48) :
    cutPos s d p = (cutPos s (d ++ p.take m) (p.drop m)).map (· + m) := by
  induction m generalizing d p with
  | zero => simp
  | succ m ih =>
    cases p with
    | nil => simp at hm
    | cons b r =>
      rw [cutPos, if_neg (isCut_low hf (by simp; omega)), ih _ _ (by simpa using hm) (by simp; omega)]
      simp [Option.map_map, Function.comp_def, Nat.add_assoc]

theorem lastN_snoc_cons {d : List UInt8} (h : 48 ≤ d.length) (b : UInt8) :
    ∃ a w, d[d.length - 48]? = some a ∧ lastN 48 d = a :: w ∧ w.length = 47 ∧
      lastN 48 (d ++ [b]) = w ++ [b] := by
  have hlt : d.length - 48 < d.length := by omega
  refine ⟨d[d.length - 48], d.drop (d.length - 48 + 1), by simp [hlt], ?_, ?_, ?_⟩
  · unfold lastN; exact List.drop_eq_getElem_cons hlt
  · simp; omega
  · unfold lastN
    have e : (d ++ [b]).length - 48 = d.length - 48 + 1 := by simp; omega
    rw [e, List.drop_append_of_le_length (by omega)]

theorem shallBreak_iff {s : Sizes} {c : Chunker} {d : List UInt8} (hc : sizesOf c = s)
    (hf : ¬ s.fixed) (hs : c.csize = d.length) (hl : skipOf s + 48 ≤ d.length)
    (hh : c.h = windowHash (lastN 48 d)) : shallBreak c = true ↔ isCut s d := by
  subst hc
  unfold shallBreak isCut skipOf at *
  rw [if_neg hf]
  have h1 : (sizesOf c).min = c.min := rfl
  have h2 : (sizesOf c).max = c.max := rfl
  have h3 : (sizesOf c).discr = c.discr := rfl
  simp only [hs, hh, h1, h2, h3, Bool.or_eq_true, decide_eq_true_eq, beq_iff_eq] at *
  constructor
  · intro h; exact ⟨by omega, by omega, h⟩
  · intro h; exact h.2.2

/-- Result expected of a scan: where the first cut is and the state afterwards. -/
def ScanSpec (s : Sizes) (d p : List UInt8) (k : Nat) (r : Option Nat × Chunker) : Prop :=
  r.1 = (cutPos s d p).map (· + k) ∧
  match r.1 with
  | none => Rep s r.2 (d ++ p)
  | some _ => Rep s r.2 []

theorem rollLoop_spec {s : Sizes} (hv : s.Valid) (hf : ¬ s.fixed) (p : List UInt8) :
    ∀ (c : Chunker) (d : List UInt8) (idx k : Nat), Rep s c d → skipOf s + 48 ≤ d.length →
      idx = (d.length - skipOf s) % 48 →
      ScanSpec s d p k (rollLoop c idx k p) := by
  induction p with
  | nil =>
    intro c d idx k hr _ _
    simp [ScanSpec, rollLoop, cutPos]; exact hr
  | cons b r ih =>
    intro c d idx k hr hl hi
    obtain ⟨hw48, hh, hring⟩ := hr.high hf hl
    obtain ⟨a, w, ha, hlast, hwl, hlast'⟩ := lastN_snoc_cons (d := d) (by omega) b
    have hleave : c.window.getD idx 0 = a := by
      have := hring (d.length - 48) (by omega) (by omega)
      rw [ha] at this
      have e : (d.length - 48 - skipOf s) % 48 = idx := by omega
      rw [e] at this
      simp [List.getD, this]
    have hidx : idx < 48 := by omega
    have hh' : rol32 c.h 1 ^^^ rol32 (tab a) c.wsize ^^^ tab b = windowHash (lastN 48 (d ++ [b])) := by
      rw [hh, hlast, hw48, hlast', ← windowHash_roll a w b, hwl]
    rw [rollLoop]
    simp only [roll, hleave, hh']
    let c1 : Chunker := { c with h := windowHash (lastN 48 (d ++ [b])), csize := c.csize + 1 }
    have hcfg : sizesOf c1 = s := hr.cfg
    have hsb : shallBreak c1 = true ↔ isCut s (d ++ [b]) :=
      shallBreak_iff hcfg hf (by simp [c1, hr.csize]) (by simp; omega) rfl
    change ScanSpec s d (b :: r) k (if shallBreak c1 = true then _ else _)
    by_cases hcut : isCut s (d ++ [b])
    · rw [if_pos (hsb.2 hcut)]
      refine ⟨?_, ?_⟩
      · simp [cutPos, hcut, Nat.add_comm]
      · exact rep_reset hv hcfg hr.wlen
    · rw [if_neg (fun h => hcut (hsb.1 h))]
      let c2 : Chunker := { c1 with window := c1.window.set idx b }
      have hr2 : Rep s c2 (d ++ [b]) := by
        refine ⟨hcfg, by simp [c2, c1, hr.csize], by simp [c2, c1, hr.wlen], fun h => absurd h hf,
          fun _ h => absurd h (by simp; omega), fun _ _ => ⟨hw48, rfl, ?_⟩⟩
        intro i hi1 hi2
        simp only [List.length_append, List.length_cons, List.length_nil] at hi1 hi2
        by_cases hid : i = d.length
        · subst hid
          simp [c2, c1, ← hi, hidx, hr.wlen]
        · have hne : idx ≠ (i - skipOf s) % 48 := by
            rw [hi]; omega
          simp only [c2, c1]
          rw [List.getElem?_set_ne hne, hring i (by omega) (by omega),
            List.getElem?_append_left (by omega)]
      have hi' : (if idx + 1 = windowSize then 0 else idx + 1) =
          ((d ++ [b]).length - skipOf s) % 48 := by
        simp only [List.length_append, List.length_cons, List.length_nil, windowSize]
        by_cases h48 : idx + 1 = 48
        · rw [if_pos h48]; omega
        · rw [if_neg h48]; omega
      have := ih c2 (d ++ [b]) _ (k + 1) hr2 (by simp; omega) hi'
      obtain ⟨g1, g2⟩ := this
      refine ⟨?_, ?_⟩
      · rw [show (rollLoop _ _ _ _).1 = _ from g1, cutPos, if_neg hcut]
        simp only [Option.map_map, Function.comp_def]
        congr 1; funext x; omega
      · have e : d ++ [b] ++ r = d ++ b :: r := by simp
        rw [e] at g2
        exact g2

theorem cutPos_fixed {s : Sizes} (hf : s.fixed) (p d : List UInt8) (hd : d.length < s.avg) :
    cutPos s d p = if s.avg - d.length ≤ p.length then some (s.avg - d.length) else none := by
  induction p generalizing d with
  | nil => simp [cutPos]; omega
  | cons b r ih =>
    rw [cutPos]
    by_cases h : isCut s (d ++ [b])
    · rw [if_pos h]
      simp [isCut, if_pos hf] at h
      rw [if_pos (by simp; omega)]; congr 1; omega
    · rw [if_neg h]
      simp [isCut, if_pos hf] at h
      rw [ih _ (by simp; omega)]
      simp only [List.length_append, List.length_cons, List.length_nil]
      by_cases h2 : s.avg - d.length ≤ r.length + 1
      · rw [if_pos h2, if_pos (by omega)]; simp; omega
      · rw [if_neg h2, if_neg (by omega)]; simp

theorem copyAt_take {w src : List UInt8} {off : Nat} (h : off ≤ w.length) :
    (copyAt w off src).take (off + src.length) = w.take off ++ src := by
  unfold copyAt
  rw [List.take_append_of_le_length (by simp; omega)]
  rw [List.take_of_length_le (by simp; omega)]

theorem copyAt_length {w src : List UInt8} {off : Nat} (h : off + src.length ≤ w.length) :
    (copyAt w off src).length = w.length := by
  simp [copyAt]; omega

theorem isFixed_iff {c : Chunker} : isFixed c = true ↔ (sizesOf c).fixed := by
  simp [isFixed, sizesOf, Sizes.fixed]

theorem Sizes.skip_eq (c : Chunker) :
    (if c.min > windowSize then c.min - windowSize else 0) = skipOf (sizesOf c) := by
  simp only [windowSize, skipOf, sizesOf]; split <;> omega

theorem scan_spec {s : Sizes} (hv : s.Valid) {c : Chunker} {d p : List UInt8} (hr : Rep s c d) :
    ∃ r, scan c p = .ok r ∧ ScanSpec s d p 0 r := by
  have hcfg := hr.cfg
  unfold scan
  by_cases hf : s.fixed
  · have hif : isFixed c = true := by rw [isFixed_iff, hcfg]; exact hf
    have hd := hr.fixed hf
    have havg : c.avg = s.avg := by rw [← hcfg]; rfl
    rw [if_pos hif, hr.csize, havg]
    simp only [hd, not_true_eq_false, if_false]
    have hcp := cutPos_fixed hf p d hd
    by_cases h : s.avg - d.length ≤ p.length
    · have hm : (s.avg - d.length).min p.length = s.avg - d.length := by
        exact Nat.min_eq_left h
      rw [hm, if_neg (by omega)]
      refine ⟨_, rfl, ?_, ?_⟩
      · simp [hcp, h]
      · exact rep_reset hv (by rw [← hcfg]; rfl) hr.wlen
    · have hm : (s.avg - d.length).min p.length = p.length := by
        exact Nat.min_eq_right (by omega)
      rw [hm, if_pos (by omega)]
      refine ⟨_, rfl, ?_, ?_⟩
      · simp [hcp, h]
      · exact ⟨by rw [← hcfg]; rfl, by simp, hr.wlen, fun _ => by simp; omega,
          fun h => absurd hf h, fun h => absurd hf h⟩
  · have hif : ¬ isFixed c = true := by rw [isFixed_iff, hcfg]; exact hf
    rw [if_neg hif]
    simp only [Sizes.skip_eq, hcfg]
    generalize hsk : skipOf s = skip
    rw [hr.csize]
    by_cases hearly : d.length < skip ∧ (if d.length < skip then skip - d.length else 0) ≥ p.length
    · rw [if_pos hearly]
      obtain ⟨h1, h2⟩ := hearly
      rw [if_pos h1] at h2
      refine ⟨_, rfl, ?_, ?_⟩
      · rw [cutPos_low hf p.length d p (Nat.le_refl _) (by omega)]
        simp [cutPos]
      · obtain ⟨g1, g2, g3⟩ := hr.low hf (by omega)
        have hws : c.wsize = 0 := by omega
        refine ⟨hcfg, by simp, hr.wlen, fun h => absurd h hf, fun _ _ => ⟨g1, ?_, ?_⟩,
          fun _ h => ?_⟩
        · simp [hws, hsk]; omega
        · simp [hws, hsk, List.length_append]; omega
        · simp at h; omega
    · rw [if_neg hearly]
      generalize hk : (if d.length < skip then skip - d.length else 0) = k at hearly ⊢
      have hkp : k ≤ p.length := by
        by_cases hh : d.length < skip
        · rw [if_pos hh] at hk
          have : ¬ k ≥ p.length := fun h => hearly ⟨hh, h⟩
          omega
        · rw [if_neg hh] at hk; omega
      -- state after skipping
      let d1 := d ++ p.take k
      have hd1l : d1.length = d.length + k := by simp [d1]; omega
      let c1 : Chunker := { c with csize := d.length + k }
      have hr1 : Rep s c1 d1 ∧ skip ≤ d1.length := by
        by_cases hh : d.length < skip
        · rw [if_pos hh] at hk
          obtain ⟨g1, g2, g3⟩ := hr.low hf (by omega)
          have hws : c.wsize = 0 := by omega
          refine ⟨⟨hcfg, by simp [c1, hd1l], hr.wlen, fun h => absurd h hf, fun _ _ => ⟨g1, ?_, ?_⟩,
            fun _ h => ?_⟩, by omega⟩
          · simp [c1, hws, hsk]; omega
          · simp [c1, hws, hsk, hd1l]; omega
          · omega
        · rw [if_neg hh] at hk
          subst hk
          have : d1 = d := by simp [d1]
          have hc1 : c1 = c := by simp [c1, ← hr.csize]
          rw [this, hc1]
          exact ⟨hr, by omega⟩
      obtain ⟨hr1, hsk1⟩ := hr1
      have hpos1 : cutPos s d p = (cutPos s d1 (p.drop k)).map (· + k) := by
        by_cases hh : d.length < skip
        · rw [if_pos hh] at hk
          exact cutPos_low hf k d p hkp (by omega)
        · rw [if_neg hh] at hk; subst hk; simp [d1]
      have happ1 : d1 ++ p.drop k = d ++ p := by simp [d1]
      generalize hq : p.drop k = q at hpos1 happ1
      have hfin : ∀ r, ScanSpec s d1 q k r → ScanSpec s d p 0 r := by
        intro r ⟨g1, g2⟩
        refine ⟨by rw [g1, hpos1]; simp [Function.comp_def], ?_⟩
        rw [← happ1]; exact g2
      by_cases hlow : d1.length < skip + 48
      · obtain ⟨g1, g2, g3⟩ := hr1.low hf (by omega)
        have g1' : c.h = 0 := g1
        have g2' : c.wsize = d1.length - skip := by rw [← hsk]; exact g2
        have g3' : c.window.take c.wsize = d1.drop skip := by rw [← hsk]; exact g3
        have hws : c.wsize < windowSize := by simp only [windowSize]; omega
        rw [if_pos hws]
        generalize hm : (windowSize - c.wsize).min q.length = m
        have hmq : m ≤ q.length := by rw [← hm]; exact Nat.min_le_right _ _
        have hmw : c.wsize + m ≤ 48 := by
          rw [← hm]; have := Nat.min_le_left (windowSize - c.wsize) q.length
          simp only [windowSize] at *
          have : (48 - c.wsize).min q.length ≤ 48 - c.wsize := this
          omega
        have htk : (copyAt c.window c.wsize (q.take m)).take (c.wsize + m) = d1.drop skip ++ q.take m := by
          have := copyAt_take (w := c.window) (src := q.take m) (off := c.wsize) (by rw [hr.wlen]; omega)
          rw [g3'] at this
          rwa [List.length_take, Nat.min_eq_left hmq] at this
        have hwl : (copyAt c.window c.wsize (q.take m)).length = 48 := by
          rw [copyAt_length, hr.wlen]
          rw [List.length_take, Nat.min_eq_left hmq, hr.wlen]; exact hmw
        by_cases hfull : c.wsize + m < windowSize
        · rw [if_pos hfull]
          have hfull' : c.wsize + m < 48 := hfull
          have hmq' : m = q.length := by
            rw [← hm] at hfull' ⊢
            have e : (windowSize - c.wsize).min q.length = min (48 - c.wsize) q.length := rfl
            rw [e] at hfull' ⊢; omega
          refine ⟨_, rfl, hfin _ ⟨?_, ?_⟩⟩
          · rw [cutPos_low hf q.length d1 q (Nat.le_refl _) (by omega)]
            simp [cutPos]
          · simp only
            refine ⟨hcfg, by simp [hd1l, hmq'], hwl, fun h => absurd h hf, fun _ _ => ⟨g1', ?_, ?_⟩,
              fun _ h => ?_⟩
            · simp [hmq', hsk]; omega
            · simp only [htk, hsk]
              rw [hmq', List.take_length, List.drop_append_of_le_length hsk1]
            · rw [List.length_append] at h; omega
        · rw [if_neg hfull]
          have hfull' : c.wsize + m = 48 := by simp only [windowSize] at hfull; omega
          let d2 := d1 ++ q.take m
          have hd2l : d2.length = skip + 48 := by
            simp only [d2, List.length_append, List.length_take]; omega
          have hlast : lastN 48 d2 = d1.drop skip ++ q.take m := by
            unfold lastN
            rw [hd2l, Nat.add_sub_cancel]
            exact List.drop_append_of_le_length hsk1
          have hwin : (copyAt c.window c.wsize (q.take m)) = d1.drop skip ++ q.take m := by
            rw [← htk, hfull']
            exact (List.take_of_length_le (Nat.le_of_eq hwl)).symm
          have hz : ∀ x : BitVec 32, 0 ^^^ x = x := fun x => BitVec.zero_xor
          simp only [start, startLoop_eq, htk, g1', hz, ← hlast]
          let c2 : Chunker := { h := windowHash (lastN 48 d2), wsize := (lastN 48 d2).length, csize := d.length + k + m, min := c.min, max := c.max, avg := c.avg, discr := c.discr, window := copyAt c.window c.wsize (q.take m) }
          have hlastlen : (lastN 48 d2).length = 48 := by simp [lastN]; omega
          have hr2 : Rep s c2 d2 := by
            refine ⟨hcfg, ?_, hwl, fun h => absurd h hf, fun _ h => ?_, fun _ _ => ⟨hlastlen, rfl, ?_⟩⟩
            · simp only [c2, hd2l]; omega
            · omega
            · intro i hi1 hi2
              have e1 : (i - skipOf s) % 48 = i - skip := by omega
              simp only [c2, e1, hwin, ← hlast, lastN]
              rw [List.getElem?_drop]
              congr 1; omega
          have hsb : shallBreak c2 = true ↔ isCut s d2 :=
            shallBreak_iff hcfg hf hr2.csize (by omega) rfl
          have hfin2 : ∀ r, ScanSpec s d2 (q.drop m) (k + m) r → m ≥ 1 → ¬ isCut s d2 →
              ScanSpec s d1 q k r := by
            intro r ⟨t1, t2⟩ hm1 hnc
            refine ⟨?_, ?_⟩
            · rw [t1, cutPos_low hf (m - 1) d1 q (by omega) (by omega)]
              have hsplit : q.drop (m - 1) = q[m - 1] :: q.drop m := by
                have := List.drop_eq_getElem_cons (l := q) (i := m - 1) (by omega)
                rw [this]; congr 2; omega
              have hd2' : d1 ++ q.take (m - 1) ++ [q[m - 1]] = d2 := by
                simp only [d2, List.append_assoc, List.append_cancel_left_eq]
                rw [List.take_append_getElem]; congr 1; omega
              rw [hsplit, cutPos, hd2', if_neg hnc]
              simp only [Option.map_map, Function.comp_def]
              congr 1; funext x; omega
            · have : d2 ++ q.drop m = d1 ++ q := by simp [d2]
              rw [← this]; exact t2
          have hm1 : m ≥ 1 := by omega
          by_cases hcut : isCut s d2
          · rw [if_pos (hsb.2 hcut)]
            refine ⟨_, rfl, hfin _ ⟨?_, rep_reset hv hcfg hwl⟩⟩
            rw [cutPos_low hf (m - 1) d1 q (by omega) (by omega)]
            have hsplit : q.drop (m - 1) = q[m - 1] :: q.drop m := by
              have := List.drop_eq_getElem_cons (l := q) (i := m - 1) (by omega)
              rw [this]; congr 2; omega
            have hd2' : d1 ++ q.take (m - 1) ++ [q[m - 1]] = d2 := by
              simp only [d2, List.append_assoc, List.append_cancel_left_eq]
              rw [List.take_append_getElem]; congr 1; omega
            rw [hsplit, cutPos, hd2', if_pos hcut]
            simp; omega
          · rw [if_neg (fun h => hcut (hsb.1 h))]
            refine ⟨_, rfl, hfin _ (hfin2 _ ?_ hm1 hcut)⟩
            refine rollLoop_spec hv hf _ c2 d2 _ _ hr2 (by omega) ?_
            simp only [windowSize]; omega
      · obtain ⟨g1, g2, g3⟩ := hr1.high hf (by omega)
        have g1' : c.wsize = 48 := g1
        have hws : ¬ c.wsize < windowSize := by simp only [windowSize]; omega
        rw [if_neg hws]
        refine ⟨_, rfl, hfin _ ?_⟩
        refine rollLoop_spec hv hf _ c1 d1 _ _ hr1 (by omega) ?_
        simp only [windowSize]; omega

theorem cutPos_bounds {s : Sizes} {d p : List UInt8} {k : Nat} (h : cutPos s d p = some k) :
    1 ≤ k ∧ k ≤ p.length := by
  induction p generalizing d k with
  | nil => simp [cutPos] at h
  | cons b r ih =>
    rw [cutPos] at h
    split at h
    · simp at h; subst h; simp
    · simp only [Option.map_eq_some_iff] at h
      obtain ⟨a, h1, h2⟩ := h
      have := ih h1
      simp; omega

theorem split_cut {s : Sizes} {d p : List UInt8} {k : Nat} (h : cutPos s d p = some k) (x : List UInt8) :
    split s d (p ++ x) = ((d ++ p.take k) :: (split s [] (p.drop k ++ x)).1, (split s [] (p.drop k ++ x)).2) := by
  induction p generalizing d k with
  | nil => simp [cutPos] at h
  | cons b r ih =>
    rw [cutPos] at h
    rw [List.cons_append, split]
    split at h
    · rename_i hc; simp at h; subst h; simp [hc]
    · rename_i hc
      simp only [Option.map_eq_some_iff] at h
      obtain ⟨a, h1, h2⟩ := h
      rw [if_neg hc, ih h1]
      subst h2; simp

theorem split_nocut {s : Sizes} {d p : List UInt8} (h : cutPos s d p = none) (x : List UInt8) :
    split s d (p ++ x) = split s (d ++ p) x := by
  induction p generalizing d with
  | nil => simp
  | cons b r ih =>
    rw [cutPos] at h
    rw [List.cons_append, split]
    split at h
    · simp at h
    · rename_i hc
      simp only [Option.map_eq_none_iff] at h
      rw [if_neg hc, ih h]; simp

/-- State of a writer: the chunker holds the buffered bytes. -/
def WRep (s : Sizes) (w : Writer) : Prop := Rep s w.chunker w.buffer

theorem writeLoop_spec {s : Sizes} (hv : s.Valid) : ∀ (fuel : Nat) (w : Writer) (p : List UInt8),
    p.length ≤ fuel → WRep s w →
    ∃ w' new, writeLoop fuel w p = .ok w' ∧ WRep s w' ∧ w'.out = w.out ++ new ∧
      ∀ x, split s w.buffer (p ++ x) = (new ++ (split s w'.buffer x).1, (split s w'.buffer x).2) := by
  intro fuel
  induction fuel with
  | zero =>
    intro w p hp hw
    have : p = [] := List.eq_nil_of_length_eq_zero (by omega)
    subst this
    exact ⟨w, [], by simp [writeLoop], hw, by simp, by simp⟩
  | succ fuel ih =>
    intro w p hp hw
    cases p with
    | nil => exact ⟨w, [], by simp [writeLoop], hw, by simp, by simp⟩
    | cons b r =>
      generalize hpp : b :: r = p at *
      obtain ⟨⟨o, c⟩, hs, ho, hrep⟩ := scan_spec hv (p := p) hw
      simp only [Nat.add_zero, Option.map_id_fun', id] at ho
      rw [← hpp, writeLoop, hpp, hs]
      cases o with
      | none =>
        simp only at hrep ⊢
        refine ⟨_, [], rfl, hrep, by simp, ?_⟩
        intro x; simp [split_nocut ho.symm]
      | some k =>
        simp only at hrep ⊢
        have hk := cutPos_bounds ho.symm
        obtain ⟨w', new, h1, h2, h3, h5⟩ := ih
          { chunker := c, buffer := [], out := w.out ++ [w.buffer ++ p.take k] } (p.drop k)
          (by simp; omega) hrep
        refine ⟨w', (w.buffer ++ p.take k) :: new, h1, h2, by simp [h3], ?_⟩
        intro x
        rw [split_cut ho.symm, h5]; simp

theorem writeAll_spec {s : Sizes} (hv : s.Valid) : ∀ (bs : List (List UInt8)) (w : Writer),
    WRep s w →
    ∃ w' new, writeAll w bs = .ok w' ∧ WRep s w' ∧ w'.out = w.out ++ new ∧
      ∀ x, split s w.buffer (bs.flatten ++ x) = (new ++ (split s w'.buffer x).1, (split s w'.buffer x).2) := by
  intro bs
  induction bs with
  | nil => intro w hw; exact ⟨w, [], rfl, hw, by simp, by simp⟩
  | cons p ps ih =>
    intro w hw
    obtain ⟨w1, n1, a1, a2, a3, a5⟩ := writeLoop_spec hv p.length w p (Nat.le_refl _) hw
    obtain ⟨w2, n2, b1, b2, b3, b5⟩ := ih w1 a2
    refine ⟨w2, n1 ++ n2, ?_, b2, by simp [b3, a3], ?_⟩
    · simp only [writeAll, writeChunks, a1, Res.bind_ok, b1]
    · intro x
      simp only [List.flatten_cons, List.append_assoc]
      rw [a5, b5]

theorem writeAll_split {s : Sizes} (hv : s.Valid) (bs : List (List UInt8)) (w : Writer)
    (hw : WRep s w) : ∃ w', writeAll w bs = .ok w' ∧ WRep s w' ∧
      w'.out = w.out ++ (split s w.buffer bs.flatten).1 ∧
      w'.buffer = (split s w.buffer bs.flatten).2 := by
  obtain ⟨w', new, h1, h2, h3, h4⟩ := writeAll_spec hv bs w hw
  have := h4 []
  simp only [List.append_nil, split] at this
  exact ⟨w', h1, h2, by rw [h3, this], by rw [this]⟩

theorem split_flatten (s : Sizes) (p d : List UInt8) :
    (split s d p).1.flatten ++ (split s d p).2 = d ++ p := by
  induction p generalizing d with
  | nil => simp [split]
  | cons b r ih =>
    rw [split]
    split
    · simp [ih]
    · simp [ih]

theorem split_nonempty (s : Sizes) (p d : List UInt8) : ∀ c ∈ (split s d p).1, c ≠ [] := by
  induction p generalizing d with
  | nil => simp [split]
  | cons b r ih =>
    rw [split]
    split
    · intro c hc
      simp only [List.mem_cons] at hc
      rcases hc with h | h
      · subst h; simp
      · exact ih _ _ h
    · exact ih _

/-- The current chunk is below its upper bound. -/
def Below (s : Sizes) (d : List UInt8) : Prop :=
  if s.fixed then d.length < s.avg else d.length < Nat.max s.max 48

theorem split_sizes {s : Sizes} (hv : s.Valid) (p d : List UInt8) (hd : Below s d) :
    (∀ c ∈ (split s d p).1, isCut s c ∧
      c.length ≤ (if s.fixed then s.avg else Nat.max s.max 48)) ∧ Below s (split s d p).2 := by
  induction p generalizing d with
  | nil => simpa [split] using hd
  | cons b r ih =>
    rw [split]
    have h0 : Below s [] := by
      unfold Below Sizes.Valid at *
      split
      · simp; omega
      · simp only [List.length_nil]; have : (48:Nat) ≤ Nat.max s.max 48 := Nat.le_max_right _ _; omega
    split
    · rename_i hc
      refine ⟨?_, (ih [] h0).2⟩
      intro c hcm
      simp only [List.mem_cons] at hcm
      rcases hcm with h | h
      · subst h
        refine ⟨hc, ?_⟩
        unfold Below at hd
        split at hd <;> simp_all <;> omega
      · exact (ih [] h0).1 _ h
    · rename_i hc
      apply ih
      unfold Below isCut Sizes.Valid at *
      split
      · rename_i hf
        rw [if_pos hf] at hc; simp at hc ⊢; omega
      · rename_i hf
        rw [if_neg hf] at hc hd
        simp only [List.length_append, List.length_cons, List.length_nil] at *
        have e : Nat.max s.max 48 = max s.max 48 := rfl
        rw [e] at hd ⊢
        omega

theorem rep_below {s : Sizes} (hv : s.Valid) : Below s [] := by
  unfold Below Sizes.Valid at *
  split
  · simp; omega
  · simp only [List.length_nil]; have : (48:Nat) ≤ Nat.max s.max 48 := Nat.le_max_right _ _; omega

theorem writeFinal_eq {w : Writer} :
    writeFinal w = if w.buffer = [] then w.out else w.out ++ [w.buffer] := by
  unfold writeFinal
  cases w.buffer <;> simp

end Casync.Chunker
