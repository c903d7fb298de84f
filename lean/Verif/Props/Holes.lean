import Verif.Model.Holes
/-!
Property C23: writing with holes writes the same file content as a plain write.
-/
namespace Casync.Holes
open Casync

/-- The byte at index `i` of a file of which nothing but zeroes is behind the end; a file is determined by its length and this
function. -/
def byteAt (f : Bytes) (i : Nat) : UInt8 := f.getD i 0

theorem file_ext {a b : Bytes} (hl : a.length = b.length) (h : ∀ i, byteAt a i = byteAt b i) : a = b := by
  apply List.ext_getElem hl
  intro i h1 h2
  have := h i
  simp only [byteAt, List.getD_eq_getElem?_getD, List.getElem?_eq_getElem h1, List.getElem?_eq_getElem h2,
    Option.getD_some] at this
  exact this

theorem byteAt_ge {a : Bytes} {i : Nat} (h : a.length ≤ i) : byteAt a i = 0 := by
  simp [byteAt, List.getD_eq_getElem?_getD, List.getElem?_eq_none h]

theorem byteAt_append (a b : Bytes) (i : Nat) :
    byteAt (a ++ b) i = if i < a.length then byteAt a i else byteAt b (i - a.length) := by
  simp only [byteAt, List.getD_eq_getElem?_getD]
  split
  · rename_i h; rw [List.getElem?_append_left h]
  · rename_i h; rw [List.getElem?_append_right (by omega)]

theorem byteAt_replicate (n i : Nat) : byteAt (List.replicate n 0) i = 0 := by
  simp only [byteAt, List.getD_eq_getElem?_getD, List.getElem?_replicate]
  split <;> rfl

theorem byteAt_take (a : Bytes) (n i : Nat) : byteAt (a.take n) i = if i < n then byteAt a i else 0 := by
  simp only [byteAt, List.getD_eq_getElem?_getD, List.getElem?_take]
  split <;> rfl

theorem byteAt_drop (a : Bytes) (n i : Nat) : byteAt (a.drop n) i = byteAt a (n + i) := by
  simp only [byteAt, List.getD_eq_getElem?_getD, List.getElem?_drop]

theorem pwrite_length (f : Bytes) (p : Nat) (d : Bytes) (h : d ≠ []) : (pwrite f p d).length = max f.length (p + d.length) := by
  unfold pwrite
  rw [if_neg h]
  simp only [List.length_append, List.length_take, List.length_replicate, List.length_drop]
  omega

theorem pwrite_byteAt (f : Bytes) (p : Nat) (d : Bytes) (i : Nat) :
    byteAt (pwrite f p d) i = if p ≤ i ∧ i < p + d.length then byteAt d (i - p) else byteAt f i := by
  unfold pwrite
  by_cases h : d = []
  · subst h; rw [if_pos rfl, if_neg (by simp only [List.length_nil]; omega)]
  · rw [if_neg h]
    have hd : 0 < d.length := List.length_pos_iff.2 h
    simp only [byteAt_append, List.length_append, List.length_take, List.length_replicate, byteAt_take, byteAt_replicate,
      byteAt_drop]
    have hl : min p f.length + (p - f.length) = p := by omega
    rw [hl]
    by_cases h1 : i < p
    · rw [if_pos (show i < p + d.length by omega), if_pos h1, if_pos h1, if_neg (show ¬ (p ≤ i ∧ i < p + d.length) by omega)]
      split
      · rfl
      · rw [byteAt_ge (by omega)]
    · by_cases h2 : i < p + d.length
      · rw [if_pos h2, if_neg h1, if_pos (show p ≤ i ∧ i < p + d.length by omega)]
      · rw [if_neg h2, if_neg (show ¬ (p ≤ i ∧ i < p + d.length) by omega)]
        congr 1; omega

/-- Writing twice in a row is writing the concatenation. -/
theorem pwrite_append (f : Bytes) (p : Nat) (a b : Bytes) :
    pwrite (pwrite f p a) (p + a.length) b = pwrite f p (a ++ b) := by
  by_cases ha : a = []
  · subst ha
    rw [show pwrite f p [] = f by simp [pwrite]]; simp
  · by_cases hb : b = []
    · subst hb; simp [pwrite]
    · have hab : a ++ b ≠ [] := by simp [ha]
      apply file_ext
      · rw [pwrite_length _ _ _ hb, pwrite_length _ _ _ ha, pwrite_length _ _ _ hab, List.length_append]; omega
      · intro i
        simp only [pwrite_byteAt, byteAt_append, List.length_append]
        by_cases h1 : p + a.length ≤ i ∧ i < p + a.length + b.length
        · rw [if_pos h1, if_pos (by omega), if_neg (by omega)]
          congr 1; omega
        · rw [if_neg h1]
          by_cases h2 : p ≤ i ∧ i < p + a.length
          · rw [if_pos h2, if_pos (by omega), if_pos (by omega)]
          · rw [if_neg h2, if_neg (by omega)]

/-- `Did w w' d`: getting from `w` to `w'` has the effect of a plain write of `d`. -/
def Did (w w' : World) (d : Bytes) : Prop := w'.file = pwrite w.file w.pos d ∧ w'.pos = w.pos + d.length

theorem Did.refl (w : World) : Did w w [] := ⟨by simp [pwrite], by simp⟩

theorem Did.trans {a b c : World} {x y : Bytes} (h1 : Did a b x) (h2 : Did b c y) : Did a c (x ++ y) := by
  obtain ⟨f1, p1⟩ := h1
  obtain ⟨f2, p2⟩ := h2
  refine ⟨?_, by rw [p2, p1, List.length_append]; omega⟩
  rw [f2, f1, p1, pwrite_append]

theorem sysWrite_did {env : Env} {w w' : World} {d : Bytes} {n : Nat} (h : sysWrite env w d = .ok (n, w')) :
    Did w w' (d.take n) ∧ n ≤ d.length ∧ w'.written = w.written + n ∧ (d ≠ [] → 0 < n) := by
  unfold sysWrite at h
  split at h
  · cases h
  · simp only at h
    have e1 := congrArg Prod.fst (Res.ok.inj h)
    have e2 := congrArg Prod.snd (Res.ok.inj h)
    simp only at e1 e2
    rw [e1] at e2
    subst e2
    have hn : n ≤ d.length := by omega
    refine ⟨⟨rfl, ?_⟩, hn, rfl, fun hd => ?_⟩
    · simp only [List.length_take]; omega
    · have := List.length_pos_iff.2 hd; omega

theorem loopWrite_did {env : Env} (d : Bytes) {w w' : World} (h : loopWrite env w d = .ok w') :
    Did w w' d ∧ w'.written = w.written + d.length := by
  rw [loopWrite] at h
  split at h
  · rename_i hd
    have := Res.ok.inj h; subst this hd
    exact ⟨Did.refl w, by simp⟩
  · rename_i hd
    split at h
    · cases h
    · cases h
    · rename_i n w1 hw
      obtain ⟨a1, a2, a3, a4⟩ := sysWrite_did hw
      have := a4 hd
      obtain ⟨b1, b2⟩ := loopWrite_did (d.drop n) h
      refine ⟨?_, by rw [b2, a3, List.length_drop]; omega⟩
      have := a1.trans b1
      rwa [List.take_append_drop] at this
termination_by d.length
decreasing_by
  have := List.length_pos_iff.2 ‹_›
  rw [List.length_drop]; omega

theorem writeZeroBlocks_did {env : Env} {bs : Nat} (hbs : bs ≠ 0) (l : Nat) {w w' : World}
    (h : writeZeroBlocks env w bs l = .ok w') : Did w w' (List.replicate l 0) ∧ w'.written = w.written + l := by
  rw [writeZeroBlocks] at h
  split at h
  · rename_i hl
    have hl : l = 0 := by omega
    have := Res.ok.inj h; subst this hl
    exact ⟨Did.refl w, by simp⟩
  · rename_i hl
    split at h
    · cases h
    · cases h
    · rename_i n w1 hw
      obtain ⟨a1, a2, a3, a4⟩ := sysWrite_did hw
      rw [List.length_replicate] at a2
      have hpos := a4 (by simp; omega)
      obtain ⟨b1, b2⟩ := writeZeroBlocks_did hbs (l - n) h
      refine ⟨?_, by rw [b2, a3]; omega⟩
      have := a1.trans b1
      rw [List.take_replicate, List.replicate_append_replicate, show min n (min l bs) + (l - n) = l by omega] at this
      exact this
termination_by l
decreasing_by omega

theorem extend_punch (f : Bytes) (p l : Nat) (hl : 0 < l) :
    (if p + l > f.length then extendTo (if f.length > p then punch f p l else f) (p + l)
      else (if f.length > p then punch f p l else f)) = pwrite f p (List.replicate l 0) := by
  have hne : List.replicate l (0 : UInt8) ≠ [] := by simp; omega
  have plen : f.length > p → (punch f p l).length = f.length := by
    intro h
    unfold punch
    simp only [List.length_append, List.length_take, List.length_replicate, List.length_drop]
    omega
  have pb : ∀ i, f.length > p → byteAt (punch f p l) i = if p ≤ i ∧ i < p + l then 0 else byteAt f i := by
    intro i h
    unfold punch
    simp only [byteAt_append, List.length_append, List.length_take, List.length_replicate, byteAt_take, byteAt_replicate,
      byteAt_drop]
    by_cases h1 : i < p
    · rw [if_pos (by omega), if_pos (by omega), if_pos h1, if_neg (by omega)]
    · by_cases h2 : i < p + l
      · rw [if_pos (show p ≤ i ∧ i < p + l by omega)]
        split
        · rw [if_neg (by omega)]
        · rw [byteAt_ge (by omega)]
      · rw [if_neg (show ¬ (p ≤ i ∧ i < p + l) by omega)]
        by_cases h3 : p + l ≤ f.length
        · rw [if_neg (by omega)]; congr 1; omega
        · rw [byteAt_ge (a := f) (i := i) (by omega)]
          split
          · rw [if_neg (by omega)]
          · rw [byteAt_ge (by omega)]
  have eb : ∀ (g : Bytes) (n i : Nat), byteAt (extendTo g n) i = byteAt g i := by
    intro g n i
    unfold extendTo
    rw [byteAt_append]
    split
    · rfl
    · rw [byteAt_replicate, byteAt_ge (by omega)]
  have el : ∀ (g : Bytes) (n : Nat), (extendTo g n).length = max g.length n := by
    intro g n
    unfold extendTo; rw [List.length_append, List.length_replicate]; omega
  apply file_ext
  · rw [pwrite_length _ _ _ hne, List.length_replicate]
    split
    · rw [el]
      split
      · rename_i h; rw [plen h]
      · rfl
    · split
      · rename_i h; rw [plen h]; omega
      · omega
  · intro i
    rw [pwrite_byteAt, List.length_replicate, byteAt_replicate]
    split
    · rw [eb]
      split
      · rename_i h; rw [pb i h]
      · split
        · rw [byteAt_ge (by omega)]
        · rfl
    · split
      · rename_i h; rw [pb i h]
      · omega

theorem writeZeroes_did {env : Env} {l : Nat} {w w' : World} {r : Bool} (h : writeZeroes env w l = .ok (r, w')) :
    Did w w' (List.replicate l 0) ∧ w'.written = w.written + (if r then 0 else l) := by
  unfold writeZeroes at h
  split at h
  · rename_i hl
    have e1 := congrArg Prod.fst (Res.ok.inj h)
    have e2 := congrArg Prod.snd (Res.ok.inj h)
    simp only at e1 e2
    subst e1 e2 hl
    exact ⟨Did.refl w, by simp⟩
  · rename_i hl
    have hbs : min 4096 l ≠ 0 := by omega
    simp only at h
    split at h
    · rw [Res.bind_eq_ok] at h
      obtain ⟨w1, h1, h2⟩ := h
      obtain ⟨a1, a2⟩ := writeZeroBlocks_did hbs l h1
      have e1 := congrArg Prod.fst (Res.ok.inj h2)
      have e2 := congrArg Prod.snd (Res.ok.inj h2)
      simp only at e1 e2
      subst e1 e2
      exact ⟨a1, by simpa using a2⟩
    · split at h
      · cases h
      · split at h
        · cases h
        · split at h
          · -- fallocate failed: back to the old position and write
            split at h
            · cases h
            · rw [Res.bind_eq_ok] at h
              obtain ⟨w1, h1, h2⟩ := h
              obtain ⟨a1, a2⟩ := writeZeroBlocks_did hbs l h1
              have e1 := congrArg Prod.fst (Res.ok.inj h2)
              have e2 := congrArg Prod.snd (Res.ok.inj h2)
              simp only at e1 e2
              subst e1 e2
              exact ⟨a1, by simpa using a2⟩
          · rename_i w1 hp
            have hw1 : w1.file = (if w.file.length > w.pos then punch w.file w.pos l else w.file) ∧ w1.written = w.written := by
              split at hp
              · split at hp
                · cases hp
                · rename_i hgt _ _
                  rw [if_pos hgt]
                  have := Option.some.inj hp; subst this
                  exact ⟨rfl, rfl⟩
              · rename_i hgt
                rw [if_neg hgt]
                have := Option.some.inj hp; subst this
                exact ⟨rfl, rfl⟩
            split at h
            · cases h
            · cases h
            · rename_i w2 ht
              have hw2 : w2.file = (if w.pos + l > w.file.length then extendTo w1.file (w.pos + l) else w1.file) ∧
                  w2.written = w1.written := by
                split at ht
                · split at ht
                  · cases ht
                  · rename_i hgt _ _
                    rw [if_pos hgt]
                    have := Res.ok.inj ht; subst this
                    exact ⟨rfl, rfl⟩
                · rename_i hgt
                  rw [if_neg hgt]
                  have := Res.ok.inj ht; subst this
                  exact ⟨rfl, rfl⟩
              split at h
              · cases h
              · have e1 := congrArg Prod.fst (Res.ok.inj h)
                have e2 := congrArg Prod.snd (Res.ok.inj h)
                simp only at e1 e2
                subst e1 e2
                refine ⟨⟨?_, by simp⟩, ?_⟩
                · show w2.file = _
                  rw [hw2.1, hw1.1]
                  exact extend_punch w.file w.pos l (by omega)
                · show w2.written = _
                  rw [hw2.2, hw1.2]; rfl

/-! ### the zero test -/

theorem shift_zero {d : Bytes} (h0 : ∀ i < 16, byteAt d i = 0) (hs : ∀ i, i + 16 < d.length → byteAt d i = byteAt d (i + 16)) :
    ∀ i < d.length, byteAt d i = 0 := by
  intro i
  induction i using Nat.strongRecOn with
  | ind i ih =>
    intro hi
    rcases Nat.lt_or_ge i 16 with h | h
    · exact h0 i h
    · have := hs (i - 16) (by omega)
      rw [show i - 16 + 16 = i by omega] at this
      rw [← this]; exact ih (i - 16) (by omega) (by omega)

theorem memeqzero_zero {d : Bytes} (h : memeqzero d = true) : d = List.replicate d.length 0 := by
  have key : ∀ x ∈ d, x = 0 := by
    unfold memeqzero at h
    split at h
    · intro x hx
      have := List.all_eq_true.1 h x hx
      simpa using this
    · rename_i hl
      rw [Bool.and_eq_true, decide_eq_true_eq, List.all_eq_true] at h
      obtain ⟨h1, h2⟩ := h
      have h0 : ∀ i < 16, byteAt d i = 0 := by
        intro i hi
        have := h1 (d[i]'(by omega)) (by
          rw [List.mem_take_iff_getElem]; exact ⟨i, by omega, rfl⟩)
        simp only [byteAt, List.getD_eq_getElem?_getD, List.getElem?_eq_getElem (show i < d.length by omega), Option.getD_some]
        simpa using this
      have hs : ∀ i, i + 16 < d.length → byteAt d i = byteAt d (i + 16) := by
        intro i hi
        have e1 : byteAt (d.take (d.length - 16)) i = byteAt (d.drop 16) i := by rw [h2]
        rw [byteAt_take, if_pos (by omega), byteAt_drop, Nat.add_comm 16 i] at e1
        exact e1
      intro x hx
      obtain ⟨i, hi, rfl⟩ := List.getElem_of_mem hx
      have := shift_zero h0 hs i hi
      simpa [byteAt, List.getD_eq_getElem?_getD, List.getElem?_eq_getElem hi] using this
  exact List.eq_replicate_iff.2 ⟨rfl, key⟩

/-- The other direction: every run of zeroes is recognised, so holes are not missed. -/
theorem memeqzero_iff (d : Bytes) : memeqzero d = true ↔ ∀ x ∈ d, x = 0 := by
  constructor
  · intro h x hx
    rw [memeqzero_zero h] at hx
    exact List.eq_of_mem_replicate hx
  · intro h
    unfold memeqzero
    split
    · rw [List.all_eq_true]; intro x hx; simpa using h x hx
    · rw [Bool.and_eq_true, decide_eq_true_eq, List.all_eq_true]
      refine ⟨fun x hx => by simpa using h x (List.mem_of_mem_take hx), ?_⟩
      have hd : d = List.replicate d.length 0 := List.eq_replicate_iff.2 ⟨rfl, h⟩
      rw [hd]; simp

/-! ### the loop -/

theorem take_drop_split (p : Bytes) {a b c : Nat} (h1 : a ≤ b) (h2 : b ≤ c) :
    (p.drop a).take (c - a) = (p.drop a).take (b - a) ++ (p.drop b).take (c - b) := by
  rw [show c - a = (b - a) + (c - b) by omega, List.take_add, List.drop_drop, show a + (b - a) = b by omega]

theorem holesLoop_did {env : Env} {p : Bytes} {w0 : World} : ∀ (k : Nat) {w : World} {start : Nat} {zs : Option Nat} {q np : Nat}
    {n : Nat} {w' : World}, p.length - q = k → q ≤ p.length → start ≤ q →
    (∀ z, zs = some z → start ≤ z ∧ z ≤ q ∧ (p.drop z).take (q - z) = List.replicate (q - z) 0) →
    Did w0 w (p.take start) → w.written + np = w0.written + start ∧ np ≤ start →
    holesLoop env p w start zs q np = .ok (n, w') →
    Did w0 w' p ∧ w'.written + n = w0.written + p.length ∧ n ≤ p.length := by
  intro k
  induction k using Nat.strongRecOn with
  | ind k ih =>
    intro w start zs q np n w' hk hq hsq hz hdid hcnt hrun
    rw [holesLoop.eq_def] at hrun
    -- flushing up to `q` and beyond
    have flush : ∀ {a b : Nat} {w1 : World}, a ≤ b → b ≤ p.length → Did w0 w1 (p.take a) → ∀ {w2 : World},
        Did w1 w2 ((p.drop a).take (b - a)) → Did w0 w2 (p.take b) := by
      intro a b w1 hab hb h1 w2 h2
      have := h1.trans h2
      rw [show p.take a ++ (p.drop a).take (b - a) = p.take b by
        rw [show p.take b = p.take (a + (b - a)) by congr 1; omega, List.take_add]] at this
      exact this
    split at hrun
    · rename_i hlt
      have hleft : 0 < min HOLE_MIN (p.length - q) := by simp only [HOLE_MIN]; omega
      simp only at hrun
      generalize hL : min HOLE_MIN (p.length - q) = left at hrun hleft
      have hLle : left ≤ p.length - q := by omega
      split at hrun
      · -- a block of zeroes
        rename_i hzero
        refine ih (p.length - (q + left)) (by omega) rfl (by omega) (by omega) ?_ hdid hcnt hrun
        intro z hzz
        have hblock := memeqzero_zero hzero
        rw [List.length_take, List.length_drop, show min left (p.length - q) = left by omega] at hblock
        cases zs with
        | none =>
          simp only [Option.getD_none, Option.some.injEq] at hzz
          subst hzz
          refine ⟨hsq, by omega, ?_⟩
          rw [show q + left - q = left by omega, hblock]
        | some z0 =>
          simp only [Option.getD_some, Option.some.injEq] at hzz
          subst hzz
          obtain ⟨a1, a2, a3⟩ := hz z0 rfl
          refine ⟨a1, by omega, ?_⟩
          rw [take_drop_split p a2 (Nat.le_add_right q left), a3, show q + left - q = left by omega, hblock,
            List.replicate_append_replicate]
          congr 1; omega
      · split at hrun
        · exact ih (p.length - (q + left)) (by omega) rfl (by omega) (by omega) (fun z hzz => by cases hzz) hdid hcnt hrun
        · rename_i z
          obtain ⟨a1, a2, a3⟩ := hz z rfl
          split at hrun
          · split at hrun
            · cases hrun
            · cases hrun
            · rename_i w1 hw1
              obtain ⟨b1, b2⟩ := loopWrite_did _ hw1
              have b2' : w1.written = w.written + (z - start) := by
                rw [b2, List.length_take, List.length_drop]; omega
              have c1 := flush a1 (by omega) hdid b1
              split at hrun
              · cases hrun
              · cases hrun
              · rename_i w2 hw2
                obtain ⟨d1, d2⟩ := writeZeroes_did hw2
                rw [← a3] at d1
                have c2 := flush a2 (by omega) c1 d1
                rw [Res.bind_eq_ok] at hrun
                obtain ⟨w3, hw3, hfin⟩ := hrun
                obtain ⟨e1, e2⟩ := loopWrite_did _ hw3
                have f1 := congrArg Prod.fst (Res.ok.inj hfin)
                have f2 := congrArg Prod.snd (Res.ok.inj hfin)
                simp only at f1 f2
                subst f1 f2
                refine ⟨?_, ?_⟩
                · have := c2.trans e1
                  rwa [List.take_append_drop] at this
                · rw [e2, d2, b2', List.length_drop]
                  simp only [Bool.false_eq_true, if_false]
                  omega
              · rename_i w2 hw2
                obtain ⟨d1, d2⟩ := writeZeroes_did hw2
                rw [← a3] at d1
                have c2 := flush a2 (by omega) c1 d1
                refine ih (p.length - (q + left)) (by omega) rfl (by omega) (by omega) (fun z hzz => by cases hzz) c2 ?_ hrun
                rw [d2, b2']
                simp only [if_true]
                omega
          · exact ih (p.length - (q + left)) (by omega) rfl (by omega) (by omega) (fun z hzz => by cases hzz) hdid hcnt hrun
    · rename_i hge
      have hqe : q = p.length := by omega
      have flushEnd : ∀ {w' : World} {n : Nat}, (do let w ← loopWrite env w ((p.drop start).take (q - start)); Res.ok (np, w)) = .ok (n, w') →
          Did w0 w' p ∧ w'.written + n = w0.written + p.length ∧ n ≤ p.length := by
        intro w' n hrun
        rw [Res.bind_eq_ok] at hrun
        obtain ⟨w3, hw3, hfin⟩ := hrun
        obtain ⟨e1, e2⟩ := loopWrite_did _ hw3
        have f1 := congrArg Prod.fst (Res.ok.inj hfin)
        have f2 := congrArg Prod.snd (Res.ok.inj hfin)
        simp only at f1 f2
        subst f1 f2
        refine ⟨?_, ?_⟩
        · have := flush hsq hq hdid e1
          rwa [hqe, List.take_length] at this
        · rw [e2, List.length_take, List.length_drop]; omega
      split at hrun
      · rename_i z
        obtain ⟨a1, a2, a3⟩ := hz z rfl
        split at hrun
        · rw [Res.bind_eq_ok] at hrun
          obtain ⟨w1, hw1, hrun⟩ := hrun
          rw [Res.bind_eq_ok] at hrun
          obtain ⟨⟨r, w2⟩, hw2, hrun⟩ := hrun
          obtain ⟨b1, b2⟩ := loopWrite_did _ hw1
          have b2' : w1.written = w.written + (z - start) := by
            rw [b2, List.length_take, List.length_drop]; omega
          have c1 := flush a1 (by omega) hdid b1
          obtain ⟨d1, d2⟩ := writeZeroes_did hw2
          rw [← a3] at d1
          have c2 := flush a2 (by omega) c1 d1
          have f1 := congrArg Prod.fst (Res.ok.inj hrun)
          have f2 := congrArg Prod.snd (Res.ok.inj hrun)
          simp only at f1 f2
          subst f1 f2
          refine ⟨by rwa [hqe, List.take_length] at c2, ?_⟩
          rw [d2, b2']
          cases r <;> simp <;> omega
        · exact flushEnd hrun
      · exact flushEnd hrun

/-- C23. Whenever `loop_write_with_holes` succeeds, the file is exactly what a plain write of the data at the file position
would have left (whatever the file held before, wherever the position was, however `write(2)` splits the data, and whether or
not punching holes works), the position is behind the data, and the number reported as punched is the number of bytes that were
not passed to `write(2)`. -/
theorem C23_same_content (env : Env) (w w' : World) (p : Bytes) (n : Nat) (h : loopWriteWithHoles env w p = .ok (n, w')) :
    w'.file = pwrite w.file w.pos p ∧ w'.pos = w.pos + p.length ∧ w'.written + n = w.written + p.length ∧ n ≤ p.length := by
  have := holesLoop_did (env := env) (p := p) (w0 := w) (p.length - 0) rfl (Nat.zero_le _) (Nat.le_refl 0) (fun z hz => by cases hz)
    (by simpa using Did.refl w) ⟨rfl, Nat.le_refl 0⟩ h
  obtain ⟨⟨h1, h2⟩, h3, h4⟩ := this
  exact ⟨h1, h2, h3, h4⟩

/-- C23. The result is the same as that of the plain `loop_write`, under any two environments. -/
theorem C23_equals_plain_write (env env' : Env) (w w1 w2 : World) (p : Bytes) (n : Nat)
    (h1 : loopWriteWithHoles env w p = .ok (n, w1)) (h2 : loopWrite env' w p = .ok w2) :
    w1.file = w2.file ∧ w1.pos = w2.pos := by
  obtain ⟨a, b, -, -⟩ := C23_same_content env w w1 p n h1
  obtain ⟨⟨c, d⟩, -⟩ := loopWrite_did p h2
  exact ⟨by rw [a, c], by rw [b, d]⟩

/-! ### success -/

theorem sysWrite_succeeds {env : Env} (he : ∀ t, (env t).fail = none) (w : World) (d : Bytes) :
    ∃ n w', sysWrite env w d = .ok (n, w') := by
  unfold sysWrite
  rw [he]
  exact ⟨_, _, rfl⟩

theorem loopWrite_succeeds {env : Env} (he : ∀ t, (env t).fail = none) (d : Bytes) (w : World) :
    ∃ w', loopWrite env w d = .ok w' := by
  rw [loopWrite]
  split
  · exact ⟨_, rfl⟩
  · rename_i hd
    obtain ⟨n, w', h⟩ := sysWrite_succeeds he w d
    split
    · rename_i e he'; rw [h] at he'; cases he'
    · rename_i he'; rw [h] at he'; cases he'
    · rename_i n' w1 hw
      have hpos := (sysWrite_did hw).2.2.2 hd
      have := List.length_pos_iff.2 hd
      exact loopWrite_succeeds he (d.drop n') w1
termination_by d.length
decreasing_by rw [List.length_drop]; omega

theorem writeZeroes_succeeds {env : Env} (he : ∀ t, (env t).fail = none) (w : World) (l : Nat) (hl : w.pos + l < 2 ^ 63) :
    ∃ r w', writeZeroes env w l = .ok (r, w') := by
  unfold writeZeroes
  split
  · exact ⟨_, _, rfl⟩
  · simp only [he]
    rw [if_neg (by omega)]
    split
    · rename_i h
      split at h
      · cases h
      · cases h
    · rename_i w1 h
      split
      · rename_i e ht; split at ht <;> cases ht
      · rename_i ht; split at ht <;> cases ht
      · exact ⟨_, _, rfl⟩

/-- C23. If no system call fails (and the file stays within the range of `off_t`), the function succeeds. -/
theorem C23_succeeds (env : Env) (he : ∀ t, (env t).fail = none) (w : World) (p : Bytes) (hp : w.pos + p.length < 2 ^ 63) :
    ∃ n w', loopWriteWithHoles env w p = .ok (n, w') := by
  have key : ∀ (k : Nat) (w1 : World) (start : Nat) (zs : Option Nat) (q np : Nat), p.length - q = k → q ≤ p.length →
      start ≤ q → (∀ z, zs = some z → start ≤ z ∧ z ≤ q) → w1.pos = w.pos + start →
      ∃ n w', holesLoop env p w1 start zs q np = .ok (n, w') := by
    intro k
    induction k using Nat.strongRecOn with
    | ind k ih =>
      intro w1 start zs q np hk hq hsq hz hpos
      rw [holesLoop.eq_def]
      have fl : ∃ n w', (do let w ← loopWrite env w1 ((p.drop start).take (q - start)); Res.ok (np, w)) = .ok (n, w') := by
        obtain ⟨w2, h2⟩ := loopWrite_succeeds he ((p.drop start).take (q - start)) w1
        rw [h2]; exact ⟨_, _, rfl⟩
      split
      · rename_i hlt
        have hleft : 0 < min HOLE_MIN (p.length - q) := by simp only [HOLE_MIN]; omega
        simp only
        generalize hL : min HOLE_MIN (p.length - q) = left at hleft
        split
        · refine ih (p.length - (q + left)) (by omega) _ _ _ _ _ rfl (by omega) (by omega) ?_ hpos
          intro z hzz
          cases zs with
          | none => simp only [Option.getD_none, Option.some.injEq] at hzz; omega
          | some z0 =>
            simp only [Option.getD_some, Option.some.injEq] at hzz
            have := hz z0 rfl; omega
        · split
          · exact ih (p.length - (q + left)) (by omega) _ _ _ _ _ rfl (by omega) (by omega) (fun z hzz => by cases hzz) hpos
          · rename_i z
            obtain ⟨a1, a2⟩ := hz z rfl
            split
            · obtain ⟨w2, h2⟩ := loopWrite_succeeds he ((p.drop start).take (z - start)) w1
              have p2 := (loopWrite_did _ h2).1.2
              rw [List.length_take, List.length_drop] at p2
              rw [h2]
              simp only
              obtain ⟨r, w3, h3⟩ := writeZeroes_succeeds he w2 (q - z) (by omega)
              have p3 := (writeZeroes_did h3).1.2
              rw [List.length_replicate] at p3
              rw [h3]
              cases r with
              | false =>
                simp only
                obtain ⟨w4, h4⟩ := loopWrite_succeeds he (p.drop q) w3
                rw [h4]; exact ⟨_, _, rfl⟩
              | true =>
                simp only
                exact ih (p.length - (q + left)) (by omega) _ _ _ _ _ rfl (by omega) (by omega) (fun z hzz => by cases hzz) (by omega)
            · exact ih (p.length - (q + left)) (by omega) _ _ _ _ _ rfl (by omega) (by omega) (fun z hzz => by cases hzz) hpos
      · split
        · rename_i z
          obtain ⟨a1, a2⟩ := hz z rfl
          split
          · obtain ⟨w2, h2⟩ := loopWrite_succeeds he ((p.drop start).take (z - start)) w1
            have p2 := (loopWrite_did _ h2).1.2
            rw [List.length_take, List.length_drop] at p2
            obtain ⟨r, w3, h3⟩ := writeZeroes_succeeds he w2 (q - z) (by omega)
            rw [h2, Res.bind_ok, h3]
            exact ⟨_, _, rfl⟩
          · exact fl
        · exact fl
  exact key _ w 0 none 0 0 rfl (Nat.zero_le _) (Nat.le_refl _) (fun z hz => by cases hz) rfl

/-! ### non-vacuity -/

/-- Data with zeroes in front, in the middle and at the end, written into the middle of an existing file, by a kernel that writes
at most 100 bytes at a time: the hypotheses of the theorems above are met. -/
example : ∃ n w', loopWriteWithHoles (fun _ => ⟨none, 100⟩) ⟨List.replicate 9000 7, 5000, 0, 0⟩
    (List.replicate 8192 0 ++ [1] ++ List.replicate 5000 0) = .ok (n, w') ∧
    w'.file = pwrite (List.replicate 9000 7) 5000 (List.replicate 8192 0 ++ [1] ++ List.replicate 5000 0) := by
  obtain ⟨n, w', h⟩ := C23_succeeds (fun _ => ⟨none, 100⟩) (fun _ => rfl) ⟨List.replicate 9000 7, 5000, 0, 0⟩
    (List.replicate 8192 0 ++ [1] ++ List.replicate 5000 0) (by
      rw [List.length_append, List.length_append, List.length_replicate, List.length_replicate, List.length_singleton]; show 5000 + _ < _; omega)
  exact ⟨n, w', h, (C23_same_content _ _ _ _ _ h).1⟩

end Casync.Holes
