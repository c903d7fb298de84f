import Verif.Model.Cache
import Verif.Spec.Cache
import Verif.Props.Location
import Verif.Props.Origin
import Verif.Props.ChunkId
/-!
C35: the chunk cache delivers the id stored for exactly the location asked for.
-/
namespace Casync.Cache
open Casync CacheSpec OriginSpec
open Casync.Origin (Inv Known C19_put inv_empty allBytes_cons allBytes_append)

/-! ### Texts -/

theorem digit_ne_zero {b : UInt8} (h : Number.isDigit 16 b = true) : b ≠ 0 := by rintro rfl; revert h; decide

theorem dec_nul (n : Nat) : ∀ b ∈ Number.dec n, b ≠ 0 :=
  fun b hb => digit_ne_zero (Location.isDigit10_16 (Number.fmt_digits (base := 10) (by omega) (by omega) n b hb))

theorem hex_nul (n : Nat) : ∀ b ∈ Number.hex n, b ≠ 0 :=
  fun b hb => digit_ne_zero (Number.fmt_digits (base := 16) (by omega) (by omega) n b hb)

theorem nameTable_nul (t : NameTable.Chain) : ∀ b ∈ NameTable.format t, b ≠ 0 := by
  intro b hb
  rcases NameTable.C36_charset t b hb with h | h | h | h | h
  · exact digit_ne_zero h
  all_goals (subst h; decide)

/-- The text of a location is a C string if its path is one. -/
theorem format_nul (l : Location.Location) (w : Location.With) (hd : Location.designatorValid l.designator = true) (hp : (0 : UInt8) ∉ l.path) :
    (0 : UInt8) ∉ Location.format l w := by
  have h0 : l.designator ≠ 0 := by intro h; rw [h] at hd; revert hd; decide
  have key : ∀ b ∈ Location.format l w, b ≠ 0 := by
    intro b hb
    unfold Location.format Location.fmtSize Location.fmtMtime Location.fmtFlags Location.fmtArchiveOffset Location.fmtNameTable at hb
    simp only [List.mem_append, List.mem_cons] at hb
    rcases hb with hb | rfl | rfl | hb | hb | hb | hb | hb | hb
    · rintro rfl; exact hp hb
    · decide
    · exact h0
    · exact dec_nul _ b hb
    · split at hb
      · rcases List.mem_cons.1 hb with rfl | hb
        · decide
        · exact dec_nul _ b hb
      · cases hb
    · split at hb
      · simp only [List.mem_append, List.mem_cons, List.cons_append] at hb
        rcases hb with rfl | hb | rfl | hb | hb
        · decide
        · exact dec_nul _ b hb
        · decide
        · exact dec_nul _ b hb
        · split at hb
          · rcases List.mem_cons.1 hb with rfl | hb
            · decide
            · exact dec_nul _ b hb
          · cases hb
      · cases hb
    · split at hb
      · rcases List.mem_cons.1 hb with rfl | hb
        · decide
        · exact hex_nul _ b hb
      · cases hb
    · split at hb
      · rcases List.mem_cons.1 hb with rfl | hb
        · decide
        · exact dec_nul _ b hb
      · cases hb
    · split at hb
      · rcases List.mem_cons.1 hb with rfl | hb
        · decide
        · exact nameTable_nul _ b hb
      · cases hb
  intro h
  exact key 0 h rfl

theorem pieces_cons (t : Bytes) (ht : (0 : UInt8) ∉ t) (r : Bytes) : pieces (t ++ 0 :: r) = (t :: (pieces r).1, (pieces r).2) := by
  induction t with
  | nil => simp [pieces]
  | cons b t ih =>
    have hb : b ≠ 0 := by rintro rfl; exact ht (by simp)
    rw [List.cons_append, pieces, ih (fun h => ht (by simp [h]))]
    simp [hb]

theorem pieces_flatten (ts : List Bytes) (ht : ∀ t ∈ ts, (0 : UInt8) ∉ t) : pieces ((ts.map (· ++ [0])).flatten) = (ts, []) := by
  induction ts with
  | nil => rfl
  | cons t ts ih =>
    simp only [List.map_cons, List.flatten_cons, List.append_assoc, List.singleton_append]
    rw [pieces_cons t (ht t (by simp)), ih (fun t h => ht t (by simp [h]))]

theorem pieces_inv (b : Bytes) : b = ((pieces b).1.map (· ++ [0])).flatten ++ (pieces b).2 ∧ (∀ t ∈ (pieces b).1, (0 : UInt8) ∉ t) := by
  induction b with
  | nil => exact ⟨rfl, by simp [pieces]⟩
  | cons x r ih =>
    unfold pieces
    generalize hz : pieces r = z at ih
    obtain ⟨ps, rest⟩ := z
    obtain ⟨h1, h2⟩ := ih
    simp only at h1 h2 ⊢
    by_cases hx : x = 0
    · rw [if_pos hx]
      subst hx
      refine ⟨?_, ?_⟩
      · simpa using h1
      · intro t ht
        rcases List.mem_cons.1 ht with rfl | ht
        · simp
        · exact h2 t ht
    · rw [if_neg hx]
      cases ps with
      | nil => exact ⟨by simpa using h1, by simp⟩
      | cons p ps =>
        refine ⟨by simpa using h1, ?_⟩
        intro t ht
        rcases List.mem_cons.1 ht with rfl | ht
        · intro h
          rcases List.mem_cons.1 h with h | h
          · exact hx h.symm
          · exact h2 p (by simp) h
        · exact h2 t (by simp [ht])

/-! ### Reading the locations -/

/-- Size and state are known. -/
def Full (l : Location.Location) : Prop := l.size ≠ u64max ∧ l.mtime ≠ u64max

/-- The first item is not affected by putting more behind it, but for its size. -/
theorem put_head (o o' : Origin.Origin) (l f : Location.Location) (r : List Location.Location) (ho : o.items = f :: r)
    (h : Origin.put o l = .ok o') : ∃ n r', o'.items = { f with size := n } :: r' := by
  unfold Origin.put at h
  split at h
  · cases h
  split at h
  · rename_i hl; rw [ho] at hl; simp at hl
  · rename_i last hl
    split at h
    · cases h
    · cases h
    · rename_i m hm
      injection h with h
      subst h
      have hm' : ∃ n, m = { last with size := n } := by
        unfold Location.merge at hm
        split at hm
        · cases hm
        split at hm
        · cases hm
        split at hm
        · cases hm
        split at hm
        · cases hm
        split at hm
        · cases hm
        split at hm
        · cases hm
        split at hm
        · cases hm
        injection hm with hm
        injection hm with hm
        exact ⟨_, hm.symm⟩
      obtain ⟨n, rfl⟩ := hm'
      cases r with
      | nil =>
        rw [ho] at hl
        simp at hl
        subst hl
        exact ⟨n, [], by simp [ho]⟩
      | cons y ys => exact ⟨f.size, (y :: ys).dropLast ++ [{ last with size := n }], by simp [ho]⟩
    · injection h with h
      subst h
      exact ⟨f.size, r ++ [l], by simp [ho]⟩

theorem put_first (l : Location.Location) (o' : Origin.Origin) (h : Origin.put Origin.empty l = .ok o') :
    ∃ n r', o'.items = { l with size := n } :: r' := by
  unfold Origin.put at h
  split at h
  · cases h
  simp [Origin.empty] at h
  subst h
  exact ⟨l.size, [], rfl⟩

/-- The tail condition on the origin while the locations are read. -/
theorem readItems_ok (ts : List Bytes) (rest : Bytes) : ∀ (o o' : Origin.Origin), readItems o ts rest = .ok o' →
    rest = [] ∧ ∃ ls, Reads ts ls ∧ (∀ l ∈ ls, Full l) ∧
      (Inv o → o.nBytes + total ls < u64max → Inv o' ∧ allBytes o'.items = allBytes o.items ++ allBytes ls ∧ o'.nBytes = o.nBytes + total ls) ∧
      (∀ f r, o.items = f :: r → ∃ n r', o'.items = { f with size := n } :: r') ∧
      (o = Origin.empty → ∀ f r, ls = f :: r → ∃ n r', o'.items = { f with size := n } :: r') ∧ (o = Origin.empty → ls = [] → o' = Origin.empty) := by
  induction ts with
  | nil =>
    intro o o' h
    unfold readItems at h
    split at h
    · rename_i hr
      injection h with h
      subst h
      refine ⟨hr, [], .nil, by simp, ?_, ?_, ?_, ?_⟩
      · intro hi _; exact ⟨hi, by simp [allBytes], by simp [total]⟩
      · intro f r hf; exact ⟨f.size, r, hf⟩
      · intro _ f r hf; cases hf
      · intro h _; exact h
    · cases h
  | cons t ts ih =>
    intro o o' h
    unfold readItems at h
    split at h
    · cases h
    · cases h
    · rename_i o1 h1
      obtain ⟨hr, ls, k1, k2, k3, k4, k5, k6⟩ := ih o1 o' h
      unfold addItem at h1
      split at h1
      · cases h1
      · cases h1
      · rename_i item hp
        split at h1
        · cases h1
        · rename_i hs
          split at h1
          · cases h1
          · rename_i hm
            refine ⟨hr, item :: ls, .cons hp k1, ?_, ?_, ?_, ?_, ?_⟩
            · intro l hl
              rcases List.mem_cons.1 hl with rfl | hl
              · exact ⟨hs, hm⟩
              · exact k2 l hl
            · intro hi hb
              have htot : total (item :: ls) = item.size + total ls := by simp [total]
              rw [htot] at hb
              have wf := (Location.C18_parse_wf t item hp).1
              have hk : Known item := by
                refine ⟨wf.size.1, ?_, fun _ => wf.fits hs⟩
                have := wf.size.2
                omega
              obtain ⟨o2, e1, e2, e3, e4⟩ := C19_put o item hi hk (by omega)
              rw [h1] at e1
              injection e1 with e1
              subst e1
              obtain ⟨f1, f2, f3⟩ := k3 e2 (by omega)
              refine ⟨f1, ?_, by rw [f3, e4, htot]; omega⟩
              rw [f2, e3, allBytes_cons, List.append_assoc]
            · intro f r hf
              obtain ⟨n, r', e⟩ := put_head o o1 item f r hf h1
              obtain ⟨n', r'', e'⟩ := k4 _ _ e
              exact ⟨n', r'', e'⟩
            · rintro rfl f r hf
              injection hf with hf _
              subst hf
              obtain ⟨n, r', e⟩ := put_first item o1 h1
              obtain ⟨n', r'', e'⟩ := k4 _ _ e
              exact ⟨n', r'', e'⟩
            · intro _ h; cases h

theorem equal_same (a b : Location.Location) : Location.equal a b withState = true ↔ Same a b := by
  unfold Location.equal withState Same
  by_cases hm : a.mtime = u64max
  · simp [hm]
    constructor
    · rintro ⟨⟨⟨⟨h1, h2⟩, h3⟩, h4⟩, h5⟩; exact ⟨h3, h1, h2, h4, h5⟩
    · rintro ⟨h3, h1, h2, h4, h5⟩; exact ⟨⟨⟨⟨h1, h2⟩, h3⟩, h4⟩, h5⟩
  · simp [hm]
    constructor
    · rintro ⟨⟨⟨⟨h1, h2⟩, h3⟩, h4, ⟨h5, h6⟩, h7⟩, h8⟩
      refine ⟨h3, h1, h2, h4, ⟨h5, ?_⟩, h8⟩
      cases ha : a.generation with
      | none =>
        rw [ha] at h6
        cases hb : b.generation with
        | none => rfl
        | some g => rw [hb] at h6; cases h6
      | some g => rcases h7 with h7 | h7
                  · rw [ha] at h7; cases h7
                  · rw [← ha]; exact h7
    · rintro ⟨h3, h1, h2, h4, ⟨h5, h6⟩, h8⟩
      exact ⟨⟨⟨⟨h1, h2⟩, h3⟩, h4, ⟨h5, by rw [h6]⟩, .inr h6⟩, h8⟩

theorem same_size {a b : Location.Location} {n : Nat} : Same a { b with size := n } ↔ Same a b := Iff.rfl

theorem finish_ok (l : Location.Location) (id b : Bytes) (id' : Bytes) (o : Origin.Origin) (h : finish l id b = .ok (id', o)) :
    id' = id ∧ (pieces b).2 = [] ∧ ∃ f ls, Reads (pieces b).1 (f :: ls) ∧ (∀ x ∈ f :: ls, Full x) ∧ Same l f ∧
      (total (f :: ls) < u64max → Inv o ∧ allBytes o.items = allBytes (f :: ls) ∧ o.nBytes = total (f :: ls)) := by
  unfold finish at h
  split at h
  · cases h
  · cases h
  · rename_i o1 h1
    obtain ⟨hr, ls, k1, k2, k3, -, k5, k6⟩ := readItems_ok _ _ _ _ h1
    split at h
    · cases h
    · rename_i hn
      split at h
      · cases h
      · rename_i first r hf
        split at h
        · rename_i he
          injection h with h
          injection h with h2 h3
          subst h2 h3
          refine ⟨rfl, hr, ?_⟩
          cases ls with
          | nil => rw [k6 rfl rfl] at hf; cases hf
          | cons f ls =>
            obtain ⟨n, r', e⟩ := k5 rfl f ls rfl
            rw [hf] at e
            injection e with e _
            subst e
            refine ⟨f, ls, k1, k2, same_size.1 ((equal_same _ _).1 he), ?_⟩
            intro ht
            obtain ⟨g1, g2, g3⟩ := k3 inv_empty (by simpa [Origin.empty] using ht)
            exact ⟨g1, by simpa [Origin.empty, allBytes] using g2, by simpa [Origin.empty] using g3⟩
        · cases h

/-- **C35**: a lookup delivers only what the entry for the location asked for says: the id, and an origin made of the locations of the entry, in
order; every one of them has a size and a state, and the first is the location asked for, in the same state of the file.  (`total` below
`UINT64_MAX`: the sizes are added up in a 64 bit number.) -/
theorem C35_delivered (H : Bytes → Bytes) (c : Seed.Cache) (hc : ∀ p t, c p = some (.link t) → (0 : UInt8) ∉ t) (l : Location.Location)
    (id : Bytes) (o : Origin.Origin) (h : get H c l = .ok (id, o)) :
    ∃ e ts f ls, c (keyPath H l) = some e ∧ Says e id ts ∧ Reads ts (f :: ls) ∧ (∀ x ∈ f :: ls, x.size ≠ u64max ∧ x.mtime ≠ u64max) ∧ Same l f ∧
      (total (f :: ls) < u64max → allBytes o.items = allBytes (f :: ls) ∧ o.nBytes = total (f :: ls)) := by
  unfold get at h
  split at h
  · cases h
  cases hcp : c (keyPath H l) with
  | none => rw [hcp] at h; cases h
  | some e =>
    rw [hcp] at h
    cases e with
    | other => cases h
    | file b =>
      simp only at h
      split at h
      · cases h
      · rename_i hb
        obtain ⟨h1, h2, f, ls, h3, h4, h5, h6⟩ := finish_ok _ _ _ _ _ h
        obtain ⟨p1, p2⟩ := pieces_inv (b.drop 32)
        rw [h2, List.append_nil] at p1
        refine ⟨.file b, (pieces (b.drop 32)).1, f, ls, rfl, ?_, h3, h4, h5, fun ht => (h6 ht).2⟩
        have := Says.file (b.take 32) (pieces (b.drop 32)).1 (by rw [List.length_take]; omega) p2
        rw [← p1, List.take_append_drop, ← h1] at this
        exact this
    | link t =>
      simp only at h
      split at h
      · cases h
      split at h
      · cases h
      split at h
      · cases h
      · cases h
      · cases h
      · rename_i hlen hcol _ id' hid
        have hnt := hc _ _ hcp
        obtain ⟨h1, h2, f, ls, h3, h4, h5, h6⟩ := finish_ok _ _ _ _ _ h
        have hid' := (ChunkId.parse_ok (t.take 64) id' (fun x hx h0 => hnt (by rw [← h0]; exact List.mem_of_mem_take hx))).1 hid
        have ht : t = ChunkId.format id' ++ 58 :: t.drop 65 := by
          have hcol : (t ++ [0])[64]? = some 58 := Classical.not_not.1 hcol
          have h64 : t.drop 64 = 58 :: t.drop 65 := by
            by_cases hl : 64 < t.length
            · rw [List.getElem?_append_left hl, List.getElem?_eq_getElem hl] at hcol
              injection hcol with hcol
              rw [List.drop_eq_getElem_cons hl, hcol]
            · have : t.length = 64 := by omega
              rw [List.getElem?_append_right (by omega)] at hcol
              simp [this] at hcol
          rw [← hid'.2, ← h64, List.take_append_drop]
        have hp := pieces_cons (t.drop 65) (fun hx => hnt (List.mem_of_mem_drop hx)) []
        rw [hp] at h3
        refine ⟨.link t, [t.drop 65], f, ls, rfl, ?_, h3, h4, h5, fun hx => (h6 hx).2⟩
        have := Says.link id' (t.drop 65) hid'.1
        rw [← ht, ← h1] at this
        exact this

/-! ### What is stored is found -/

theorem readItems_complete (ts : List Bytes) (ls : List Location.Location) (h : Reads ts ls) : ∀ (o : Origin.Origin), Inv o → (∀ l ∈ ls, Full l) →
    o.nBytes + total ls < u64max → ∃ o', readItems o ts [] = .ok o' := by
  induction h with
  | nil => intro o _ _ _; exact ⟨o, by simp [readItems]⟩
  | @cons t l ts ls hp _ ih =>
    intro o ho hf hb
    have htot : total (l :: ls) = l.size + total ls := by simp [total]
    rw [htot] at hb
    have hl := hf l (by simp)
    have wf := (Location.C18_parse_wf t l hp).1
    have hk : Known l := ⟨wf.size.1, by have := wf.size.2; have := hl.1; omega, fun _ => wf.fits hl.1⟩
    obtain ⟨o2, e1, e2, e3, e4⟩ := C19_put o l ho hk (by omega)
    obtain ⟨o', e⟩ := ih o2 e2 (fun x hx => hf x (by simp [hx])) (by omega)
    refine ⟨o', ?_⟩
    unfold readItems addItem
    simp only [hp]
    rw [if_neg hl.1, if_neg hl.2, e1]
    exact e

/-- **C35**: an entry for the location asked for, with all sizes and states, is delivered, and delivers what it says. -/
theorem C35_found (H : Bytes → Bytes) (c : Seed.Cache) (l : Location.Location) (e : Seed.Ent) (id : Bytes) (ts : List Bytes) (f : Location.Location)
    (ls : List Location.Location) (hm : l.mtime ≠ u64max) (he : c (keyPath H l) = some e) (hs : Says e id ts)
    (hnul : ∀ t ∈ ts, (0 : UInt8) ∉ t) (hr : Reads ts (f :: ls))
    (hf : ∀ x ∈ f :: ls, x.size ≠ u64max ∧ x.mtime ≠ u64max) (hl : Same l f) (ht : total (f :: ls) < u64max) :
    ∃ o, get H c l = .ok (id, o) ∧ allBytes o.items = allBytes (f :: ls) ∧ o.nBytes = total (f :: ls) := by
  have key : ∀ b, pieces b = (ts, []) → ∃ o, finish l id b = .ok (id, o) ∧ allBytes o.items = allBytes (f :: ls) ∧ o.nBytes = total (f :: ls) := by
    intro b hb
    obtain ⟨o, ho⟩ := readItems_complete ts (f :: ls) hr Origin.empty inv_empty hf (by simpa [Origin.empty] using ht)
    obtain ⟨-, ls', k1, k2, k3, -, k5, -⟩ := readItems_ok _ _ _ _ ho
    have huniq : ∀ ts ls, Reads ts ls → ∀ ls', Reads ts ls' → ls' = ls := by
      intro ts ls h
      induction h with
      | nil => intro ls' h'; cases h'; rfl
      | cons hp _ ih =>
        intro ls' h'
        cases h' with
        | cons hp' h'' =>
          rw [hp] at hp'
          injection hp' with hp'
          subst hp'
          rw [ih _ h'']
    have hls := huniq _ _ hr _ k1
    subst hls
    obtain ⟨g1, g2, g3⟩ := k3 inv_empty (by simpa [Origin.empty] using ht)
    obtain ⟨n, r', e'⟩ := k5 rfl f ls rfl
    refine ⟨o, ?_, by simpa [Origin.empty, allBytes] using g2, by simpa [Origin.empty] using g3⟩
    unfold finish
    simp only [hb, ho]
    have hpos : o.nBytes ≠ 0 := by
      rw [g3]
      have hsz : f.size ≠ 0 := by
        cases hr with
        | cons hp _ => exact (Location.C18_parse_wf _ f hp).1.size.1
      simp [total, Origin.empty]
      omega
    rw [if_neg hpos, e']
    simp only
    rw [if_pos ((equal_same _ _).2 (same_size.2 hl))]
  unfold get
  rw [if_neg hm, he]
  cases hs with
  | file id ts hid hn =>
    simp only
    rw [if_neg (by rw [List.length_append]; omega), List.take_left' hid, List.drop_left' hid]
    exact key _ (pieces_flatten ts hn)
  | link id t hid =>
    have hfl : (ChunkId.format id).length = 64 := by rw [ChunkId.format_length, hid]
    simp only
    rw [if_neg (by simp [hfl])]
    rw [if_neg (by
      rw [List.append_assoc, List.getElem?_append_right (by omega), hfl]
      simp)]
    rw [List.take_left' hfl, ChunkId.C11_round_trip id hid]
    simp only
    have h65 : (ChunkId.format id ++ 58 :: t).drop 65 = t := by
      rw [List.drop_append_of_le_length' (l₁ := ChunkId.format id) (n := 65) hfl]
    rw [h65]
    refine key _ ?_
    rw [pieces_cons t (hnul t (by simp)) []]
    rfl
where
  List.drop_append_of_le_length' {l₁ t : Bytes} {n : Nat} (h : l₁.length = 64) (hn : n = 65 := by rfl) : (l₁ ++ 58 :: t).drop n = t := by
    subst hn
    rw [List.drop_append, List.drop_eq_nil_of_le (by omega), h]
    rfl

/-- The locations that are the same place in the same state have the same entry. -/
theorem key_same (H : Bytes → Bytes) (a b : Location.Location) (h : Same a b) : keyPath H a = keyPath H b := by
  obtain ⟨h1, h2, h3, h4, h5, h6⟩ := h
  unfold keyPath Location.idInput
  rw [h1, h2, h3, h6]
  by_cases hm : a.mtime = u64max
  · have hb : b.mtime = u64max := by rw [← h4]; exact hm
    simp [hm, hb]
  · have hb : b.mtime ≠ u64max := by rw [← h4]; exact hm
    obtain ⟨h7, h8⟩ := h5 hm
    simp only [ne_eq, hm, hb, not_false_eq_true, if_true, h7, h8, h4]
    simp

/-! ### Storing -/

/-- What a location without its root is. -/
def bare (l : Location.Location) : Location.Location := { l with root := none }

/-- A stored location: as `ca_location_new()` or `ca_location_parse()` makes them, a C string as path, size and state known. -/
def Storable (l : Location.Location) : Prop :=
  Location.WellFormed l ∧ (0 : UInt8) ∉ l.path ∧ l.size ≠ u64max ∧ l.mtime ≠ u64max

theorem parse_storable (l : Location.Location) (h : Storable l) : Location.parse (Location.format l Location.withAll) = .ok (bare l) := by
  rw [Location.parse_format l _ h.1]
  congr 1
  unfold Location.restrict Location.withAll bare
  simp [h.2.2.2]

theorem reads_storable (ls : List Location.Location) (h : ∀ l ∈ ls, Storable l) :
    Reads (ls.map (fun l => Location.format l Location.withAll)) (ls.map bare) := by
  induction ls with
  | nil => exact .nil
  | cons l ls ih => exact .cons (parse_storable l (h l (by simp))) (ih (fun x hx => h x (by simp [hx])))

theorem total_bare (ls : List Location.Location) : total (ls.map bare) = total ls := by
  unfold total
  rw [List.map_map]
  rfl

/-- No system call fails for other reasons. -/
def noFail : Seed.Fail := fun _ _ => none

/-- The entry that `put` makes. -/
theorem put_says (fail : Seed.Fail) (env : Seed.Cache → Seed.Cache) (H : Bytes → Bytes) (c c' : Seed.Cache) (o : Origin.Origin) (id : Bytes)
    (hid : id.length = 32) (hl : ∀ l ∈ o.items, Storable l) (h : put fail env H c o id = .ok (true, c')) :
    ∃ f r e, o.items = f :: r ∧ c' (keyPath H f) = some e ∧ Says e id (o.items.map (fun l => Location.format l Location.withAll)) ∧
      ((c' = c.set (keyPath H f) e ∧ c (keyPath H f) = none) ∨ c' = (env c).set (keyPath H f) e) := by
  have hnul : ∀ t ∈ o.items.map (fun l => Location.format l Location.withAll), (0 : UInt8) ∉ t := by
    intro t ht
    obtain ⟨l, hm, rfl⟩ := List.mem_map.1 ht
    exact format_nul l _ (hl l hm).1.designator (hl l hm).2.1
  have hfile : ∀ f r, o.items = f :: r → putFile fail env c (keyPath H f) id (f :: r) = .ok (true, c') →
      ∃ f r e, o.items = f :: r ∧ c' (keyPath H f) = some e ∧ Says e id (o.items.map (fun l => Location.format l Location.withAll)) ∧
      ((c' = c.set (keyPath H f) e ∧ c (keyPath H f) = none) ∨ c' = (env c).set (keyPath H f) e) := by
    intro f r hi hp
    unfold putFile at hp
    split at hp
    · cases hp
    · injection hp with hp
      injection hp with _ hp
      subst hp
      refine ⟨f, r, _, hi, by simp [Seed.Cache.set], ?_, .inr rfl⟩
      have := Says.file id (o.items.map (fun l => Location.format l Location.withAll)) hid hnul
      rw [List.map_map, hi] at this
      rw [hi]
      exact this
  unfold put at h
  split at h
  · cases h
  · rename_i first hi
    split at h
    · rename_i c1 hs
      injection h with h
      injection h with _ h
      subst h
      unfold Seed.symlinkat at hs
      split at hs
      · cases hs
      · split at hs
        · cases hs
        · split at hs
          · cases hs
          · rename_i hno
            injection hs with hs
            subst hs
            refine ⟨first, [], _, hi, by simp [Seed.Cache.set], ?_, .inl ⟨rfl, by simpa using hno⟩⟩
            rw [hi]
            exact Says.link id _ hid
    · cases h
    · cases h
    · exact hfile first [] hi h
    · cases h
  · rename_i first more _ hi
    split at h
    · cases h
    · exact hfile first more hi h

/-- **C35**: after a chunk was added to the cache, a lookup of its first location delivers its id, and an origin for the same bytes. -/
theorem C35_put_get (fail : Seed.Fail) (env : Seed.Cache → Seed.Cache) (H : Bytes → Bytes) (c c' : Seed.Cache) (o : Origin.Origin) (id : Bytes)
    (hid : id.length = 32) (hl : ∀ l ∈ o.items, Storable l) (ht : total o.items < u64max) (h : put fail env H c o id = .ok (true, c'))
    (l f : Location.Location) (hf : o.items.head? = some f) (hs : Same l f) :
    ∃ o', get H c' l = .ok (id, o') ∧ allBytes o'.items = allBytes (o.items.map bare) ∧ o'.nBytes = total o.items := by
  obtain ⟨g, r, e, hi, he, hsays, -⟩ := put_says fail env H c c' o id hid hl h
  rw [hi] at hf
  injection hf with hf
  subst hf
  have hr := reads_storable o.items hl
  rw [← total_bare] at ht
  have hfull : ∀ x ∈ o.items.map bare, x.size ≠ u64max ∧ x.mtime ≠ u64max := by
    intro x hx
    obtain ⟨y, hy, rfl⟩ := List.mem_map.1 hx
    exact (hl y hy).2.2
  rw [← total_bare]
  rw [hi, List.map_cons] at hfull ht ⊢
  rw [hi, List.map_cons (f := bare)] at hr
  rw [hi] at hsays
  have hm : l.mtime ≠ u64max := by
    rw [hs.2.2.2.1]
    exact (hl g (by simp [hi])).2.2.2
  have hsb : Same l (bare g) := hs
  refine C35_found H c' l e id _ (bare g) _ hm ?_ hsays ?_ hr hfull hsb ht
  · rw [key_same H l g hs]; exact he
  · intro t ht
    obtain ⟨y, hy, rfl⟩ := List.mem_map.1 ht
    have hy' : y ∈ o.items := by rw [hi]; exact hy
    exact format_nul y _ (hl y hy').1.designator (hl y hy').2.1

/-- **C35**: storing changes only the entry of the first location of the chunk. -/
theorem C35_others_untouched (fail : Seed.Fail) (H : Bytes → Bytes) (c c' : Seed.Cache) (o : Origin.Origin) (id : Bytes) (b : Bool)
    (f : Location.Location) (hf : o.items.head? = some f)
    (h : put fail (fun c => c) H c o id = .ok (b, c')) (q : Bytes) (hq : q ≠ keyPath H f) : c' q = c q := by
  have hset : ∀ e, (c.set (keyPath H f) e) q = c q := fun e => by simp [Seed.Cache.set, hq]
  have hfile : ∀ r, putFile fail (fun c => c) c (keyPath H f) id r = .ok (b, c') → c' q = c q := by
    intro r hp
    unfold putFile at hp
    split at hp
    · cases hp
    · injection hp with hp
      injection hp with _ hp
      subst hp
      exact hset _
  unfold put at h
  split at h
  · cases h
  · rename_i first hi
    rw [hi] at hf
    injection hf with hf
    subst hf
    split at h
    · rename_i c1 hs
      injection h with h
      injection h with _ h
      subst h
      unfold Seed.symlinkat at hs
      split at hs
      · cases hs
      · split at hs
        · cases hs
        · split at hs
          · cases hs
          · injection hs with hs
            subst hs
            exact hset _
    · cases h
    · injection h with h
      injection h with _ h
      rw [← h]
    · exact hfile _ h
    · cases h
  · rename_i first more _ hi
    rw [hi] at hf
    injection hf with hf
    subst hf
    split at h
    · injection h with h
      injection h with _ h
      rw [← h]
    · exact hfile _ h

/-- **C35**: storing keeps an entry that is already there, provided no other process interferes and, for a chunk with a single location, its text
fits into a symbolic link. -/
theorem C35_kept (fail : Seed.Fail) (H : Bytes → Bytes) (c : Seed.Cache) (o : Origin.Origin) (id : Bytes) (f : Location.Location)
    (hf : o.items.head? = some f) (he : (c (keyPath H f)).isSome = true) (hnf : fail (keyPath H f) .symlink = none)
    (hlen : o.items.length = 1 → (linkTarget id f).length ≤ 4095) (env : Seed.Cache → Seed.Cache) :
    put fail env H c o id = .ok (false, c) := by
  unfold put
  cases hi : o.items with
  | nil => rw [hi] at hf; cases hf
  | cons g r =>
    rw [hi] at hf
    injection hf with hf
    subst hf
    cases r with
    | nil =>
      simp only
      have : Seed.symlinkat fail c (linkTarget id g) (keyPath H g) = .err .EEXIST := by
        unfold Seed.symlinkat
        rw [hnf]
        simp only
        rw [if_neg (by have := hlen (by simp [hi]); have h2 : Seed.linkMax = 4095 := rfl; omega), if_pos he]
      rw [this]
    | cons x r =>
      simp only
      rw [if_pos he]

/-- **C35** fails when another process adds the entry at the same time: whatever the entry is, it is replaced (`renameat()` without
`RENAME_NOREPLACE`). -/
theorem C35_race_violated (H : Bytes → Bytes) (c : Seed.Cache) (f g : Location.Location) (r : List Location.Location) (n : Nat) (id : Bytes)
    (hfree : c (keyPath H f) = none) (env : Seed.Cache → Seed.Cache) :
    ∃ c', put noFail env H c ⟨f :: g :: r, n⟩ id = .ok (true, c') ∧ c' (keyPath H f) = some (.file (fileContent id (f :: g :: r))) := by
  refine ⟨(env c).set (keyPath H f) (.file (fileContent id (f :: g :: r))), ?_, ?_⟩
  · unfold put putFile
    simp [hfree, noFail]
  · simp [Seed.Cache.set]

/-- **C35** fails for a single location with a long text (a deep path or a big name table): `symlinkat()` reports that the target is too long
before it looks for the entry, and the entry is replaced. -/
theorem C35_long_violated (H : Bytes → Bytes) (c : Seed.Cache) (f : Location.Location) (n : Nat) (id : Bytes)
    (hlong : 4095 < (linkTarget id f).length) :
    ∃ c', put noFail (fun c => c) H c ⟨[f], n⟩ id = .ok (true, c') ∧ c' (keyPath H f) = some (.file (fileContent id [f])) := by
  refine ⟨c.set (keyPath H f) (.file (fileContent id [f])), ?_, ?_⟩
  · unfold put Seed.symlinkat putFile
    simp only [noFail]
    rw [if_pos hlong]
  · simp [Seed.Cache.set]

/-- **C35**: a removed entry is not found any more, and the other entries are still there. -/
theorem C35_removed (H : Bytes → Bytes) (c c' : Seed.Cache) (l : Location.Location) (h : remove H c l = .ok c') :
    (∀ l', Same l' l → l'.mtime ≠ u64max → get H c' l' = .err .ENOENT) ∧ ∀ q, q ≠ keyPath H l → c' q = c q := by
  unfold remove at h
  have key : (fun q => if q = keyPath H l then none else c q) = c' → (∀ l', Same l' l → l'.mtime ≠ u64max → get H c' l' = .err .ENOENT) ∧
      ∀ q, q ≠ keyPath H l → c' q = c q := by
    rintro rfl
    refine ⟨fun l' hs hm => ?_, fun q hq => if_neg hq⟩
    unfold get
    rw [if_neg hm]
    simp only
    rw [if_pos (key_same H l' l hs)]
  split at h
  · cases h
  · cases h
  · injection h with h
    exact key h

/-- The bytes of the generation in the digest of a location. -/
def genBytes : Option Nat → Bytes
  | some g => leN 4 g
  | none => []

theorem idInput_eq (l : Location.Location) (hm : l.mtime ≠ u64max) : Location.idInput l false =
    l.path ++ (l.designator :: (le64 l.offset ++ (le64 l.mtime ++ (le64 l.inode ++ (genBytes l.generation ++
      (if l.featureFlags ≠ u64max then le64 l.featureFlags else [])))))) := by
  unfold Location.idInput
  simp only [Bool.false_eq_true, false_and, if_false, List.nil_append]
  rw [if_pos hm, List.append_assoc, List.append_assoc]
  cases l.generation <;> rfl

/-- **C35**: two chunks whose first locations differ have different entries, for a digest without collisions, when both locations have the same kind
of state (a generation or none; feature flags or none). -/
theorem C35_keys_distinct (H : Bytes → Bytes) (hH : ∀ x, (H x).length = 32) (a b : Location.Location)
    (hinj : H (Location.idInput a false) = H (Location.idInput b false) → Location.idInput a false = Location.idInput b false)
    (ha : Location.WellFormed a) (hb : Location.WellFormed b) (hm : a.mtime ≠ u64max) (hm' : b.mtime ≠ u64max)
    (hg : a.generation.isSome = b.generation.isSome) (hff : a.featureFlags = u64max ↔ b.featureFlags = u64max)
    (h : keyPath H a = keyPath H b) : Same a b := by
  have hu : u64max = 2 ^ 64 - 1 := by decide
  have h1 := hinj (ChunkId.C11_path_injective [] _ _ suffix suffix (hH _) (hH _) h).1
  have hl8 : ∀ n, (le64 n).length = 8 := fun n => leN_length 8 n
  have gen : ∀ (g g' : Option Nat) (x y : Bytes), g.isSome = g'.isSome → (∀ v, g = some v → v < 2 ^ 32) → (∀ v, g' = some v → v < 2 ^ 32) →
      genBytes g ++ x = genBytes g' ++ y → g = g' ∧ x = y := by
    intro g g' x y hs hb1 hb2 he
    cases g with
    | none => cases g' with
      | none => exact ⟨rfl, he⟩
      | some _ => cases hs
    | some v => cases g' with
      | none => cases hs
      | some w =>
        simp only [genBytes] at he
        have := List.append_inj he (by rw [leN_length, leN_length])
        refine ⟨?_, this.2⟩
        have hv := hb1 v rfl
        have hw := hb2 w rfl
        have e := congrArg rdLE this.1
        rw [rdLE_leN, rdLE_leN, Nat.mod_eq_of_lt (by simpa using hv), Nat.mod_eq_of_lt (by simpa using hw)] at e
        rw [e]
  have glen : ∀ (g g' : Option Nat), g.isSome = g'.isSome → (genBytes g).length = (genBytes g').length := by
    intro g g' hs
    cases g with
    | none => cases g' with
      | none => rfl
      | some _ => cases hs
    | some v => cases g' with
      | none => cases hs
      | some w => rw [genBytes, genBytes, leN_length, leN_length]
  have flen : (if a.featureFlags ≠ u64max then le64 a.featureFlags else []).length = (if b.featureFlags ≠ u64max then le64 b.featureFlags else []).length := by
    by_cases hx : a.featureFlags = u64max
    · rw [if_neg (by simpa using hx), if_neg (by simpa using hff.1 hx)]
    · rw [if_pos hx, if_pos (fun hy => hx (hff.2 hy)), hl8, hl8]
  rw [idInput_eq a hm, idInput_eq b hm'] at h1
  have glen' := glen a.generation b.generation hg
  have hplen : a.path.length = b.path.length := by
    have := congrArg List.length h1
    simp only [List.length_append, List.length_cons, hl8] at this
    rw [flen] at this
    omega
  obtain ⟨e1, h1⟩ := List.append_inj h1 hplen
  injection h1 with e2 h1
  obtain ⟨e3, h1⟩ := List.append_inj h1 (by rw [hl8, hl8])
  obtain ⟨e4, h1⟩ := List.append_inj h1 (by rw [hl8, hl8])
  obtain ⟨e5, h1⟩ := List.append_inj h1 (by rw [hl8, hl8])
  obtain ⟨e6, h1⟩ := gen _ _ _ _ hg ha.generation hb.generation h1
  refine ⟨e1, e2, ?_, ?_, fun _ => ⟨?_, e6⟩, ?_⟩
  · exact le64_inj (by have := ha.offset; omega) (by have := hb.offset; omega) e3
  · exact le64_inj (by have := ha.mtime; omega) (by have := hb.mtime; omega) e4
  · exact le64_inj (by have := ha.inode; omega) (by have := hb.inode; omega) e5
  · by_cases hx : a.featureFlags = u64max
    · rw [hx, hff.1 hx]
    · rw [if_pos hx, if_pos (fun hy => hx (hff.2 hy))] at h1
      exact le64_inj (by have := ha.featureFlags; omega) (by have := hb.featureFlags; omega) h1

/-! ### A concrete case: the end of a file `a`, and the entry of the file `b` after it, make one chunk -/

/-- 100 bytes of `a` from offset 5 on, read when its mtime was 7 and its inode 3. -/
def exA : Location.Location := { path := [97], designator := 112, offset := 5, size := 100, mtime := 7, inode := 3, generation := some 9, featureFlags := 1 }

/-- The first 64 bytes of the entry of `b`. -/
def exB : Location.Location := { path := [98], designator := 101, offset := 0, size := 64, mtime := 8, inode := 4, featureFlags := 1 }

theorem storable_exA : Storable exA := by
  have hu : u64max = 2 ^ 64 - 1 := by decide
  refine ⟨?_, by decide, by decide, by decide⟩
  refine { designator := by decide, path := by decide, offset := by decide, size := by decide, fits := by decide, void := ?_, mtime := by decide,
           inode := by decide, generation := ?_, featureFlags := by decide, archiveOffset := by decide, nameTable := by simp [NameTable.InRange, exA] }
  · intro h; exact absurd (show (112 : UInt8) = 118 from h) (by decide)
  · intro g hg
    have : g = 9 := (Option.some.inj hg).symm
    omega

theorem storable_exB : Storable exB := by
  have hu : u64max = 2 ^ 64 - 1 := by decide
  refine ⟨?_, by decide, by decide, by decide⟩
  refine { designator := by decide, path := by decide, offset := by decide, size := by decide, fits := by decide, void := ?_, mtime := by decide,
           inode := by decide, generation := ?_, featureFlags := by decide, archiveOffset := by decide, nameTable := by simp [NameTable.InRange, exB] }
  · intro h; exact absurd (show (101 : UInt8) = 118 from h) (by decide)
  · intro g hg; cases hg

/-- The hypotheses of `C35_put_get` are met, and the chunk is found by a location with another size. -/
example (H : Bytes → Bytes) : ∃ c', put noFail (fun c => c) H (fun _ => none) ⟨[exA, exB], 164⟩ (List.replicate 32 1) = .ok (true, c') ∧
    ∃ o', get H c' { exA with size := u64max } = .ok (List.replicate 32 1, o') ∧ o'.nBytes = 164 := by
  have hput : put noFail (fun c => c) H (fun _ => none) ⟨[exA, exB], 164⟩ (List.replicate 32 1) =
      .ok (true, Seed.Cache.set (fun _ => none) (keyPath H exA) (.file (fileContent (List.replicate 32 1) [exA, exB]))) := by
    unfold put putFile
    simp [noFail]
  refine ⟨_, hput, ?_⟩
  obtain ⟨o', h1, -, h3⟩ := C35_put_get noFail (fun c => c) H _ _ ⟨[exA, exB], 164⟩ (List.replicate 32 1) (by decide)
    (by
      intro l hl
      simp only [List.mem_cons, List.not_mem_nil, or_false] at hl
      rcases hl with rfl | rfl
      · exact storable_exA
      · exact storable_exB) (by decide) hput { exA with size := u64max } exA rfl ⟨rfl, rfl, rfl, rfl, fun _ => ⟨rfl, rfl⟩, rfl⟩
  exact ⟨o', h1, h3⟩

/-- After the file changed (its mtime), the location asked for is another one, and its entry is another one too unless the digest collides. -/
example (H : Bytes → Bytes) (hH : ∀ x, (H x).length = 32)
    (hinj : H (Location.idInput exA false) = H (Location.idInput { exA with mtime := 8 } false) →
      Location.idInput exA false = Location.idInput { exA with mtime := 8 } false) : keyPath H exA ≠ keyPath H { exA with mtime := 8 } := by
  intro h
  have h1 := storable_exA.1
  have h2 : Location.WellFormed { exA with mtime := 8 } :=
    { designator := h1.designator, path := h1.path, offset := h1.offset, size := h1.size, fits := h1.fits, void := h1.void, mtime := (by decide),
      inode := h1.inode, generation := h1.generation, featureFlags := h1.featureFlags, archiveOffset := h1.archiveOffset, nameTable := h1.nameTable }
  have := (C35_keys_distinct H hH exA { exA with mtime := 8 } hinj h1 h2 (by decide) (by decide) rfl Iff.rfl h).2.2.2.1
  exact absurd this (by decide)

end Casync.Cache
