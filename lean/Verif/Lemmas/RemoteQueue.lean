import Verif.Spec.RemoteQueue
import Verif.Lemmas.Number
import Verif.Props.ChunkId
/-!
The request queue of Model/RemoteQueue.lean refines the two lists of Spec/RemoteQueue.lean.
-/
namespace Casync.Remote
open Casync Casync.Remote.Spec

theorem dec_inj {m n : Nat} (h : Number.dec m = Number.dec n) : m = n := by
  have h1 := Number.digitsVal_fmt (base := 10) (by decide) (by decide) m
  have h2 := Number.digitsVal_fmt (base := 10) (by decide) (by decide) n
  unfold Number.dec at h
  rw [h] at h1
  exact h1.symm.trans h2

theorem posName_inj {p p' : Bool} {n n' : Nat} (h : posName p n = posName p' n') : p = p' ∧ n = n' := by
  unfold posName qname at h
  cases p <;> cases p'
  · exact ⟨rfl, dec_inj (List.append_cancel_left h)⟩
  · rw [if_neg (by decide), if_pos rfl] at h
    exact absurd (List.cons.inj h).1 (by decide)
  · rw [if_pos rfl, if_neg (by decide)] at h
    exact absurd (List.cons.inj h).1 (by decide)
  · exact ⟨rfl, dec_inj (List.append_cancel_left h)⟩

theorem chunkName_inj {a b : Bytes} (h : chunkName a = chunkName b) : a = b :=
  ChunkId.format_inj (List.append_cancel_left h)

theorem chunkName_ne_posName (id : Bytes) (p : Bool) (n : Nat) : chunkName id ≠ posName p n := by
  intro h
  unfold posName qname chunkName at h
  cases p
  · rw [if_neg (by decide)] at h
    exact absurd (List.cons.inj h).1 (by decide)
  · rw [if_pos rfl] at h
    exact absurd (List.cons.inj h).1 (by decide)

theorem startswith_self (p : Bool) (n : Nat) : startswith (posName p n) (qname p) = some (Number.dec n) := by
  unfold startswith posName
  rw [if_pos (List.take_left' rfl), List.drop_left' rfl]

theorem startswith_other (p p' : Bool) (hp : p ≠ p') (n : Nat) : startswith (posName p n) (qname p') = none := by
  unfold startswith posName qname
  cases p <;> cases p'
  · exact absurd rfl hp
  · rw [if_neg]; intro h; exact absurd (List.cons.inj h).1 (by decide)
  · rw [if_neg]; intro h; exact absurd (List.cons.inj h).1 (by decide)
  · exact absurd rfl hp

/-- Start of the part of a queue that waits. -/
def startOf (q : Q) (p : Bool) : Nat := if p then q.startHi else q.startLo
/-- End of a queue. -/
def endOf (q : Q) (p : Bool) : Nat := if p then q.endHi else q.endLo

/-- `pos p n` is the id at position `n` of queue `p`, if there is one; `k` bounds the number of calls so far. -/
structure Inv (q : Q) (pos : Bool → Nat → Option Bytes) (s : S) (k : Nat) : Prop where
  lpos : ∀ p n, q.links (posName p n) = (pos p n).map ChunkId.format
  lchunk : ∀ id, id.length = 32 → ∀ t, q.links (chunkName id) = some t ↔ ∃ p n, t = posName p n ∧ pos p n = some id
  ids : ∀ p n id, pos p n = some id → id.length = 32 ∧ n < endOf q p
  le : ∀ p, startOf q p ≤ endOf q p
  wait : ∀ p, s.waiting p = (List.range' (startOf q p) (endOf q p - startOf q p)).filterMap (pos p)
  sent : ∀ p, s.sent p = (List.range' 0 (startOf q p)).filterMap (pos p)
  dirs : ∀ p, 0 < endOf q p → q.dirs (qname p) = true ∧ q.dirs chunksName = true ∧ q.cache = true
  bound : ∀ p, endOf q p ≤ k

theorem inv_new : Inv Q.new (fun _ _ => none) S.empty 0 where
  lpos := fun _ _ => rfl
  lchunk := fun _ _ t => ⟨fun h => (by cases h), fun ⟨_, _, _, h⟩ => (by cases h)⟩
  ids := fun _ _ _ h => by cases h
  le := fun p => by cases p <;> exact Nat.le_refl _
  wait := fun p => by cases p <;> rfl
  sent := fun p => by cases p <;> rfl
  dirs := fun p h => by cases p <;> exact absurd h (by decide)
  bound := fun p => by cases p <;> exact Nat.le_refl _

theorem Inv.mono {q pos s k k'} (h : Inv q pos s k) (hk : k ≤ k') : Inv q pos s k' :=
  { h with bound := fun p => Nat.le_trans (h.bound p) hk }

/-- Each id is at one position only. -/
theorem Inv.uniq {q pos s k} (h : Inv q pos s k) {p p' n n' id} (h1 : pos p n = some id) (h2 : pos p' n' = some id) :
    p = p' ∧ n = n' := by
  have hl := (h.ids p n id h1).1
  have a := (h.lchunk id hl (posName p n)).2 ⟨p, n, rfl, h1⟩
  have b := (h.lchunk id hl (posName p' n')).2 ⟨p', n', rfl, h2⟩
  rw [a] at b
  exact posName_inj (Option.some.inj b)

theorem Inv.known {q pos s k} (h : Inv q pos s k) (p : Bool) (id : Bytes) : s.Known p id ↔ ∃ n, pos p n = some id := by
  unfold S.Known
  rw [h.wait, h.sent, List.mem_filterMap, List.mem_filterMap]
  constructor
  · rintro (⟨n, _, hn⟩ | ⟨n, _, hn⟩) <;> exact ⟨n, hn⟩
  · rintro ⟨n, hn⟩
    have hlt := (h.ids p n id hn).2
    have := h.le p
    by_cases hs : n < startOf q p
    · right; exact ⟨n, by rw [List.mem_range'_1]; omega, hn⟩
    · left; exact ⟨n, by rw [List.mem_range'_1]; omega, hn⟩

theorem Inv.waits {q pos s k} (h : Inv q pos s k) {p n id} (hn : pos p n = some id) : id ∈ s.waiting p ↔ startOf q p ≤ n := by
  rw [h.wait, List.mem_filterMap]
  have hlt := (h.ids p n id hn).2
  have := h.le p
  constructor
  · rintro ⟨m, hm, hm'⟩
    rw [List.mem_range'_1] at hm
    have := (h.uniq hn hm').2
    omega
  · intro hs
    exact ⟨n, by rw [List.mem_range'_1]; omega, hn⟩

theorem filterMap_congr' {f g : Nat → Option Bytes} {l : List Nat} (h : ∀ n ∈ l, f n = g n) : l.filterMap f = l.filterMap g := by
  induction l with
  | nil => rfl
  | cons n l ih =>
    rw [List.filterMap_cons, List.filterMap_cons, h n List.mem_cons_self, ih (fun m hm => h m (List.mem_cons_of_mem _ hm))]

theorem filterMap_remove (f : Nat → Option Bytes) (id : Bytes) (l : List Nat) :
    l.filterMap (fun n => if f n = some id then none else f n) = (l.filterMap f).filter (· ≠ id) := by
  induction l with
  | nil => rfl
  | cons n l ih =>
    by_cases hf : f n = some id
    · rw [List.filterMap_cons_none (by simp [hf]), List.filterMap_cons_some hf, List.filter_cons_of_neg (by simp), ih]
    · cases hv : f n with
      | none => rw [List.filterMap_cons_none (by simp [hv]), List.filterMap_cons_none hv, ih]
      | some v =>
        have hne : v ≠ id := fun h => hf (by rw [hv, h])
        rw [List.filterMap_cons_some (b := v) (by simp [hv, hne]), List.filterMap_cons_some hv,
          List.filter_cons_of_pos (by simpa using hne), ih]

/-- Removing the two links of an id. -/
theorem inv_remove {q pos s k} (h : Inv q pos s k) {p n id} (hn : pos p n = some id) :
    ∃ q1 q2, unlink q (chunkName id) = .ok q1 ∧ unlink q1 (posName p n) = .ok q2 ∧
      Inv q2 (fun p' n' => if pos p' n' = some id then none else pos p' n') (s.remove id) k ∧
      q2.startHi = q.startHi ∧ q2.startLo = q.startLo ∧ q2.endHi = q.endHi ∧ q2.endLo = q.endLo ∧ q2.cache = q.cache ∧
      q2.links (chunkName id) = none ∧ q2.dirs = q.dirs := by
  have hl := (h.ids p n id hn).1
  have a := (h.lchunk id hl (posName p n)).2 ⟨p, n, rfl, hn⟩
  have b := h.lpos p n
  rw [hn] at b
  have e1 : unlink q (chunkName id) = .ok { q with links := fun x => if x = chunkName id then none else q.links x } := by
    unfold unlink; rw [a]; rfl
  refine ⟨_, { q with links := fun x => if x = posName p n then none else if x = chunkName id then none else q.links x }, e1, ?_,
    ⟨?_, ?_, ?_, h.le, ?_, ?_, h.dirs, h.bound⟩, rfl, rfl, rfl, rfl, rfl, ?_, rfl⟩
  · unfold unlink
    rw [if_neg]
    simp only [if_neg (chunkName_ne_posName id p n).symm, b]
    exact fun h => Bool.noConfusion h
  · intro p' n'
    show (if posName p' n' = posName p n then none else if posName p' n' = chunkName id then none else q.links (posName p' n')) = _
    by_cases hp : posName p' n' = posName p n
    · obtain ⟨rfl, rfl⟩ := posName_inj hp
      rw [if_pos rfl, if_pos hn]; rfl
    · rw [if_neg hp, if_neg (chunkName_ne_posName id p' n').symm, if_neg, h.lpos]
      intro h'
      obtain ⟨rfl, rfl⟩ := h.uniq h' hn
      exact hp rfl
  · intro id' hl' t
    show (if chunkName id' = posName p n then none else if chunkName id' = chunkName id then none else q.links (chunkName id')) = _ ↔ _
    rw [if_neg (chunkName_ne_posName id' p n)]
    by_cases hi : id' = id
    · subst hi
      rw [if_pos rfl]
      constructor
      · intro h; cases h
      · rintro ⟨p', n', _, h'⟩
        split at h'
        · cases h'
        · contradiction
    · rw [if_neg (fun h => hi (chunkName_inj h)), h.lchunk id' hl']
      constructor
      · rintro ⟨p', n', ht, h'⟩
        exact ⟨p', n', ht, by rw [if_neg]; exact h'; rw [h']; exact fun h => hi (Option.some.inj h)⟩
      · rintro ⟨p', n', ht, h'⟩
        split at h'
        · cases h'
        · exact ⟨p', n', ht, h'⟩
  · intro p' n' id' h'
    split at h'
    · cases h'
    · exact h.ids p' n' id' h'
  · intro p'
    show (s.waiting p').filter _ = _
    rw [h.wait]
    exact (filterMap_remove (pos p') id _).symm
  · intro p'
    show (s.sent p').filter _ = _
    rw [h.sent]
    exact (filterMap_remove (pos p') id _).symm
  · show (if chunkName id = posName p n then none else if chunkName id = chunkName id then none else q.links (chunkName id)) = _
    rw [if_neg (chunkName_ne_posName id p n), if_pos rfl]

theorem qname_ne (p : Bool) : qname p ≠ chunksName := by cases p <;> decide

/-- Appending an id that has no position. -/
theorem inv_insert {q pos s k} (h : Inv q pos s k) (hc : q.cache = true) (id : Bytes) (hl : id.length = 32) (high : Bool)
    (hn : ∀ p n, pos p n ≠ some id) (hk : k + 1 < 2 ^ 64) :
    ∃ q' pos', insert q id high (endOf q high) = (.ok true, q') ∧ Inv q' pos' (s.add high id) (k + 1) := by
  have hlink : q.links (chunkName id) = none := by
    cases hx : q.links (chunkName id) with
    | none => rfl
    | some t =>
      obtain ⟨p, n, _, h'⟩ := (h.lchunk id hl t).1 hx
      exact absurd h' (hn p n)
  have hpnone : pos high (endOf q high) = none := by
    cases hx : pos high (endOf q high) with
    | none => rfl
    | some t => exact absurd (h.ids _ _ _ hx).2 (Nat.lt_irrefl _)
  have hlp : q.links (posName high (endOf q high)) = none := by rw [h.lpos, hpnone]; rfl
  have hb := h.bound high
  -- the directories
  have hq1 : ∃ q1 : Q, (if endOf q high = 0 then mkdir (mkdir q chunksName) (qname high) else q) = q1 ∧ q1.links = q.links ∧
      q1.cache = q.cache ∧ q1.startHi = q.startHi ∧ q1.startLo = q.startLo ∧ q1.endHi = q.endHi ∧ q1.endLo = q.endLo ∧
      q1.dirs (qname high) = true ∧ q1.dirs chunksName = true ∧ (∀ d, q.dirs d = true → q1.dirs d = true) := by
    by_cases h0 : endOf q high = 0
    · rw [if_pos h0]
      refine ⟨_, rfl, rfl, rfl, rfl, rfl, rfl, rfl, ?_, ?_, ?_⟩
      · simp [mkdir]
      · simp [mkdir]
      · intro d hd
        simp only [mkdir]
        split
        · rfl
        · split
          · rfl
          · exact hd
    · rw [if_neg h0]
      have := h.dirs high (by omega)
      exact ⟨q, rfl, rfl, rfl, rfl, rfl, rfl, rfl, this.1, this.2.1, fun _ h => h⟩
  obtain ⟨q1, hq1, e1, e2, e3, e4, e5, e6, d1, d2, d3⟩ := hq1
  have s1 : symlink q1 (posName high (endOf q high)) chunksName (chunkName id) =
      .ok { q1 with links := fun x => if x = chunkName id then some (posName high (endOf q high)) else q1.links x } := by
    unfold symlink; rw [d2, e1, hlink]; rfl
  have s2 : symlink { q1 with links := fun x => if x = chunkName id then some (posName high (endOf q high)) else q1.links x }
      (ChunkId.format id) (qname high) (posName high (endOf q high)) =
      .ok { q1 with links := fun x => if x = posName high (endOf q high) then some (ChunkId.format id) else
        if x = chunkName id then some (posName high (endOf q high)) else q1.links x } := by
    unfold symlink
    simp only [d1, if_neg (chunkName_ne_posName id high (endOf q high)).symm, e1, hlp]
    rfl
  have hins : insert q id high (endOf q high) = (.ok true,
      if high then { q1 with links := (fun x => if x = posName high (endOf q high) then some (ChunkId.format id) else
          if x = chunkName id then some (posName high (endOf q high)) else q1.links x), endHi := (q1.endHi + 1) % 2 ^ 64 }
      else { q1 with links := (fun x => if x = posName high (endOf q high) then some (ChunkId.format id) else
          if x = chunkName id then some (posName high (endOf q high)) else q1.links x), endLo := (q1.endLo + 1) % 2 ^ 64 }) := by
    unfold insert
    simp only [hq1]
    rw [s1]
    simp only
    rw [s2]
  refine ⟨_, fun p n => if p = high ∧ n = endOf q high then some id else pos p n, hins, ?_⟩
  -- the state behind
  generalize hq' : (if high then { q1 with links := (fun x => if x = posName high (endOf q high) then some (ChunkId.format id) else
          if x = chunkName id then some (posName high (endOf q high)) else q1.links x), endHi := (q1.endHi + 1) % 2 ^ 64 }
      else { q1 with links := (fun x => if x = posName high (endOf q high) then some (ChunkId.format id) else
          if x = chunkName id then some (posName high (endOf q high)) else q1.links x), endLo := (q1.endLo + 1) % 2 ^ 64 } : Q) = q'
  have f1 : ∀ x, q'.links x = if x = posName high (endOf q high) then some (ChunkId.format id) else
        if x = chunkName id then some (posName high (endOf q high)) else q.links x := by
    intro x; rw [← hq', ← e1]; cases high <;> rfl
  have f2 : ∀ p, startOf q' p = startOf q p := by
    intro p; rw [← hq']; unfold startOf; cases high <;> cases p <;> simp [e3, e4]
  have f3 : ∀ p, endOf q' p = if p = high then endOf q p + 1 else endOf q p := by
    intro p; rw [← hq']
    unfold endOf at hb ⊢
    cases high <;> cases p <;> simp [e5, e6] <;> (simp at hb; omega)
  have f4 : q'.dirs = q1.dirs ∧ q'.cache = q1.cache := by rw [← hq']; cases high <;> exact ⟨rfl, rfl⟩
  refine ⟨?_, ?_, ?_, ?_, ?_, ?_, ?_, ?_⟩
  · intro p n
    rw [f1]
    by_cases hx : p = high ∧ n = endOf q high
    · obtain ⟨rfl, rfl⟩ := hx
      rw [if_pos rfl, if_pos ⟨rfl, rfl⟩]; rfl
    · rw [if_neg (fun h => hx (posName_inj h)), if_neg (chunkName_ne_posName id p n).symm, if_neg hx, h.lpos]
  · intro id' hl' t
    rw [f1, if_neg (chunkName_ne_posName id' high _)]
    by_cases hi : id' = id
    · subst hi
      rw [if_pos rfl]
      constructor
      · intro h
        exact ⟨high, endOf q high, (Option.some.inj h).symm, by rw [if_pos ⟨rfl, rfl⟩]⟩
      · rintro ⟨p, n, ht, h'⟩
        by_cases hx : p = high ∧ n = endOf q high
        · rw [ht, hx.1, hx.2]
        · rw [if_neg hx] at h'; exact absurd h' (hn p n)
    · rw [if_neg (fun h => hi (chunkName_inj h)), h.lchunk id' hl']
      constructor
      · rintro ⟨p, n, ht, h'⟩
        refine ⟨p, n, ht, ?_⟩
        rw [if_neg]
        · exact h'
        · rintro ⟨rfl, rfl⟩; rw [hpnone] at h'; cases h'
      · rintro ⟨p, n, ht, h'⟩
        by_cases hx : p = high ∧ n = endOf q high
        · rw [if_pos hx] at h'; exact absurd (Option.some.inj h').symm hi
        · rw [if_neg hx] at h'; exact ⟨p, n, ht, h'⟩
  · intro p n id' h'
    rw [f3]
    by_cases hx : p = high ∧ n = endOf q high
    · rw [if_pos hx] at h'
      obtain ⟨rfl, rfl⟩ := hx
      rw [if_pos rfl]
      exact ⟨by rw [← Option.some.inj h']; exact hl, Nat.lt_succ_self _⟩
    · rw [if_neg hx] at h'
      have := h.ids p n id' h'
      refine ⟨this.1, ?_⟩
      split <;> omega
  · intro p
    rw [f2, f3]
    have := h.le p
    split <;> omega
  · intro p
    rw [f2, f3]
    show (if p = high then s.waiting p ++ [id] else s.waiting p) = _
    have hle := h.le p
    by_cases hp : p = high
    · subst hp
      rw [if_pos rfl, if_pos rfl]
      have e : endOf q p + 1 - startOf q p = (endOf q p - startOf q p) + 1 := by omega
      rw [e, List.range'_concat, List.filterMap_append, h.wait]
      have e' : startOf q p + 1 * (endOf q p - startOf q p) = endOf q p := by omega
      rw [e']
      congr 1
      · apply filterMap_congr'
        intro n hx
        rw [List.mem_range'_1] at hx
        rw [if_neg]; intro ⟨_, h⟩; omega
      · simp
    · rw [if_neg hp, if_neg hp, h.wait]
      apply filterMap_congr'
      intro n _
      rw [if_neg (fun h => hp h.1)]
  · intro p
    rw [f2]
    show s.sent p = _
    rw [h.sent]
    apply filterMap_congr'
    intro n hx
    rw [List.mem_range'_1] at hx
    rw [if_neg]
    rintro ⟨rfl, h'⟩
    have := h.le p
    omega
  · intro p hp
    rw [f4.1, f4.2]
    rw [f3] at hp
    by_cases hx : p = high
    · subst hx; exact ⟨d1, d2, by rw [e2]; exact hc⟩
    · rw [if_neg hx] at hp
      have := h.dirs p hp
      exact ⟨d3 _ this.1, d2, by rw [e2]; exact hc⟩
  · intro p
    rw [f3]
    have := h.bound p
    split <;> omega

theorem inv_enqueue {q pos s k} (h : Inv q pos s k) (id : Bytes) (hl : id.length = 32) (high requeue : Bool)
    (hk : k + 1 < 2 ^ 64) :
    ∃ q' pos', Remote.enqueue q id high requeue = (.ok (Spec.enqueue s id high requeue).1, q') ∧
      Inv q' pos' (Spec.enqueue s id high requeue).2 (k + 1) := by
  have h0 : Inv { q with cache := true } pos s k :=
    { lpos := h.lpos, lchunk := h.lchunk, ids := h.ids, le := h.le, wait := h.wait, sent := h.sent,
      dirs := fun p hp => ⟨(h.dirs p hp).1, (h.dirs p hp).2.1, rfl⟩, bound := h.bound }
  have hpos : (if high then { q with cache := true }.endHi else { q with cache := true }.endLo : Nat) = endOf { q with cache := true } high := rfl
  unfold Remote.enqueue Spec.enqueue
  simp only
  rw [show (if high = true then q.endHi else q.endLo : Nat) = endOf { q with cache := true } high from rfl]
  cases hx : q.links (chunkName id) with
  | none =>
    have hno : ∀ p n, pos p n ≠ some id := by
      intro p n h'
      have := (h.lchunk id hl (posName p n)).2 ⟨p, n, rfl, h'⟩
      rw [hx] at this; cases this
    have hk1 : ∀ p, ¬ s.Known p id := fun p hkn => by
      obtain ⟨n, hn⟩ := (h.known p id).1 hkn
      exact hno p n hn
    rw [if_neg (hk1 true), if_neg (hk1 false)]
    simp only
    exact inv_insert h0 rfl id hl high hno hk
  | some t =>
    obtain ⟨p, n, rfl, hn⟩ := (h.lchunk id hl t).1 hx
    have hkn : s.Known p id := (h.known p id).2 ⟨n, hn⟩
    have hother : ∀ p', s.Known p' id → p' = p := by
      intro p' h'
      obtain ⟨n', hn'⟩ := (h.known p' id).1 h'
      exact (h.uniq hn' hn).1
    simp only
    cases p with
    | true =>
      rw [if_pos hkn]
      cases high with
      | true => rw [startswith_self]; exact ⟨_, pos, rfl, h0.mono (Nat.le_succ _)⟩
      | false =>
        rw [startswith_other true false (by decide)]
        exact ⟨_, pos, rfl, h0.mono (Nat.le_succ _)⟩
    | false =>
      have hnt : ¬ s.Known true id := fun h' => by cases hother true h'
      rw [if_neg hnt, if_pos hkn]
      cases high with
      | false =>
        rw [if_neg (c := false = true ∧ _) (fun h => by cases h.1), startswith_self]
        exact ⟨_, pos, rfl, h0.mono (Nat.le_succ _)⟩
      | true =>
        rw [startswith_other false true (by decide), if_neg (by decide), if_neg (by decide)]
        have hs : startswith (posName false n) loName = some (Number.dec n) := startswith_self false n
        rw [hs]
        simp only
        have hlt : n < 2 ^ 64 := by
          have h1 := (h.ids false n id hn).2
          have h2 := h.bound false
          omega
        rw [Number.atou64_dec hlt]
        simp only
        have hw : id ∈ s.waiting false ↔ q.startLo ≤ n := h.waits hn
        by_cases hcond : n < q.startLo ∧ requeue = false
        · rw [if_pos (by simp [hcond.1, hcond.2]), if_neg]
          · exact ⟨_, pos, rfl, h0.mono (Nat.le_succ _)⟩
          · rintro ⟨_, hor⟩
            rcases hor with h' | h'
            · rw [hw] at h'; omega
            · rw [hcond.2] at h'; cases h'
        · rw [if_neg, if_pos]
          · obtain ⟨q1, q2, u1, u2, i2, _, _, e1, e2, ec, _, _⟩ := inv_remove h0 hn
            rw [u1]
            simp only
            rw [u2]
            simp only
            have hee : endOf { q with cache := true } true = endOf q2 true := e1.symm
            rw [hee]
            exact inv_insert i2 ec id hl true (fun p' n' h' => by
              split at h'
              · cases h'
              · contradiction) hk
          · refine ⟨trivial, ?_⟩
            by_cases hr : requeue = true
            · exact .inr hr
            · left; rw [hw]
              have : requeue = false := by simpa using hr
              have : ¬ n < q.startLo := fun hlt => hcond ⟨hlt, this⟩
              omega
          · simp only [Bool.and_eq_true, decide_eq_true_eq, Bool.not_eq_true']
            exact hcond

theorem inv_forget {q pos s k} (h : Inv q pos s k) (id : Bytes) (rm : Res Unit)
    (hkn : s.Known true id ∨ s.Known false id) (hk : k < 2 ^ 64) :
    ∃ q' pos', forget q id rm = (rmRes rm, q') ∧ Inv q' pos' (s.remove id) k := by
  have : ∃ p n, pos p n = some id := by
    rcases hkn with hx | hx
    · obtain ⟨n, hn⟩ := (h.known _ _).1 hx; exact ⟨_, n, hn⟩
    · obtain ⟨n, hn⟩ := (h.known _ _).1 hx; exact ⟨_, n, hn⟩
  obtain ⟨p, n, hn⟩ := this
  have hl := (h.ids p n id hn).1
  have a := (h.lchunk id hl (posName p n)).2 ⟨p, n, rfl, hn⟩
  have h1 := (h.ids p n id hn).2
  have h2 := h.bound p
  have hc : q.cache = true := (h.dirs p (by omega)).2.2
  obtain ⟨q1, q2, u1, u2, i2, _⟩ := inv_remove h hn
  refine ⟨q2, _, ?_, i2⟩
  unfold forget
  rw [hc, if_neg (by decide), a]
  simp only
  have hsw : (startswith (posName p n) loName).or (startswith (posName p n) hiName) = some (Number.dec n) := by
    cases p with
    | true =>
      have := startswith_other true false (by decide) n
      rw [show qname false = loName from rfl] at this
      rw [this, Option.none_or]
      exact startswith_self true n
    | false =>
      have := startswith_self false n
      rw [show qname false = loName from rfl] at this
      rw [this]; rfl
  rw [hsw]
  simp only
  rw [Number.atou64_dec (show n < 2 ^ 64 by omega)]
  simp only
  rw [u1]
  simp only
  rw [u2]
  cases rm with
  | ok u => rfl
  | ub => rfl
  | err e => cases e <;> rfl

theorem bump_inv {q pos s k} (h : Inv q pos s k) (high : Bool) (hlt : startOf q high < endOf q high) (hk : k < 2 ^ 64)
    (s' : S)
    (hw : ∀ p, p ≠ high → s'.waiting p = s.waiting p ∧ s'.sent p = s.sent p)
    (hw' : s.waiting high = (pos high (startOf q high)).toList ++ s'.waiting high)
    (hs' : s'.sent high = s.sent high ++ (pos high (startOf q high)).toList) : Inv (bump q high) pos s' k := by
  have hb := h.bound high
  have f1 : (bump q high).links = q.links ∧ (bump q high).dirs = q.dirs ∧ (bump q high).cache = q.cache := by
    unfold bump; cases high <;> exact ⟨rfl, rfl, rfl⟩
  have f2 : ∀ p, endOf (bump q high) p = endOf q p := by intro p; unfold bump endOf; cases high <;> rfl
  have f3 : ∀ p, startOf (bump q high) p = if p = high then startOf q p + 1 else startOf q p := by
    intro p
    unfold startOf endOf at hlt
    unfold endOf at hb
    unfold bump startOf
    cases high <;> cases p <;> simp at hb hlt ⊢ <;> omega
  have hrange : List.range' (startOf q high) (endOf q high - startOf q high) =
      startOf q high :: List.range' (startOf q high + 1) (endOf q high - (startOf q high + 1)) := by
    have e : endOf q high - startOf q high = (endOf q high - (startOf q high + 1)) + 1 := by omega
    rw [e, List.range'_succ]
  refine ⟨by rw [f1.1]; exact h.lpos, by rw [f1.1]; exact h.lchunk, ?_, ?_, ?_, ?_, ?_, ?_⟩
  · intro p n id h'; rw [f2]; exact h.ids p n id h'
  · intro p; rw [f2, f3]
    have := h.le p
    split
    · rename_i hp; subst hp; omega
    · exact this
  · intro p; rw [f2, f3]
    by_cases hp : p = high
    · subst hp
      rw [if_pos rfl]
      rw [h.wait, hrange, List.filterMap_cons] at hw'
      cases hx : pos p (startOf q p) with
      | none => rw [hx] at hw'; exact hw'.symm
      | some v => rw [hx] at hw'; exact (List.cons.inj hw').2.symm
    · rw [if_neg hp, (hw p hp).1]; exact h.wait p
  · intro p; rw [f3]
    by_cases hp : p = high
    · subst hp
      rw [if_pos rfl, hs', List.range'_concat, List.filterMap_append, h.sent]
      congr 1
      simp only [Nat.one_mul, Nat.zero_add]
      cases hx : pos p (startOf q p) with
      | none => simp [hx]
      | some v => simp [hx]
    · rw [if_neg hp, (hw p hp).2]; exact h.sent p
  · intro p; rw [f2, f1.2.1, f1.2.2]; exact h.dirs p
  · intro p; rw [f2]; exact h.bound p

/-- What is at the start of a queue. -/
theorem Inv.head {q pos s k} (h : Inv q pos s k) (p : Bool) (hlt : startOf q p < endOf q p) :
    s.waiting p = (pos p (startOf q p)).toList ++ (List.range' (startOf q p + 1) (endOf q p - (startOf q p + 1))).filterMap (pos p) := by
  have e : endOf q p - startOf q p = (endOf q p - (startOf q p + 1)) + 1 := by omega
  rw [h.wait, e, List.range'_succ, List.filterMap_cons]
  cases pos p (startOf q p) <;> rfl

theorem Inv.nothing {q pos s k} (h : Inv q pos s k) (p : Bool) (hge : ¬ startOf q p < endOf q p) : s.waiting p = [] := by
  have e : endOf q p - startOf q p = 0 := by omega
  rw [h.wait, e]; rfl

/-- The result of a dequeue as the code returns it. -/
def deqRes : Option (Bytes × Bool) → Res (Bytes × Bool)
  | some x => .ok x
  | none => .err .ENODATA

theorem take_none {s : S} {p : Bool} (h : s.waiting p = []) : Spec.take s p = none := by unfold Spec.take; rw [h]

theorem loop_step {q pos s k} (h : Inv q pos s k) (only : Option Bool) (high : Bool) (hp : pick q only = some high)
    (fuel : Nat) (hk : k < 2 ^ 64)
    (ih : ∀ q' , Inv q' pos s k → (q'.endHi - q'.startHi) + (q'.endLo - q'.startLo) < fuel →
      ∃ q'' pos'', dequeueLoop only fuel q' = (deqRes (Spec.dequeue s only).1, q'') ∧ Inv q'' pos'' (Spec.dequeue s only).2 k)
    (hf : (q.endHi - q.startHi) + (q.endLo - q.startLo) < fuel + 1) (hlt : startOf q high < endOf q high)
    (hspec : ∀ id rest, s.waiting high = id :: rest → Spec.dequeue s only =
      (some (id, high), ⟨fun x => if x = high then rest else s.waiting x, fun x => if x = high then s.sent x ++ [id] else s.sent x⟩)) :
    ∃ q'' pos'', dequeueLoop only (fuel + 1) q = (deqRes (Spec.dequeue s only).1, q'') ∧
      Inv q'' pos'' (Spec.dequeue s only).2 k := by
  rw [dequeueLoop, hp]
  simp only
  rw [show (if high = true then q.startHi else q.startLo : Nat) = startOf q high from rfl, h.lpos]
  have hhead := h.head high hlt
  cases hx : pos high (startOf q high) with
  | none =>
    simp only [Option.map_none]
    rw [hx] at hhead
    have hi : Inv (bump q high) pos s k := bump_inv h high hlt hk s (fun _ _ => ⟨rfl, rfl⟩)
      (by rw [hx]; rfl) (by rw [hx]; simp)
    apply ih _ hi
    have hb := h.bound high
    unfold startOf endOf at hlt
    unfold endOf at hb
    have e : ∀ a : Nat, a < 2 ^ 64 → a % 2 ^ 64 = a := fun a ha => Nat.mod_eq_of_lt ha
    unfold bump
    cases high
    · simp only [Bool.false_eq_true, if_false] at hlt hb ⊢
      rw [e _ (by omega)]; omega
    · simp only [if_true] at hlt hb ⊢
      rw [e _ (by omega)]; omega
  | some id =>
    simp only [Option.map_some]
    rw [hx] at hhead
    have hidl := (h.ids _ _ _ hx).1
    rw [ChunkId.C11_round_trip id hidl]
    rw [hspec id _ hhead]
    refine ⟨_, pos, rfl, ?_⟩
    apply bump_inv h high hlt hk
    · intro p hp; simp [hp]
    · rw [hx, hhead]; simp
    · rw [hx]; simp

theorem dequeueLoop_spec (only : Option Bool) (k : Nat) (hk : k < 2 ^ 64) : ∀ (fuel : Nat) (q : Q) (pos) (s : S),
    Inv q pos s k → (q.endHi - q.startHi) + (q.endLo - q.startLo) < fuel →
    ∃ q' pos', dequeueLoop only fuel q = (deqRes (Spec.dequeue s only).1, q') ∧ Inv q' pos' (Spec.dequeue s only).2 k := by
  intro fuel
  induction fuel with
  | zero => intro q pos s _ hf; omega
  | succ fuel ih =>
    intro q pos s h hf
    by_cases h1 : q.startHi < q.endHi ∧ only ≠ some false
    · apply loop_step h only true (by unfold pick; rw [if_pos h1]) fuel hk (fun q' => ih q' pos s) hf h1.1
      intro id rest hw
      unfold Spec.dequeue
      rw [if_neg h1.2]
      unfold Spec.take
      rw [hw]
    · have hn1 : (if only = some false then none else Spec.take s true) = none := by
        by_cases ho : only = some false
        · rw [if_pos ho]
        · rw [if_neg ho]; apply take_none; exact h.nothing true (fun hlt => h1 ⟨hlt, ho⟩)
      by_cases h2 : q.startLo < q.endLo ∧ only ≠ some true
      · apply loop_step h only false (by unfold pick; rw [if_neg h1, if_pos h2]) fuel hk (fun q' => ih q' pos s) hf h2.1
        intro id rest hw
        unfold Spec.dequeue
        rw [hn1, if_neg h2.2]
        unfold Spec.take
        simp only [hw]
      · have hn2 : (if only = some true then none else Spec.take s false) = none := by
          by_cases ho : only = some true
          · rw [if_pos ho]
          · rw [if_neg ho]; apply take_none; exact h.nothing false (fun hlt => h2 ⟨hlt, ho⟩)
        have hd : Spec.dequeue s only = (none, s) := by
          unfold Spec.dequeue
          rw [hn1, hn2]
        rw [hd, dequeueLoop, show pick q only = none by unfold pick; rw [if_neg h1, if_neg h2]]
        exact ⟨q, pos, rfl, h⟩

theorem inv_dequeue {q pos s k} (h : Inv q pos s k) (only : Option Bool) (hk : k < 2 ^ 64) :
    ∃ q' pos', Remote.dequeue q only = (deqRes (Spec.dequeue s only).1, q') ∧ Inv q' pos' (Spec.dequeue s only).2 k := by
  unfold Remote.dequeue
  by_cases hc : q.cache = true
  · rw [hc, if_neg (by decide)]
    exact dequeueLoop_spec only k hk _ q pos s h (Nat.lt_succ_self _)
  · have hc' : q.cache = false := by simpa using hc
    rw [hc', if_pos (by decide)]
    have hz : ∀ p, s.waiting p = [] := by
      intro p
      apply h.nothing p
      intro hlt
      have := (h.dirs p (by omega)).2.2
      rw [hc'] at this; cases this
    have hd : Spec.dequeue s only = (none, s) := by
      unfold Spec.dequeue
      rw [take_none (hz true), take_none (hz false)]
      cases only with
      | none => rfl
      | some b => cases b <;> rfl
    rw [hd]
    exact ⟨q, pos, rfl, h⟩

theorem step_spec {q pos s k} (h : Inv q pos s k) (o : Op) (os : List Op) (hp : Proper s (o :: os)) (hk : k + 1 < 2 ^ 64) :
    ∃ q' pos', Remote.step q o = ((Spec.step s o).1, q') ∧ Inv q' pos' (Spec.step s o).2 (k + 1) := by
  cases o with
  | enqueue id high requeue =>
    obtain ⟨q', pos', e, i⟩ := inv_enqueue h id hp.1 high requeue hk
    exact ⟨q', pos', by simp only [Remote.step, Spec.step, e], i⟩
  | dequeue only =>
    obtain ⟨q', pos', e, i⟩ := inv_dequeue h only (by omega)
    refine ⟨q', pos', ?_, i.mono (Nat.le_succ _)⟩
    simp only [Remote.step, Spec.step, e]
    cases (Spec.dequeue s only).1 <;> rfl
  | forget id rm =>
    obtain ⟨q', pos', e, i⟩ := inv_forget h id rm hp.1.2 (by omega)
    refine ⟨q', pos', ?_, i.mono (Nat.le_succ _)⟩
    simp only [Remote.step, Spec.step, e]

theorem run_spec (os : List Op) : ∀ {q pos s k}, Inv q pos s k → Proper s os → k + os.length < 2 ^ 64 →
    (runQ q os).1 = (Spec.run s os).1 ∧ ∃ pos', Inv (runQ q os).2 pos' (Spec.run s os).2 (k + os.length) := by
  induction os with
  | nil => intro q pos s k h _ _; exact ⟨rfl, pos, h⟩
  | cons o os ih =>
    intro q pos s k h hp hk
    simp only [List.length_cons] at hk
    obtain ⟨q', pos', e, i⟩ := step_spec h o os hp (by omega)
    have := ih i hp.2 (by omega)
    simp only [runQ, Spec.run, e]
    refine ⟨by rw [this.1], ?_⟩
    obtain ⟨pos'', i'⟩ := this.2
    refine ⟨pos'', ?_⟩
    rw [show k + (o :: os).length = k + 1 + os.length by simp only [List.length_cons]; omega]
    exact i'

end Casync.Remote
