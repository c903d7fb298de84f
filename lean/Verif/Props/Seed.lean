import Verif.Spec.Seed
import Verif.Props.Chunker
import Verif.Props.ChunkId
import Verif.Props.Origin
import Verif.Props.Location
/-!
**C31** Seeds.
-/
namespace Casync.Seed
open Casync Chunker Chunker.Spec

variable {σ : Type}

theorem take_min (q : Bytes) (k : Nat) : q.take (min q.length k) = q.take k := by
  by_cases h : q.length ≤ k
  · rw [Nat.min_eq_left h, List.take_length, List.take_of_length_le h]
  · rw [Nat.min_eq_right (by omega)]

/-! ### What is delivered -/

theorem putOrigin_bytes {root : Nat} {o o' : Origin.Origin} {l : Location.Location} {m : Nat} (h : putOrigin root o l m = .ok o')
    (hs : o.nBytes + m < 2 ^ 64) : o'.nBytes = o.nBytes + m := by
  unfold putOrigin Origin.put at h
  split at h
  · cases h
  split at h
  · split at h
    · cases h
    · rename_i h0
      cases h
      have : o.nBytes = 0 := by omega
      rw [this, Nat.zero_add]; rfl
  · split at h
    · cases h
    · cases h
    · cases h
      exact Nat.mod_eq_of_lt hs
    · cases h
      exact Nat.mod_eq_of_lt hs

/-- The origin kept so far covers what was copied so far. -/
def Covers (p : Bytes) : Option Origin.Origin → Prop
  | none => True
  | some o => o.nBytes = p.length

theorem noteOrigin_covers {E : Encoder σ} {root : Nat} {enc : σ} {m : Nat} {p q : Bytes} {o o' : Option Origin.Origin} (h : noteOrigin E root enc m o = .ok o')
    (hc : Covers p o) (hq : q.length = m) (hs : p.length + m < 2 ^ 64) : Covers (p ++ q) o' := by
  cases o with
  | none => simp only [noteOrigin] at h; cases h; trivial
  | some o =>
    have hc : o.nBytes = p.length := hc
    unfold noteOrigin at h
    simp only at h
    split at h
    · cases h
    · cases h
    split at h
    · rename_i o2 ho2
      cases h
      have := putOrigin_bytes ho2 (by omega)
      show o2.nBytes = (p ++ q).length
      rw [List.length_append, this, hc, hq]
    · cases h
    · cases h

theorem getLoop_ok (E : Encoder σ) (H : Bytes → Bytes) (root : Nat) (id : Bytes) (size : Nat) (hsz : size < 2 ^ 64) :
    ∀ (fuel : Nat) (st : Res EStep × σ) (p : Bytes) (origin : Option Origin.Origin) (y : Bytes) (o : Option Origin.Origin) (enc' : σ),
      p.length ≤ size → Covers p origin → getLoop E H root id size fuel st p origin = some (.ok (y, o), enc') →
      H y = id ∧ y.length = size ∧ Covers y o ∧ o.isSome = origin.isSome
  | 0, _, _, _, _, _, _, _, _, h => by cases h
  | _ + 1, (.err e, enc), _, _, _, _, _, _, _, h => by simp [getLoop] at h
  | _ + 1, (.ub, enc), _, _, _, _, _, _, _, h => by simp [getLoop] at h
  | _ + 1, (.ok .finished, enc), _, _, _, _, _, _, _, h => by simp [getLoop] at h
  | fuel + 1, (.ok .data, enc), p, origin, y, o, enc', hp, hc, h => by
    unfold getLoop at h
    split at h
    · exact getLoop_ok E H root id size hsz fuel _ _ _ _ _ _ hp hc h
    · cases h
    · cases h
    · rename_i q hq
      simp only at h
      have hlen : (p ++ q.take (min q.length (size - p.length))).length ≤ size := by
        rw [List.length_append, List.length_take]; omega
      have hcov := fun o' => noteOrigin_covers (E := E) (root := root) (enc := enc) (m := min q.length (size - p.length)) (p := p)
        (q := q.take (min q.length (size - p.length))) (o := origin) (o' := o')
      have hsome : ∀ o', noteOrigin E root enc (min q.length (size - p.length)) origin = .ok o' → o'.isSome = origin.isSome := by
        intro o' ho
        cases origin with
        | none => simp only [noteOrigin] at ho; cases ho; rfl
        | some o1 =>
          unfold noteOrigin at ho
          simp only at ho
          split at ho
          · cases ho
          · cases ho
          split at ho <;> cases ho
          rfl
      generalize noteOrigin E root enc (min q.length (size - p.length)) origin = z at h hcov hsome
      cases z with
      | err e => cases h
      | ub => cases h
      | ok origin' =>
        simp only at h
        have hc' := hcov origin' rfl hc (by rw [List.length_take]; omega) (by omega)
        split at h
        · rename_i hge
          split at h
          · rename_i heq
            cases h
            refine ⟨?_, by omega, hc', hsome _ rfl⟩
            simp only [ChunkId.equal, beq_iff_eq] at heq
            exact heq.symm
          · cases h
        · have := getLoop_ok E H root id size hsz fuel _ _ _ _ _ _ hlen hc' h
          rw [hsome _ rfl] at this
          exact this

/-- What makes an encoder over a tree that may have changed harmless: reading never fails, and the only failure of a seek is that the place is not
there any more. -/
def Benign (E : Encoder σ) : Prop :=
  (∀ s e, (E.step s).1 ≠ .err e) ∧ (∀ s, (E.step s).1 ≠ .ub) ∧ (∀ s e, E.getData s = .err e → e = .ENODATA) ∧ (∀ s, E.getData s ≠ .ub) ∧
    (∀ s l e, (E.seek s l).1 = .err e → e = .ENXIO) ∧ ∀ s l, (E.seek s l).1 ≠ .ub

theorem getLoop_stale (E : Encoder σ) (hE : Benign E) (H : Bytes → Bytes) (root : Nat) (id : Bytes) (size : Nat) : ∀ (fuel : Nat) (x : Res EStep × σ)
    (p : Bytes) (r : Res (Bytes × Option Origin.Origin)) (enc' : σ), (x.1 = .err .ESTALE ∨ ∃ y, x.1 = .ok y) →
    getLoop E H root id size fuel x p none = some (r, enc') → r = .err .ESTALE ∨ ∃ y, r = .ok (y, none) := by
  intro fuel
  induction fuel with
  | zero => intro x p r enc' _ h; cases x with | mk a b => cases a <;> (unfold getLoop at h; cases h)
  | succ fuel ih =>
    rintro ⟨st, enc⟩ p r enc' hx h
    have hst : ∀ s, (E.step s).1 = .err .ESTALE ∨ ∃ y, (E.step s).1 = .ok y := by
      intro s
      cases hs : (E.step s).1 with
      | ok y => exact .inr ⟨y, rfl⟩
      | err e => exact absurd hs (hE.1 s e)
      | ub => exact absurd hs (hE.2.1 s)
    rcases hx with hx | ⟨y, hx⟩
    · simp only at hx
      subst hx
      simp only [getLoop] at h
      injection h with h
      injection h with h _
      exact .inl h.symm
    · simp only at hx
      subst hx
      cases y with
      | finished =>
        simp only [getLoop] at h
        injection h with h
        injection h with h _
        exact .inl h.symm
      | data =>
        simp only [getLoop] at h
        cases hg : E.getData enc with
        | ub => exact absurd hg (hE.2.2.2.1 enc)
        | err e =>
          have he := hE.2.2.1 enc e hg
          subst he
          rw [hg] at h
          exact ih _ _ _ _ (hst enc) h
        | ok q =>
          rw [hg] at h
          simp only [noteOrigin] at h
          split at h
          · split at h
            · injection h with h
              injection h with h _
              exact .inr ⟨_, h.symm⟩
            · injection h with h
              injection h with h _
              exact .inl h.symm
          · exact ih _ _ _ _ (hst enc) h

/-- **C31**: whatever happened to the files of the seed since, as long as they can be read, a lookup for which the index has a usable entry either
delivers the chunk or reports `ESTALE`, which makes the extraction go on to the next seed or store. -/
theorem C31_stale (E : Encoder σ) (hE : Benign E) (H : Bytes → Bytes) (root : Nat) (s : Seed σ) (fuel : Nat) (id t : Bytes) (l : Location.Location)
    (r : Res (Bytes × Option Origin.Origin)) (enc' : σ) (ho : s.opened = true) (hc : s.cacheChunks = true) (ht : readEntry s.cache id = .ok t)
    (hl : Location.parse t = .ok l) (hs : l.size ≠ u64max) (hm : l.size ≤ s.chunker.max)
    (h : get E H root s fuel id false = some (r, enc')) : r = .err .ESTALE ∨ ∃ y, r = .ok (y, none) := by
  unfold get at h
  rw [if_neg (by simp [ho]), if_neg (by simp [hc]), ht] at h
  simp only at h
  rw [hl] at h
  simp only at h
  rw [if_neg hs, if_neg (by omega)] at h
  have h : getLoop E H root id l.size fuel (seekResult (E.seek s.enc l).1, (E.seek s.enc l).2) [] none = some (r, enc') := h
  refine getLoop_stale E hE H root id l.size fuel _ [] r enc' ?_ h
  cases hk : (E.seek s.enc l).1 with
  | ok y => exact .inr ⟨y, rfl⟩
  | err e =>
    have := hE.2.2.2.2.1 _ _ _ hk
    subst this
    exact .inl rfl
  | ub => exact absurd hk (hE.2.2.2.2.2 _ _)

/-- **C31** Whatever the encoder does (that is: whatever happened to the files of the seed, and whenever), whatever is in the cache
directory: if the seed delivers a chunk, then the digest of its content is the id asked for, it is not empty, and it is not larger than the
largest chunk size; an origin is delivered if it was asked for, and covers as many bytes. -/
theorem C31_verified (E : Encoder σ) (H : Bytes → Bytes) (root : Nat) (s : Seed σ) (fuel : Nat) (id : Bytes) (want : Bool) (y : Bytes)
    (o : Option Origin.Origin) (enc' : σ) (hmax : s.chunker.max < 2 ^ 64) (h : get E H root s fuel id want = some (.ok (y, o), enc')) :
    H y = id ∧ y ≠ [] ∧ y.length ≤ s.chunker.max ∧ o.isSome = want ∧ ∀ o', o = some o' → o'.nBytes = y.length := by
  unfold get at h
  split at h
  · cases h
  split at h
  · cases h
  split at h
  · cases h
  · cases h
  split at h
  · cases h
  · cases h
  rename_i target _ l hl
  split at h
  · cases h
  split at h
  · cases h
  rename_i hle
  have hc : Covers [] (if want then some Origin.empty else none) := by cases want <;> simp [Covers, Origin.empty]
  obtain ⟨h1, h2, h3, h4⟩ := getLoop_ok E H root id l.size (by omega) fuel _ _ _ _ _ _ (Nat.zero_le _) hc h
  refine ⟨h1, ?_, by omega, ?_, ?_⟩
  · rintro rfl
    have := (Casync.Location.C18_parse_wf _ _ hl).1.size.1
    exact this h2.symm
  · rw [h4]; cases want <;> rfl
  · rintro o' rfl
    exact h3

/-! ### An unchanged seed -/

/-- Nothing fails. -/
def noFail : Fail := fun _ _ => none

/-- The text of the entry for `n` bytes at `pos`. -/
def text (loc : Nat → Location.Location) (pos n : Nat) : Bytes := Location.format (Location.patchSize (loc pos) n) Location.withAll

/-- All entries are those of chunks of the archive. -/
def Good (loc : Nat → Location.Location) (H : Bytes → Bytes) (archive : Bytes) (out : List Bytes) (c : Cache) : Prop :=
  ∀ p e, c p = some e → ∃ pos x, x ∈ out ∧ p = entryPath (H x) ∧ x ≠ [] ∧ pos + x.length ≤ archive.length ∧
    (archive.drop pos).take x.length = x ∧ (e = .link (text loc pos x.length) ∨ e = .file (text loc pos x.length))

/-- All chunks have entries. -/
def Complete (H : Bytes → Bytes) (out : List Bytes) (c : Cache) : Prop := ∀ x ∈ out, (c (entryPath (H x))).isSome

theorem writeEntry_spec {loc : Nat → Location.Location} {H : Bytes → Bytes} {archive : Bytes} {out : List Bytes} {c : Cache} {pos : Nat} {x : Bytes}
    (hg : Good loc H archive out c) (hc : Complete H out c) (hx : x ≠ []) (hp : pos + x.length ≤ archive.length)
    (ht : (archive.drop pos).take x.length = x) :
    ∃ c', writeEntry noFail H c (loc pos) x = .ok c' ∧ Good loc H archive (out ++ [x]) c' ∧ Complete H (out ++ [x]) c' := by
  have old : Good loc H archive (out ++ [x]) c := by
    intro p e h
    obtain ⟨pos, y, h1, h2⟩ := hg p e h
    exact ⟨pos, y, List.mem_append_left _ h1, h2⟩
  have new : ∀ e, (e = .link (text loc pos x.length) ∨ e = .file (text loc pos x.length)) →
      Good loc H archive (out ++ [x]) (c.set (entryPath (H x)) e) ∧ Complete H (out ++ [x]) (c.set (entryPath (H x)) e) := by
    intro e he
    constructor
    · intro p e' h
      unfold Cache.set at h
      split at h
      · rename_i hpe
        cases h
        exact ⟨pos, x, by simp, hpe, hx, hp, ht, he⟩
      · exact old p e' h
    · intro y hy
      unfold Cache.set
      split
      · rfl
      · rename_i hne
        rcases List.mem_append.1 hy with hy | hy
        · exact hc y hy
        · rw [List.mem_singleton] at hy; subst hy; exact absurd rfl hne
  unfold writeEntry symlinkat
  simp only [noFail]
  have htx : Location.format (Location.patchSize (loc pos) x.length) Location.withAll = text loc pos x.length := rfl
  rw [htx]
  by_cases h1 : (text loc pos x.length).length > linkMax
  · rw [if_pos h1]
    exact ⟨_, rfl, new _ (.inr rfl)⟩
  · rw [if_neg h1]
    by_cases h2 : (c (entryPath (H x))).isSome
    · rw [if_pos h2]
      refine ⟨_, rfl, old, ?_⟩
      intro y hy
      rcases List.mem_append.1 hy with hy | hy
      · exact hc y hy
      · rw [List.mem_singleton] at hy; subst hy; exact h2
    · rw [if_neg h2]
      exact ⟨_, rfl, new _ (.inl rfl)⟩

/-- The seed has seen the archive up to `pos`, as the writer has. -/
structure Sim (loc : Nat → Location.Location) (H : Bytes → Bytes) (archive : Bytes) (s : Seed σ) (w : Writer) (pos : Nat) : Prop where
  on : s.cacheChunks = true
  notReady : s.ready = false
  chunker : s.chunker = w.chunker
  buffer : s.buffer = w.buffer
  good : Good loc H archive w.out s.cache
  complete : Complete H w.out s.cache
  start : w.buffer.length ≤ pos
  content : (archive.drop (pos - w.buffer.length)).take w.buffer.length = w.buffer
  loc : (s.bufLoc = none ∧ w.buffer = []) ∨ (s.bufLoc = some (loc (pos - w.buffer.length)))

theorem take_drop_append {A b q r : Bytes} {i j : Nat} (h1 : (A.drop i).take b.length = b) (hj : i + b.length = j) (h2 : A.drop j = q ++ r) :
    (A.drop i).take (b ++ q).length = b ++ q ∧ A.drop i = b ++ q ++ r := by
  have h3 : A.drop i = b ++ (A.drop i).drop b.length := by
    conv => lhs; rw [← List.take_append_drop b.length (A.drop i), h1]
  rw [List.drop_drop, hj, h2] at h3
  refine ⟨?_, by rw [h3, List.append_assoc]⟩
  rw [h3, ← List.append_assoc, List.take_left']
  rfl

theorem drop_len {A q r : Bytes} {j : Nat} (h : A.drop j = q ++ r) (hq : q ≠ []) : j + q.length + r.length = A.length := by
  have := congrArg List.length h
  rw [List.length_drop, List.length_append] at this
  have : 0 < q.length := List.length_pos_iff.2 hq
  omega

theorem cacheLoop_sim (E : Encoder σ) (loc : Nat → Location.Location) (H : Bytes → Bytes) (archive : Bytes) {S : Sizes} (hv : S.Valid) :
    ∀ (fuel : Nat) (s : Seed σ) (w w' : Writer) (offset base : Nat) (p r : Bytes), WRep S w →
      Sim loc H archive s w (base + offset) → archive.drop (base + offset) = p ++ r →
      (∀ off, off < p.length → E.location s.enc (offset + off) = .ok (loc (base + offset + off))) →
      writeLoop fuel w p = .ok w' →
      ∃ s', cacheLoop E noFail H fuel s offset p = .ok s' ∧ Sim loc H archive s' w' (base + offset + p.length) ∧ s'.enc = s.enc ∧ s'.opened = s.opened
  | fuel, s, w, w', offset, base, [], r, hr, hs, hA, hl, hw => by
    have : w' = w := by cases fuel <;> (simp only [writeLoop] at hw; cases hw; rfl)
    subst this
    refine ⟨s, by cases fuel <;> rfl, hs, rfl, rfl⟩
  | 0, s, w, w', offset, base, a :: p, r, hr, hs, hA, hl, hw => by simp only [writeLoop] at hw; cases hw
  | fuel + 1, s, w, w', offset, base, a :: p, r, hr, hs, hA, hl, hw => by
    have hstart : startLocation E s offset = .ok (loc (base + offset - w.buffer.length)) := by
      unfold startLocation
      rcases hs.loc with ⟨h1, h2⟩ | h1
      · rw [h1, h2]
        have := hl 0 (by simp)
        simpa using this
      · rw [h1]
    have hb := hs.start
    obtain ⟨⟨k, c⟩, hsc, ho, hrep⟩ := scan_spec hv (p := a :: p) hr
    simp only [Nat.add_zero, Option.map_id_fun', id] at ho
    simp only [writeLoop] at hw
    simp only [cacheLoop]
    rw [hstart]
    simp only
    rw [hs.chunker, hsc]
    rw [hsc] at hw
    cases k with
    | none =>
      simp only at hw ⊢
      cases hw
      have := take_drop_append hs.content (by omega) hA
      refine ⟨_, rfl, ?_, rfl, rfl⟩
      have e1 : base + offset + (a :: p).length - (w.buffer ++ a :: p).length = base + offset - w.buffer.length := by
        rw [List.length_append]; omega
      exact { on := hs.on, notReady := hs.notReady, chunker := rfl, buffer := by simp only [hs.buffer], good := hs.good, complete := hs.complete
              start := by simp only [List.length_append]; omega
              content := by simp only [e1]; exact this.1
              loc := .inr (by simp only [e1]) }
    | some k =>
      simp only at hw hrep ⊢
      obtain ⟨hk1, hk2⟩ := cutPos_bounds ho.symm
      have hsplit : a :: p = (a :: p).take k ++ (a :: p).drop k := (List.take_append_drop _ _).symm
      have htl : ((a :: p).take k).length = k := by rw [List.length_take]; omega
      have hA2 : archive.drop (base + offset) = (a :: p).take k ++ ((a :: p).drop k ++ r) := by
        rw [← List.append_assoc, ← hsplit]; exact hA
      obtain ⟨ht1, ht2⟩ := take_drop_append hs.content (by omega) hA2
      have hne : w.buffer ++ (a :: p).take k ≠ [] := by
        intro h
        have := congrArg List.length h
        rw [List.length_append, htl] at this
        simp at this
        omega
      have hroom := drop_len ht2 hne
      obtain ⟨cache, hc1, hc2, hc3⟩ := writeEntry_spec (pos := base + offset - w.buffer.length) hs.good hs.complete hne (by omega) ht1
      rw [hs.buffer, hc1]
      simp only
      have hA3 : archive.drop (base + (offset + k)) = (a :: p).drop k ++ r := by
        have := congrArg (List.drop k) hA2
        rw [List.drop_drop, List.drop_left' htl] at this
        rw [← Nat.add_assoc]; exact this
      obtain ⟨s', h1, h2, h3, h4⟩ := cacheLoop_sim E loc H archive hv fuel { s with chunker := c, bufLoc := none, buffer := [], cache := cache }
        { chunker := c, buffer := [], out := w.out ++ [w.buffer ++ (a :: p).take k] } w' (offset + k) base ((a :: p).drop k) r hrep
        { on := hs.on, notReady := hs.notReady, chunker := rfl, buffer := rfl, good := hc2, complete := hc3, start := Nat.zero_le _, content := by simp
          loc := .inl ⟨rfl, rfl⟩ } hA3
        (by
          intro off hoff
          rw [List.length_drop] at hoff
          have := hl (k + off) (by omega)
          show E.location s.enc _ = _
          rw [Nat.add_assoc offset k off, this]
          congr 2
          omega) hw
      refine ⟨s', h1, ?_, h3, h4⟩
      have e : base + (offset + k) + ((a :: p).drop k).length = base + offset + (a :: p).length := by rw [List.length_drop]; omega
      rw [e] at h2
      exact h2

theorem writeFinal_eq' (w : Writer) : writeFinal w = if w.buffer = [] then w.out else w.out ++ [w.buffer] := writeFinal_eq

theorem indexed_sim (E : Encoder σ) (loc : Nat → Location.Location) (H : Bytes → Bytes) (archive : Bytes) {S : Sizes} (hv : S.Valid) :
    ∀ (blocks : List Bytes) (s : Seed σ) (w w' : Writer) (pos : Nat), WRep S w → Sim loc H archive s w pos → pos ≤ archive.length → archive.drop pos = blocks.flatten →
      Emits E loc s.enc pos blocks → writeAll w blocks = .ok w' →
      ∃ s', Indexed E noFail H s s' ∧ s'.cacheChunks = true ∧ s'.opened = true ∧ s'.chunker = w'.chunker ∧
        Good loc H archive (writeFinal w') s'.cache ∧ Complete H (writeFinal w') s'.cache
  | [], s, w, w', pos, hr, hs, hpos, hA, he, hw => by
    cases hw
    cases he with
    | done hstep =>
      rename_i enc'
      have hlen : archive.length = pos := by
        have := congrArg List.length hA
        rw [List.length_drop, List.flatten_nil, List.length_nil] at this
        omega
      have hb := hs.start
      by_cases hbuf : w.buffer = []
      · refine ⟨{ s with opened := true, enc := enc', ready := true }, .ready ?_, hs.on, rfl, hs.chunker, ?_, ?_⟩
        · unfold seedStep
          rw [hs.notReady, hs.on, hstep]
          simp only [Bool.not_true, Bool.false_eq_true, if_false, cacheFinal, hs.buffer, hbuf, if_true]
        · rw [writeFinal_eq', if_pos hbuf]; exact hs.good
        · rw [writeFinal_eq', if_pos hbuf]; exact hs.complete
      · have hloc : s.bufLoc = some (loc (pos - w.buffer.length)) := by
          rcases hs.loc with ⟨_, h⟩ | h
          · exact absurd h hbuf
          · exact h
        obtain ⟨cache, hc1, hc2, hc3⟩ := writeEntry_spec (pos := pos - w.buffer.length) hs.good hs.complete hbuf (by omega) hs.content
        refine ⟨{ s with opened := true, enc := enc', cache := cache, buffer := [], bufLoc := none, ready := true }, .ready ?_, hs.on, rfl, hs.chunker, ?_, ?_⟩
        · unfold seedStep
          rw [hs.notReady, hs.on, hstep]
          simp only [Bool.not_true, Bool.false_eq_true, if_false, cacheFinal, hs.buffer, hbuf, hloc, hc1]
        · rw [writeFinal_eq', if_neg hbuf]; exact hc2
        · rw [writeFinal_eq', if_neg hbuf]; exact hc3
  | b :: bs, s, w, w', pos, hr, hs, hpos, hA, he, hw => by
    cases he with
    | step hstep hgives hlocs hrest =>
      rename_i enc'
      have hA' : archive.drop pos = b ++ bs.flatten := by rw [hA, List.flatten_cons]
      have hA'' : archive.drop (pos + b.length) = bs.flatten := by
        rw [← List.drop_drop, hA', List.drop_left']
        rfl
      obtain ⟨w1, new, a1, a2, a3, a5⟩ := writeLoop_spec hv b.length w b (Nat.le_refl _) hr
      have hw2 : writeAll w1 bs = .ok w' := by
        simp only [writeAll, writeChunks, a1, Res.bind_ok] at hw
        exact hw
      have hpos' : pos + b.length ≤ archive.length := by
        have := congrArg List.length hA'
        rw [List.length_drop, List.length_append] at this
        omega
      have hs0 : Sim loc H archive { s with opened := true, enc := enc' } w (pos + 0) :=
        { on := hs.on, notReady := hs.notReady, chunker := hs.chunker, buffer := hs.buffer, good := hs.good, complete := hs.complete, start := hs.start,
          content := hs.content, loc := hs.loc }
      have fin : ∀ s1 : Seed σ, cacheChunks E noFail H { s with opened := true, enc := enc' } = .ok s1 → Sim loc H archive s1 w1 (pos + b.length) → s1.enc = enc' →
          ∃ s', Indexed E noFail H s s' ∧ s'.cacheChunks = true ∧ s'.opened = true ∧ s'.chunker = w'.chunker ∧
            Good loc H archive (writeFinal w') s'.cache ∧ Complete H (writeFinal w') s'.cache := by
        intro s1 h1 h2 h3
        obtain ⟨s', g1, g2⟩ := indexed_sim E loc H archive hv bs s1 w1 w' (pos + b.length) a2 h2 hpos' hA'' (by rw [h3]; exact hrest) hw2
        refine ⟨s', .more ?_ g1, g2⟩
        unfold seedStep
        rw [if_neg (by simp [hs.notReady]), if_neg (by simp [hs.on]), hstep]
        simp only [h1]
      rcases hgives with hg | ⟨hg, rfl⟩
      · obtain ⟨s1, h1, h2, h3, h4⟩ := cacheLoop_sim E loc H archive hv b.length { s with opened := true, enc := enc' } w w1 0 pos b bs.flatten hr hs0 hA'
          (by intro off hoff; simpa using hlocs off hoff) a1
        refine fin s1 ?_ h2 h3
        unfold cacheChunks
        simp only [hg]
        rw [if_neg (by simp [hs.on])]
        exact h1
      · have : w1 = w := by simp only [List.length_nil, writeLoop] at a1; cases a1; rfl
        subst this
        refine fin _ ?_ hs0 rfl
        unfold cacheChunks
        simp only [hg]

theorem getLoop_done (E : Encoder σ) (H : Bytes → Bytes) (root : Nat) (id : Bytes) (loc : Nat → Location.Location) :
    ∀ (bs : List Bytes) (enc : σ) (b p x r : Bytes) (pos : Nat), Gives E enc b → Emits E loc enc pos bs → p.length < x.length → p ++ (b :: bs).flatten = x ++ r →
      H x = id → ∃ fuel enc', getLoop E H root id x.length fuel (.ok .data, enc) p none = some (.ok (x, none), enc')
  | bs, enc, b, p, x, r, pos, hg, he, hp, hx, hid => by
    rw [List.flatten_cons] at hx
    -- what happens with a next step
    have next : ∀ p', p'.length < x.length → p' ++ bs.flatten = x ++ r →
        ∃ fuel enc', getLoop E H root id x.length fuel (E.step enc) p' none = some (.ok (x, none), enc') := by
      intro p' hp' hx'
      cases he with
      | done hstep =>
        rw [List.flatten_nil, List.append_nil] at hx'
        have := congrArg List.length hx'
        rw [List.length_append] at this
        omega
      | @step _ s' _ b' bs' hstep hgives hlocs hrest =>
        rw [hstep]
        exact getLoop_done E H root id loc bs' s' b' p' x r _ hgives hrest hp' hx' hid
    rcases hg with hg | ⟨hg, rfl⟩
    · have hxl := congrArg List.length hx
      simp only [List.length_append] at hxl
      by_cases hbig : x.length ≤ p.length + b.length
      · refine ⟨1, enc, ?_⟩
        simp only [getLoop, hg, noteOrigin]
        have hpx : p ++ b.take (min b.length (x.length - p.length)) = x := by
          rw [take_min]
          have h1 := congrArg (List.take x.length) hx
          rw [List.take_left' rfl, List.take_append, List.take_of_length_le (Nat.le_of_lt hp), List.take_append_of_le_length (by omega)] at h1
          exact h1
        rw [hpx, if_pos (Nat.le_refl _), if_pos]
        simp [ChunkId.equal, hid]
      · have htake : b.take (min b.length (x.length - p.length)) = b := by
          rw [take_min, List.take_of_length_le (by omega)]
        obtain ⟨fuel, enc', h⟩ := next (p ++ b) (by rw [List.length_append]; omega) (by rw [List.append_assoc]; exact hx)
        refine ⟨fuel + 1, enc', ?_⟩
        simp only [getLoop, hg, noteOrigin, htake]
        rw [if_neg (by rw [List.length_append]; omega)]
        exact h
    · obtain ⟨fuel, enc', h⟩ := next p hp hx
      refine ⟨fuel + 1, enc', ?_⟩
      simp only [getLoop, hg]
      exact h

/-- **C31** An unchanged seed delivers every chunk of its archive: if the encoder delivers the archive in some blocks and can be
resumed at every location it reports, then indexing succeeds, and afterwards every chunk of the archive can be had by its id, any number of
times and in any order (from any state of the encoder). -/
theorem C31_complete (E : Encoder σ) (H : Bytes → Bytes) (hH : ∀ x, (H x).length = 32) (loc : Nat → Location.Location) (blocks : List Bytes)
    (c : Chunker) (hc : Fresh c) (h48 : 48 ≤ c.max ∨ (c.min = c.avg ∧ c.max = c.avg)) (enc : σ) (he : Emits E loc enc 0 blocks)
    (hres : Resumes E loc blocks.flatten) (hshort : ShortEnough loc blocks.flatten) (hnul : ∀ pos n, (0 : UInt8) ∉ text loc pos n) :
    ∃ s, Indexed E noFail H { enc := enc, chunker := c } s ∧
      ∀ x ∈ chunks (sizesOf c) blocks.flatten, ∀ (enc' : σ) (root : Nat), has { s with enc := enc' } (H x) = .ok true ∧
        ∃ fuel y enc'', get E H root { s with enc := enc' } fuel (H x) false = some (.ok (y, none), enc'') ∧ H y = H x ∧
          y ∈ chunks (sizesOf c) blocks.flatten := by
  obtain ⟨w', h1, h2, h3, h4⟩ := writeAll_refines_spec c hc blocks
  obtain ⟨w2, g1, g2, g3⟩ := C03_sizes_usual c hc blocks h48
  obtain ⟨w3, f1, f2, _⟩ := writeAll_split hc.1 blocks (writer c) (rep_fresh hc)
  rw [h1] at g1 f1
  cases g1
  cases f1
  obtain ⟨s, k1, k2, k3, k4, k5, k6⟩ := indexed_sim E loc H blocks.flatten hc.1 blocks { enc := enc, chunker := c } (writer c) w' 0 (rep_fresh hc)
    { on := rfl, notReady := rfl, chunker := rfl, buffer := rfl, good := (fun p e h => nomatch h), complete := (fun x h => nomatch h), start := Nat.zero_le _,
      content := rfl, loc := .inl ⟨rfl, rfl⟩ } (Nat.zero_le _) (List.drop_zero) he h1
  rw [h4] at k5 k6 g3
  refine ⟨s, k1, fun x hx enc' root => ?_⟩
  have hsome := k6 x hx
  refine ⟨?_, ?_⟩
  · unfold has
    simp only [k2, k3, Bool.not_true, Bool.false_eq_true, if_false, hsome]
  obtain ⟨e, hent⟩ := Option.isSome_iff_exists.1 hsome
  obtain ⟨pos, y, y1, y2, y3, y4, y5, y6⟩ := k5 _ _ hent
  have hid : H y = H x := by
    have := (ChunkId.C11_path_injective [] (H x) (H y) [] [] (hH x) (hH y) (by
      unfold ChunkId.formatPath
      rw [List.append_nil, List.append_nil]
      exact y2)).1
    exact this.symm
  have hyl : 0 < y.length := List.length_pos_iff.2 y3
  obtain ⟨l, l1, l2, l3⟩ := hres pos y.length hyl y4
  obtain ⟨enc1, b, bs, m1, m2, m3, m4⟩ := l3 enc'
  have hdrop : [] ++ (b :: bs).flatten = y ++ (blocks.flatten.drop pos).drop y.length := by
    rw [List.nil_append, m4]
    conv => lhs; rw [← List.take_append_drop y.length (blocks.flatten.drop pos), y5]
  obtain ⟨fuel, enc2, hget⟩ := getLoop_done E H root (H x) loc bs enc1 b [] y _ _ m2 m3 hyl hdrop hid
  refine ⟨fuel, y, enc2, ?_, hid, y1⟩
  have hread : readEntry s.cache (H x) = .ok (text loc pos y.length) := by
    unfold readEntry
    rw [hent]
    rcases y6 with rfl | rfl
    · rfl
    · simp only
      rw [if_neg (by have := hshort pos y.length hyl y4; exact Nat.not_lt.2 this), if_neg (hnul _ _)]
  have hmax : s.chunker.max = c.max := by
    rw [k4]
    have := f2.cfg
    exact congrArg Sizes.max this
  have hle := g3 y y1
  have hval : c.max ≤ 134217728 := by
    have := hc.1
    unfold Sizes.Valid at this
    have h5 := this
    simp only [sizesOf] at h5
    omega
  unfold get
  simp only [k2, k3, Bool.not_true, Bool.false_eq_true, if_false, hread]
  have l1' : Location.parse (text loc pos y.length) = .ok l := l1
  rw [l1']
  simp only [l2]
  have hu : u64max = 18446744073709551615 := rfl
  rw [if_neg (by omega), if_neg (by omega)]
  show getLoop E H root (H x) y.length fuel (seekResult (E.seek enc' l).1, (E.seek enc' l).2) [] none = _
  rw [m1]
  exact hget

/-! ### Entries that cannot be read back -/

theorem nameTable_length (n : NameTable.Item) (k : Nat) : 3 * k ≤ (NameTable.format [{ entryOffset := 0, items := List.replicate k n }]).length := by
  have h : ∀ k, 3 * k ≤ ((List.replicate k n).map NameTable.formatItem).flatten.length := by
    intro k
    induction k with
    | zero => exact Nat.zero_le _
    | succ k ih =>
      rw [List.replicate_succ, List.map_cons, List.flatten_cons, List.length_append]
      have : 3 ≤ (NameTable.formatItem n).length := by
        unfold NameTable.formatItem
        simp only [List.length_append, List.length_cons]
        omega
      omega
  have := h k
  simp only [NameTable.format, NameTable.formatLevel, List.map_cons, List.map_nil, List.flatten_cons, List.flatten_nil, List.append_nil,
    List.length_append, List.length_cons]
  omega

/-- A location in a directory with that many entries before. -/
def crowded (k : Nat) : Location.Location :=
  { designator := 110, offset := 0, nameTable := [{ entryOffset := 0, items := List.replicate k ⟨1, 2, 3⟩ }] }

/-- **C31, unchanged seeds, is false for large directories**: the location of a chunk contains a line for every entry of the directory up to
there; beyond 1 MiB the entry is written but the lookup of the chunk fails with `E2BIG`, whatever the encoder would deliver (and
`ca_sync_get_local()` then gives up instead of asking the store). -/
theorem C31_large_directory_violated (E : Encoder σ) (H : Bytes → Bytes) (c : Chunker) (enc : σ) (x : Bytes) (k : Nat) (hk : 350000 ≤ k) :
    ∃ cache, writeEntry noFail H (fun _ => none) (crowded k) x = .ok cache ∧
      ∀ root fuel want, get E H root { enc := enc, chunker := c, opened := true, cache := cache } fuel (H x) want = some (.err .E2BIG, enc) := by
  have hlen : fileMax < (Location.format (Location.patchSize (crowded k) x.length) Location.withAll).length := by
    have h1 := nameTable_length ⟨1, 2, 3⟩ k
    have h2 : (Location.fmtNameTable (Location.patchSize (crowded k) x.length) Location.withAll).length ≤
        (Location.format (Location.patchSize (crowded k) x.length) Location.withAll).length := by
      unfold Location.format
      simp only [List.length_append, List.length_cons]
      omega
    have h3 : (NameTable.format [{ entryOffset := 0, items := List.replicate k ⟨1, 2, 3⟩ }]).length <
        (Location.fmtNameTable (Location.patchSize (crowded k) x.length) Location.withAll).length := by
      unfold Location.fmtNameTable
      rw [if_pos ⟨rfl, by simp [Location.patchSize, crowded]⟩]
      exact Nat.lt_succ_self _
    have h4 : fileMax = 1048576 := rfl
    omega
  generalize ht : Location.format (Location.patchSize (crowded k) x.length) Location.withAll = t at hlen
  refine ⟨Cache.set (fun _ => none) (entryPath (H x)) (.file t), ?_, fun root fuel want => ?_⟩
  · unfold writeEntry symlinkat
    simp only [noFail, ht]
    rw [if_pos (by have h4 : fileMax = 1048576 := rfl; have h5 : linkMax = 4095 := rfl; omega)]
  · unfold get
    simp only [Bool.not_true, Bool.false_eq_true, if_false]
    have : readEntry (Cache.set (fun _ => none) (entryPath (H x)) (.file t)) (H x) = .err .E2BIG := by
      unfold readEntry Cache.set
      rw [if_pos rfl]
      simp only
      rw [if_pos hlen]
    rw [this]

/-! ### An example: a seed that is one file, never changed, read in one piece -/

def blobLoc (p : Nat) : Location.Location := { designator := 112, offset := p }

/-- State 0: before the beginning; state `p + 1`: the rest from position `p` on is being delivered. -/
def blobEncoder (a : Bytes) : Encoder Nat where
  step s := if s = 0 then (.ok .data, 1) else (.ok .finished, s)
  getData s := if s = 0 then .err .ENODATA else .ok (a.drop (s - 1))
  location s off := .ok (blobLoc (s - 1 + off))
  seek _ l := (.ok .data, l.offset + 1)

/-- The hypothesis of `C31_stale` is met. -/
theorem blob_benign (a : Bytes) : Benign (blobEncoder a) := by
  refine ⟨?_, ?_, ?_, ?_, ?_, ?_⟩
  · intro s e h; unfold blobEncoder at h; simp only at h; split at h <;> cases h
  · intro s h; unfold blobEncoder at h; simp only at h; split at h <;> cases h
  · intro s e h
    unfold blobEncoder at h
    simp only at h
    split at h
    · injection h with h; exact h.symm
    · cases h
  · intro s h; unfold blobEncoder at h; simp only at h; split at h <;> cases h
  · intro s l e h; cases h
  · intro s l h; cases h

theorem blob_wf (p n : Nat) (hn : 0 < n) (h : p + n < u64max) : Location.WellFormed (Location.patchSize (blobLoc p) n) := by
  have hu : u64max = 2 ^ 64 - 1 := rfl
  refine { designator := rfl, path := by simp [Location.patchSize, blobLoc], offset := ?_, size := ?_, fits := ?_, void := ?_, mtime := Nat.le_refl _,
           inode := Nat.zero_le _, generation := by simp [Location.patchSize, blobLoc], featureFlags := Nat.le_refl _, archiveOffset := Nat.le_refl _,
           nameTable := ?_ }
  · show p < u64max; omega
  · show n ≠ 0 ∧ n ≤ u64max; omega
  · intro _; show p + n < 2 ^ 64; omega
  · intro h; exact absurd (show (112 : UInt8) = 118 from h) (by decide)
  · simp [NameTable.InRange, Location.patchSize, blobLoc]

theorem fmt_length (n : Nat) : (Number.dec n).length ≤ n + 1 := by
  unfold Number.dec
  induction n using Nat.strongRecOn with
  | ind n ih =>
    unfold Number.fmt
    split
    · simp
    · have := ih (n / 10) (by omega)
      rw [List.length_append]
      simp only [List.length_cons, List.length_nil]
      omega

theorem text_blob (p n : Nat) : text blobLoc p n = 43 :: 112 :: (Number.dec p ++ if n ≠ u64max then 58 :: Number.dec n else []) := by
  unfold text Location.format Location.fmtSize Location.fmtMtime Location.fmtFlags Location.fmtArchiveOffset Location.fmtNameTable
  simp [Location.patchSize, blobLoc, Location.withAll]

theorem blob_resumes (a : Bytes) (ha : a.length < u64max) : Resumes (blobEncoder a) blobLoc a := by
  intro pos n hn hp
  obtain ⟨l, h1, _, _, h2, h3, _⟩ := Location.C18_roundtrip _ (blob_wf pos n hn (by omega))
  have h2 : l.offset = pos := h2
  have h3 : l.size = n := h3
  refine ⟨l, h1, h3, fun s => ⟨pos + 1, a.drop pos, [], ?_, .inl ?_, .done (s' := pos + 1) ?_, by simp⟩⟩
  · simp [blobEncoder, h2]
  · simp [blobEncoder]
  · simp [blobEncoder]

/-- Every chunk of the file is found, with the default chunk sizes. -/
example (H : Bytes → Bytes) (hH : ∀ x, (H x).length = 32) (a : Bytes) (ha : a.length ≤ 500000) :
    ∃ s, Indexed (blobEncoder a) noFail H { enc := 0, chunker := Chunker.init } s ∧
      ∀ x ∈ chunks (sizesOf Chunker.init) a, ∀ (enc' : Nat) (root : Nat), has { s with enc := enc' } (H x) = .ok true ∧
        ∃ fuel y enc'', get (blobEncoder a) H root { s with enc := enc' } fuel (H x) false = some (.ok (y, none), enc'') ∧ H y = H x ∧
          y ∈ chunks (sizesOf Chunker.init) a := by
  have hu : u64max = 2 ^ 64 - 1 := rfl
  have hf : [a].flatten = a := by simp
  have := C31_complete (blobEncoder a) H hH blobLoc [a] Chunker.init (by decide) (.inl (by decide)) 0
    (.step (s' := 1) (by rfl) (.inl (by simp [blobEncoder])) (by intro off _; simp [blobEncoder])
      (.done (s' := 1) (by simp [blobEncoder])))
    (by rw [hf]; exact blob_resumes a (by omega))
    (by
      rw [hf]
      intro pos n hn hp
      show (text blobLoc pos n).length ≤ fileMax
      have hm : fileMax = 1048576 := rfl
      rw [text_blob]
      have h1 := fmt_length pos
      have h2 := fmt_length n
      split
      · simp only [List.length_cons, List.length_append]; omega
      · simp only [List.length_cons, List.length_append, List.length_nil]; omega)
    (by
      intro pos n h
      rw [text_blob] at h
      have hd : ∀ m, (0 : UInt8) ∉ Number.dec m := fun m hm => by
        have h1 := Number.fmt_digits (base := 10) (by omega) (by omega) m 0 hm
        exact absurd h1 (by decide)
      simp only [List.mem_cons, List.mem_append] at h
      rcases h with h | h | h | h
      · exact absurd h (by decide)
      · exact absurd h (by decide)
      · exact hd _ h
      · split at h
        · rcases List.mem_cons.1 h with h | h
          · exact absurd h (by decide)
          · exact hd _ h
        · cases h)
  rw [hf] at this
  exact this

end Casync.Seed
