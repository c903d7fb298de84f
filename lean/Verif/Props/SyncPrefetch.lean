import Verif.Props.SyncRead
/-!
C39, second part: the prefetch pass asks for every chunk of the index exactly once, if it is not at hand; and concrete
instances of the C39 theorems.
-/
namespace Casync.Sync
open Casync Casync.Index Casync.Index.Spec

variable {hd : Header} {cs : List (Bytes × Nat)} {enc rest : Bytes}

/-- The ids that were requested in a history, in their order. -/
def asked : List (Op × Res Out) → List Bytes
  | [] => []
  | (_, .ok (.done ids)) :: l => ids ++ asked l
  | _ :: l => asked l

/-- Whenever the prefetch pass runs, `has` tells it which chunks are at hand. -/
def Op.Has (has : Bytes → Res Bool) : Op → Prop
  | .prefetch _ h _ => h = has
  | _ => True

theorem fill_prefetched : ∀ (fuel : Nat) (r : Reader) {f r'}, fill fuel r = .ok (f, r') → r'.prefetched = r.prefetched := by
  intro fuel
  induction fuel with
  | zero => intro r f r' h; cases h
  | succ fuel ih =>
    intro r f r' h
    have hd : (dropNext r).prefetched = r.prefetched := by unfold dropNext; cases r.next <;> rfl
    rw [fill] at h
    cases hp : pending r with
    | some c => rw [hp] at h; cases h; rfl
    | none =>
      rw [hp] at h
      cases hi : readChunk (dropNext r).index with
      | err e =>
        rw [hi] at h
        simp only at h
        by_cases he : e = .EAGAIN
        · rw [if_pos he] at h; cases h; exact hd
        · rw [if_neg he] at h; cases h
      | ub => rw [hi] at h; cases h
      | ok x =>
        obtain ⟨oc, i⟩ := x
        rw [hi] at h
        cases oc with
        | none => cases h; exact hd
        | some c =>
          simp only at h
          by_cases hs : c.size = u64max
          · rw [if_pos hs] at h; cases h
          · rw [if_neg hs] at h
            rw [ih _ h]
            exact hd

theorem deliver_out {r : Reader} {c answer o r'} (h : deliver r c answer = .ok (o, r')) : r'.prefetched = r.prefetched ∧ ∀ ids, o ≠ .done ids := by
  unfold deliver at h
  cases ha : answer c.id with
  | err e =>
    rw [ha] at h
    simp only at h
    by_cases he : e = .EAGAIN ∨ e = .EALREADY
    · rw [if_pos he] at h; cases h; exact ⟨rfl, fun _ h => (by cases h)⟩
    · rw [if_neg he] at h; cases h
  | ub => rw [ha] at h; cases h
  | ok y =>
    rw [ha] at h
    simp only at h
    split at h
    · cases h
    · split at h
      · split at h
        · cases h
        · cases h; exact ⟨rfl, fun _ h => (by cases h)⟩
      · cases h; exact ⟨rfl, fun _ h => (by cases h)⟩

theorem request_out {r : Reader} {ready answer o r'} (h : request r ready answer = .ok (o, r')) : r'.prefetched = r.prefetched ∧ ∀ ids, o ≠ .done ids := by
  unfold request at h
  cases hf : fill (r.index.file.length + 2) r with
  | err e => rw [hf] at h; cases h
  | ub => rw [hf] at h; cases h
  | ok x =>
    obtain ⟨f, r1⟩ := x
    have h1 := fill_prefetched _ _ hf
    rw [hf] at h
    cases f with
    | wait => cases h; exact ⟨h1, fun _ h => (by cases h)⟩
    | eof => cases h; exact ⟨h1, fun _ h => (by cases h)⟩
    | chunk c =>
      simp only at h
      cases ready with
      | false => cases h; exact ⟨h1, fun _ h => (by cases h)⟩
      | true =>
        rw [if_pos rfl] at h
        have := deliver_out h
        exact ⟨by rw [this.1, h1], this.2⟩

/-- One step and the requests for chunks. -/
theorem step_asked {H : Bytes → Bytes} {xs : List Bytes} (c : Canon hd (chunksOf H xs) enc) {r : Reader} {pos : Nat}
    (hr : RInv hd (chunksOf H xs) enc rest r pos) {op : Op} (hop : op.Genuine H xs) {has : Bytes → Res Bool} (hh : op.Has has)
    (hp : r.prefetched ≤ (chunksOf H xs).length) {o r'} (hs : step r op = .ok (o, r')) :
    r.prefetched ≤ r'.prefetched ∧ r'.prefetched ≤ (chunksOf H xs).length ∧
      asked [(op, .ok o)] = wanted (chunksOf H xs) has r.prefetched (r'.prefetched - r.prefetched) ∧
      (∀ h a, op = .prefetch true h a → Complete r.index → r'.prefetched = (chunksOf H xs).length) := by
  have hz : wanted (chunksOf H xs) has r.prefetched (r.prefetched - r.prefetched) = [] := by simp [wanted]
  have same : r'.prefetched = r.prefetched → (∀ ids, o = .done ids → ids = []) → (∀ h a, op ≠ .prefetch true h a) →
      r.prefetched ≤ r'.prefetched ∧ r'.prefetched ≤ (chunksOf H xs).length ∧
      asked [(op, .ok o)] = wanted (chunksOf H xs) has r.prefetched (r'.prefetched - r.prefetched) ∧
      (∀ h a, op = .prefetch true h a → Complete r.index → r'.prefetched = (chunksOf H xs).length) := by
    intro h1 h2 h3
    refine ⟨by omega, by omega, ?_, fun h a e => absurd e (h3 h a)⟩
    rw [h1, hz]
    cases o with
    | done ids => rw [h2 ids rfl]; rfl
    | wait => rfl
    | data => rfl
    | eof => rfl
  cases op with
  | request ready answer =>
    obtain ⟨h1, h2⟩ := request_out hs
    exact same h1 (fun ids h => absurd h (h2 ids)) (fun _ _ h => (by cases h))
  | seek offset =>
    unfold step seekTo at hs
    simp only at hs
    cases hk : Index.seek r.index offset with
    | err e => rw [hk] at hs; cases hs
    | ub => rw [hk] at hs; cases hs
    | ok x => rw [hk] at hs; cases hs; exact same rfl (fun ids h => (by cases h; rfl)) (fun _ _ h => (by cases h))
  | skip n =>
    unfold step skipBytes at hs
    simp only at hs
    by_cases hk : r.skip + n ≥ 2 ^ 64
    · rw [if_pos hk] at hs; cases hs
    · rw [if_neg hk] at hs; cases hs; exact same rfl (fun ids h => (by cases h; rfl)) (fun _ _ h => (by cases h))
  | arrive d =>
    obtain ⟨i, _, hi⟩ := Res.bind_eq_ok.1 hs
    cases hi
    exact same rfl (fun ids h => (by cases h; rfl)) (fun _ _ h => (by cases h))
  | arriveEof =>
    obtain ⟨i, _, hi⟩ := Res.bind_eq_ok.1 hs
    cases hi
    exact same rfl (fun ids h => (by cases h; rfl)) (fun _ _ h => (by cases h))
  | prefetch ready h ask =>
    obtain rfl : h = has := hh
    obtain ⟨q, hat, _⟩ := hr
    have hs : prefetch r ready h ask = .ok (o, r') := hs
    rcases prefetch_at c hat (ready := ready) hop.1 hop.2 with ⟨e, he⟩ | ⟨ids, i', k, he, _, _, _, ⟨h1, h2, h3⟩ | ⟨h1, h2, h3, h4⟩⟩
    · rw [he] at hs; cases hs
    · rw [he] at hs
      cases hs
      refine ⟨by rw [h2]; exact Nat.le_refl _, by rw [h2]; exact hp, ?_, ?_⟩
      · show ids ++ [] = _
        rw [h1, h2, hz]; rfl
      · intro h' a e hc
        cases e
        have := h3 hc rfl
        show k = _
        omega
    · rw [he] at hs
      cases hs
      refine ⟨Nat.le_of_lt h1, h2, ?_, fun _ _ _ hc => h4 hc⟩
      show ids ++ [] = _
      rw [List.append_nil, h3]

theorem wanted_append {cs : List (Bytes × Nat)} {has : Bytes → Res Bool} {a b d : Nat} :
    wanted cs has a b ++ wanted cs has (a + b) d = wanted cs has a (b + d) := by
  unfold wanted
  rw [← List.filter_append, ← List.map_append, ← List.drop_drop, ← List.take_add]

theorem asked_cons (x : Op × Res Out) (l : List (Op × Res Out)) : asked (x :: l) = asked [x] ++ asked l := by
  obtain ⟨op, y⟩ := x
  cases y with
  | ok o => cases o <;> simp [asked]
  | err e => rfl
  | ub => rfl

theorem run_asked {H : Bytes → Bytes} {xs : List Bytes} (c : Canon hd (chunksOf H xs) enc) {has : Bytes → Res Bool} : ∀ (ops : List Op) (rest : Bytes) (r : Reader) (pos : Nat),
    RInv hd (chunksOf H xs) enc rest r pos → (∀ op ∈ ops, op.Genuine H xs) → (∀ op ∈ ops, op.Has has) → Arrives rest ops →
    r.prefetched ≤ (chunksOf H xs).length →
    ∃ k, r.prefetched ≤ k ∧ k ≤ (chunksOf H xs).length ∧ asked (run r ops) = wanted (chunksOf H xs) has r.prefetched (k - r.prefetched) ∧
      (Complete r.index → NoError (run r ops) → (∃ h a, Op.prefetch true h a ∈ ops) → k = (chunksOf H xs).length) := by
  intro ops
  induction ops with
  | nil =>
    intro rest r pos _ _ _ _ hp
    refine ⟨r.prefetched, Nat.le_refl _, hp, by simp [run, asked, wanted], fun _ _ ⟨_, _, h⟩ => ?_⟩
    cases h
  | cons op ops ih =>
    intro rest r pos hr hg hh ha hp
    obtain ⟨rest', h1, h2⟩ := arrives_cons ha
    rw [run]
    rcases step_inv c hr (hg op List.mem_cons_self) h1 with ⟨e, he⟩ | ⟨o, r', he, hi, hb, hf, hcp⟩
    · rw [he]
      refine ⟨r.prefetched, Nat.le_refl _, hp, by simp [asked, wanted], fun _ hn _ => ?_⟩
      obtain ⟨o, ho⟩ := hn _ List.mem_cons_self
      cases ho
    · rw [he]
      simp only
      obtain ⟨s1, s2, s3, s4⟩ := step_asked c hr (hg op List.mem_cons_self) (hh op List.mem_cons_self) hp he
      obtain ⟨k, k1, k2, k3, k4⟩ := ih rest' r' _ hi (fun op h => hg op (List.mem_cons_of_mem _ h)) (fun op h => hh op (List.mem_cons_of_mem _ h)) h2 s2
      refine ⟨k, by omega, k2, ?_, ?_⟩
      · rw [asked_cons, s3, k3]
        have : r'.prefetched = r.prefetched + (r'.prefetched - r.prefetched) := by omega
        rw (occs := .pos [2]) [this]
        rw [wanted_append]
        congr 1
        omega
      · intro hc hn hm
        obtain ⟨h, a, hm⟩ := hm
        rcases List.mem_cons.1 hm with hm | hm
        · have := s4 h a hm.symm hc
          omega
        · exact k4 (hcp (.inl hc)) (fun x hx => hn x (List.mem_cons_of_mem _ hx)) ⟨h, a, hm⟩

theorem wanted_chunksOf (H : Bytes → Bytes) (xs : List Bytes) (has : Bytes → Res Bool) (k : Nat) :
    wanted (chunksOf H xs) has 0 k = ((xs.take k).map H).filter fun id => has id = .ok false := by
  unfold wanted chunksOf
  rw [List.drop_zero, List.map_take, List.map_map, List.map_take]
  rfl

/-- **C39**, prefetching. In any history the prefetch passes together ask for the chunks of an initial part of the index, each position once, in
the order of the blob, leaving out exactly those that are at hand; and if one pass runs to its end without an error while the index is complete,
then for all of them. (Other operations ask for nothing.) -/
theorem C39_prefetch (H : Bytes → Bytes) (xs : List Bytes) (hd : Header) (hv : hd.Valid) (hc : ChunksValid hd (chunksOf H xs))
    (hlen : (encode hd (chunksOf H xs)).length < 2 ^ 63) (has : Bytes → Res Bool) (ops : List Op) (hops : ∀ op ∈ ops, op.Genuine H xs)
    (hhas : ∀ op ∈ ops, op.Has has) (ha : Arrives [] ops) :
    ∃ k ≤ xs.length, asked (run { index := newRead (encode hd (chunksOf H xs)) } ops) = ((xs.take k).map H).filter (fun id => has id = .ok false) ∧
      (NoError (run { index := newRead (encode hd (chunksOf H xs)) } ops) → (∃ h a, Op.prefetch true h a ∈ ops) → k = xs.length) := by
  obtain ⟨k, _, h2, h3, h4⟩ := run_asked (canon_of hv hc hlen) (has := has) ops [] { index := newRead (encode hd (chunksOf H xs)) } 0
    (rinv_file _) hops hhas ha (Nat.zero_le _)
  have hl : (chunksOf H xs).length = xs.length := by simp [chunksOf]
  refine ⟨k, by omega, ?_, fun hn hm => ?_⟩
  · rw [h3]; exact wanted_chunksOf H xs has k
  · have := h4 (.inl rfl) hn hm; omega

/-- **C39**, prefetching with an index that arrives in pieces: the passes never ask twice for the same position. -/
theorem C39_prefetch_remote (H : Bytes → Bytes) (xs : List Bytes) (hd : Header) (hv : hd.Valid) (hc : ChunksValid hd (chunksOf H xs))
    (hlen : (encode hd (chunksOf H xs)).length < 2 ^ 63) (has : Bytes → Res Bool) (ops : List Op) (hops : ∀ op ∈ ops, op.Genuine H xs)
    (hhas : ∀ op ∈ ops, op.Has has) (ha : Arrives (encode hd (chunksOf H xs)) ops) :
    ∃ k ≤ xs.length, asked (run { index := newIncRead } ops) = ((xs.take k).map H).filter (fun id => has id = .ok false) := by
  obtain ⟨k, _, h2, h3, _⟩ := run_asked (canon_of hv hc hlen) (has := has) ops _ { index := newIncRead } 0
    (rinv_inc _ _) hops hhas ha (Nat.zero_le _)
  have hl : (chunksOf H xs).length = xs.length := by simp [chunksOf]
  exact ⟨k, by omega, by rw [h3]; exact wanted_chunksOf H xs has k⟩

/-! ### Instances -/

/-- A digest for the examples: the first byte, 32 times. -/
def exH (x : Bytes) : Bytes := List.replicate 32 (x.headD 0)
/-- Three pieces. -/
def exXs : List Bytes := [[1, 2, 3], [4, 5], [6, 7, 8, 9]]
def exHd : Header := ⟨0, 2, 4, 8⟩
def exAnswer : Bytes → Res Bytes := fun id => if id = exH [1] then .ok [1, 2, 3] else if id = exH [4] then .ok [4, 5] else if id = exH [6] then .ok [6, 7, 8, 9] else .err .ENOENT
def exHas : Bytes → Res Bool := fun id => .ok (id = exH [4])
def exAsk : Bytes → Res Unit := fun _ => .ok ()
def exOps : List Op := [.prefetch true exHas exAsk, .seek 4, .request true exAnswer, .skip 2, .request true exAnswer, .request true exAnswer, .seek 1, .request true exAnswer, .prefetch true exHas exAsk]

/-- What a result is, without the operations (functions cannot be compared). -/
def outs (l : List (Op × Res Out)) : List (Res Out) := l.map (·.2)

example : exHd.Valid ∧ ChunksValid exHd (chunksOf exH exXs) ∧ (encode exHd (chunksOf exH exXs)).length < 2 ^ 63 := by decide +kernel
example : outs (run { index := newRead (encode exHd (chunksOf exH exXs)) } exOps) =
    [.ok (.done [exH [1], exH [6]]), .ok (.done []), .ok (.data [5]), .ok (.done []), .ok (.data [8, 9]), .ok .eof, .ok (.done []), .ok (.data [2, 3]), .ok (.done [])] := by
  decide +kernel
theorem exOps_genuine : ∀ op ∈ exOps, op.Genuine exH exXs := by
  have g : ∀ id, exAnswer id ≠ .ub := by
    intro id; unfold exAnswer; split
    · simp
    · split
      · simp
      · split <;> simp
  have a : ∀ x ∈ exXs, ∀ y, exAnswer (exH x) = .ok y → y = x := by
    have b : ∀ x ∈ exXs, exAnswer (exH x) = .ok x := by decide +kernel
    intro x hx y hy
    rw [b x hx] at hy; cases hy; rfl
  intro op h
  simp only [exOps, List.mem_cons, List.not_mem_nil, or_false] at h
  rcases h with h | h | h | h | h | h | h | h | h <;> subst h <;>
    first | exact trivial | exact ⟨a, g⟩ | exact ⟨fun _ h => (by cases h), fun _ h => (by cases h)⟩
theorem exOps_arrives : Arrives [] exOps := by unfold exOps; simp only [Arrives]
theorem exHd_valid : exHd.Valid := by decide +kernel
theorem exChunks_valid : ChunksValid exHd (chunksOf exH exXs) := by decide +kernel
theorem exFile_length : (encode exHd (chunksOf exH exXs)).length < 2 ^ 63 := by decide +kernel
example : Right exXs.flatten 0 (run { index := newRead (encode exHd (chunksOf exH exXs)) } exOps) := by
  have h1 := exHd_valid
  have h2 := exChunks_valid
  have h3 := exFile_length
  have h4 := exOps_genuine
  have h5 := exOps_arrives
  generalize exOps = o at *
  generalize exXs = xs at *
  generalize exHd = hd at *
  exact C39_random_access exH xs hd h1 h2 h3 o h4 h5

/-- The index arrives in two pieces; the reader waits in between. -/
def exOpsRemote : List Op := [.arrive ((encode exHd (chunksOf exH exXs)).take 130), .prefetch true exHas exAsk, .request true exAnswer, .request true exAnswer,
  .arrive ((encode exHd (chunksOf exH exXs)).drop 130), .arriveEof, .request true exAnswer, .prefetch true exHas exAsk, .request true exAnswer, .request true exAnswer]
example : outs (run { index := newIncRead } exOpsRemote) =
    [.ok (.done []), .ok (.done []), .ok (.data [1, 2, 3]), .ok .wait, .ok (.done []), .ok (.done []), .ok (.data [4, 5]),
     .ok (.done [exH [1], exH [6]]), .ok (.data [6, 7, 8, 9]), .ok .eof] := by
  decide +kernel

end Casync.Sync
