import Verif.Lemmas.RawSize
/-!
The loop that reads a payload.
-/
namespace Casync.Raw
open Casync

theorem readSize_fs {b : Bytes} (hl : b.length = 1082) {k : Kind} {s : Nat} (h : Extent k b s) (hf : Fits k s)
    (he : ∀ g ∈ k.earlier, Absent g b) : readSize (.data b) = .ok (some s) := by
  cases k with
  | squashfs =>
    cases h with
    | squashfs _ used _ hm hu hr =>
      have hfit : s < 2 ^ 64 := hf
      have e : readSize (.data b) = if b.length ≠ superSize then .ok none
        else if field b 0 4 = 0x73717368 then .ok (some (alignTo (field b 40 8) 4096)) else .ok (readAndroid b) := rfl
      rw [e, if_neg (by rw [hl]; exact fun h => h rfl), if_pos (field_says hm), field_says hu]
      have hle : used + 4096 ≤ 2 ^ 64 := by
        obtain ⟨h1, h2, x, rfl⟩ := hr
        omega
      rw [hr.uniq (alignTo_round used 12 (by decide) hle)]
  | android =>
    rw [readSize_absent hl (he .squashfs (by simp [Kind.earlier])), readAndroid_of hl h]
  | fat =>
    rw [readSize_absent hl (he .squashfs (by simp [Kind.earlier])), readAndroid_absent hl (he .android (by simp [Kind.earlier])),
      readFat_of hl h]
  | ext =>
    rw [readSize_absent hl (he .squashfs (by simp [Kind.earlier])), readAndroid_absent hl (he .android (by simp [Kind.earlier])),
      readFat_absent hl (he .fat (by simp [Kind.earlier])), readExt_of h hf]

theorem readSize_none {b : Bytes} (hl : b.length = 1082) (h : ∀ k, Absent k b) (hm : ¬ Says b 1080 2 0xEF53) :
    readSize (.data b) = .ok none := by
  rw [readSize_absent hl (h _), readAndroid_absent hl (h _), readFat_absent hl (h _)]
  unfold readExt
  rw [if_neg (fun e => hm (says_of_field (by omega) e))]

theorem readSize_short {b : Bytes} (hl : b.length ≠ 1082) : readSize (.data b) = .ok none := by
  have e : readSize (.data b) = if b.length ≠ superSize then .ok none
    else if field b 0 4 = 0x73717368 then .ok (some (alignTo (field b 40 8) 4096)) else .ok (readAndroid b) := rfl
  rw [e, if_pos (show b.length ≠ superSize from hl)]

/-- The node answers `size` in all these turns. -/
def Knows (ts : List Turn) (n : Node) (size : Nat) : Prop :=
  ∀ t ∈ ts, ∃ n', payloadSize t n = (.ok size, n') ∧ ∀ t', payloadSize t' n' = (.ok size, n')

/-- The answer is the same from now on. -/
def Settled (n : Node) (size : Nat) : Prop := ∀ t, payloadSize t n = (.ok size, n)

theorem Settled.knows {n : Node} {size : Nat} (h : Settled n size) (ts : List Turn) : Knows ts n size :=
  fun t _ => ⟨n, h t, h⟩

theorem settled_reg (size : Nat) : Settled (.reg size) size := fun _ => rfl

theorem settled_blk (size : Nat) : Settled (.blk (some size)) size := fun _ => rfl

theorem knows_blk {dev : Bytes} {s : Nat} {ts : List Turn} (hts : ∀ t ∈ ts, Shows dev t) (h5 : 512 ∣ dev.length)
    (h64 : dev.length < 2 ^ 64) (hs : ImageSize dev s) : Knows ts (.blk none) s := by
  intro t ht
  obtain ⟨h1, h2, h3⟩ := hts t ht
  have e0 : dev.length / 512 * 512 % 2 ^ 64 = dev.length := by
    rw [Nat.div_mul_cancel h5, Nat.mod_eq_of_lt h64]
  have key : readDeviceSize t = (.ok s, some s) := by
    unfold readDeviceSize
    rw [h1, h2]
    have et : reads dev 0 1082 = .data (dev.take 1082) := by unfold reads; rw [List.drop_zero]
    simp only
    rw [et, e0]
    cases hs with
    | fs k f hx hf he hl =>
      have hl' : (dev.take 1082).length = 1082 := by rw [List.length_take]; omega
      rw [readSize_fs hl' hx hf he]
      simp only
      by_cases hlt : dev.length > f
      · rw [if_pos hlt, Nat.min_eq_left (by omega)]
      · rw [if_neg hlt, Nat.min_eq_right (by omega)]
    | unknown ha hm =>
      by_cases hl : 1082 ≤ dev.length
      · rw [readSize_none (by rw [List.length_take]; omega) ha hm]
      · rw [readSize_short (by rw [List.length_take]; omega)]
    | short hl =>
      rw [readSize_short (by rw [List.length_take]; omega)]
  refine ⟨.blk (some s), ?_, settled_blk s⟩
  show ((readDeviceSize t).1, Node.blk (readDeviceSize t).2) = _
  rw [key]

theorem turn_of {t : Turn} {n n' : Node} {off : Nat} {buf : Bytes} {size : Nat} (h1 : payloadSize t n = (.ok size, n'))
    (h2 : ∀ t', payloadSize t' n' = (.ok size, n')) :
    turn t { node := n, off := off, buf := buf } =
      if off + buf.length ≥ size then .finished
      else match payloadData t size (off + buf.length) with
        | .err e => .failed e
        | .ub => .crashed
        | .ok none => .finished
        | .ok (some b) => .piece b { node := n', off := off + buf.length, buf := b } := by
  unfold turn
  simp only [h1]
  by_cases h : off + buf.length ≥ size
  · rw [if_pos h, if_pos h]
  · rw [if_neg h, if_neg h]
    unfold getData
    rw [h2 t]
    rfl

theorem want_le (t : Turn) (left : Nat) : want t left ≤ left := by
  unfold want
  split
  · omega
  · split <;> omega

theorem want_pos {t : Turn} {left : Nat} (ha : Asks t) (h : 0 < left) : 0 < want t left := by
  have hb : bufferSize = 65536 := rfl
  unfold want
  split
  · omega
  · rename_i s hs
    have : s ≠ 0 := fun h0 => ha (by rw [hs, h0])
    split <;> omega

/-- The loop over an unchanging content that is long enough. -/
theorem run_whole {c : Bytes} {size : Nat} (hsz : size ≤ c.length) : ∀ (ts : List Turn), (∀ t ∈ ts, t.payload = reads c ∧ Asks t) →
    ∀ (n : Node) (off : Nat) (buf : Bytes), Knows ts n size → off + buf.length ≤ size →
    (size < ts.length + (off + buf.length) → run ts { node := n, off := off, buf := buf } (c.take (off + buf.length)) = .done (c.take size)) ∧
    (run ts { node := n, off := off, buf := buf } (c.take (off + buf.length)) = .done (c.take size) ∨
      ∃ m s', run ts { node := n, off := off, buf := buf } (c.take (off + buf.length)) = .more (c.take m) s' ∧ m ≤ size) := by
  intro ts
  induction ts with
  | nil =>
    intro _ n off buf _ hle
    refine ⟨fun h => ?_, .inr ⟨_, _, rfl, hle⟩⟩
    simp at h
    omega
  | cons t ts ih =>
    intro hts n off buf hk hle
    obtain ⟨n', h1, h2⟩ := hk t List.mem_cons_self
    obtain ⟨hp, ha⟩ := hts t List.mem_cons_self
    have ih' := ih (fun t' ht' => hts t' (List.mem_cons_of_mem _ ht')) n'
    simp only [run, turn_of h1 h2]
    generalize off + buf.length = o at *
    by_cases h : o ≥ size
    · have : o = size := by omega
      rw [if_pos h]
      subst this
      exact ⟨fun _ => rfl, .inl rfl⟩
    · rw [if_neg h]
      unfold payloadData
      rw [if_neg h, hp]
      have hw := want_le t (size - o)
      have hw0 := want_pos ha (show 0 < size - o by omega)
      generalize want t (size - o) = k at *
      have hlen : ((c.drop o).take k).length = k := by rw [List.length_take, List.length_drop]; omega
      unfold reads
      simp only [hlen, ne_eq, not_true, if_false]
      have hcat : c.take o ++ (c.drop o).take k = c.take (o + k) := by rw [List.take_add]
      rw [hcat]
      have := ih' o ((c.drop o).take k) ((show Settled n' size from h2).knows ts) (by rw [hlen]; omega)
      rw [hlen] at this
      refine ⟨fun hlt => this.1 ?_, this.2⟩
      simp only [List.length_cons] at hlt
      omega

/-- The loop over an unchanging content that is too short. -/
theorem run_short {c : Bytes} {size : Nat} (hsz : c.length < size) : ∀ (ts : List Turn), (∀ t ∈ ts, t.payload = reads c ∧ Asks t) →
    ∀ (n : Node) (off : Nat) (buf out : Bytes), Knows ts n size → off + buf.length ≤ c.length →
    (c.length < ts.length + (off + buf.length) → run ts { node := n, off := off, buf := buf } out = .error .EIO) ∧
    (∀ img, run ts { node := n, off := off, buf := buf } out ≠ .done img) := by
  intro ts
  induction ts with
  | nil =>
    intro _ n off buf out _ hle
    refine ⟨fun h => ?_, fun img => by simp [run]⟩
    simp at h
    omega
  | cons t ts ih =>
    intro hts n off buf out hk hle
    obtain ⟨n', h1, h2⟩ := hk t List.mem_cons_self
    obtain ⟨hp, ha⟩ := hts t List.mem_cons_self
    have ih' := ih (fun t' ht' => hts t' (List.mem_cons_of_mem _ ht')) n'
    simp only [run, turn_of h1 h2]
    generalize off + buf.length = o at *
    rw [if_neg (show ¬ o ≥ size by omega)]
    unfold payloadData
    rw [if_neg (show ¬ o ≥ size by omega), hp]
    have hw := want_le t (size - o)
    have hw0 := want_pos ha (show 0 < size - o by omega)
    generalize want t (size - o) = k at *
    unfold reads
    simp only
    by_cases hfit : ((c.drop o).take k).length = k
    · rw [if_neg (fun h => h hfit)]
      have hlen := hfit
      rw [List.length_take, List.length_drop] at hlen
      have := ih' o ((c.drop o).take k) (out ++ (c.drop o).take k) ((show Settled n' size from h2).knows ts)
        (by rw [hfit]; omega)
      rw [hfit] at this
      refine ⟨fun hlt => this.1 ?_, this.2⟩
      simp only [List.length_cons] at hlt
      omega
    · rw [if_pos hfit]
      exact ⟨fun _ => rfl, fun img h => by cases h⟩

/-- The loop whatever the kernel answers, once the size is known. -/
theorem run_any {n : Node} {size : Nat} (hn : Settled n size) : ∀ (ts : List Turn) (off : Nat) (buf out img : Bytes),
    off + buf.length ≤ size → run ts { node := n, off := off, buf := buf } out = .done img →
    ∃ rest, img = out ++ rest ∧ off + buf.length + rest.length = size ∧ Assembled ts (off + buf.length) rest := by
  intro ts
  induction ts with
  | nil => intro off buf out img _ h; simp [run] at h
  | cons t ts ih =>
    intro off buf out img hle h
    simp only [run, turn_of (hn t) hn] at h
    generalize off + buf.length = o at *
    by_cases hge : o ≥ size
    · rw [if_pos hge] at h
      injection h with h
      exact ⟨[], by rw [List.append_nil, h], by rw [List.length_nil]; omega, .nil _ _⟩
    · rw [if_neg hge] at h
      unfold payloadData at h
      rw [if_neg hge] at h
      have hw := want_le t (size - o)
      generalize want t (size - o) = k at *
      match hb : t.payload o k with
      | .fail e => rw [hb] at h; cases h
      | .data b =>
        rw [hb] at h
        simp only at h
        by_cases hlen : b.length = k
        · rw [if_neg (fun h => h hlen)] at h
          obtain ⟨rest, e1, e2, e3⟩ := ih o b (out ++ b) img (by omega) h
          refine ⟨b ++ rest, by rw [e1, List.append_assoc], by rw [List.length_append]; omega, ?_⟩
          refine .cons t ts o b rest ?_ e3
          rw [hlen]; exact hb
        · rw [if_pos hlen] at h; cases h

theorem readDeviceSize_ub (t : Turn) : (readDeviceSize t).1 ≠ .ub := by
  unfold readDeviceSize
  match t.blkSize with
  | .error e => simp
  | .ok u =>
    simp only
    match hs : t.super with
    | .fail e => simp [readSize]
    | .data b =>
      have e : readSize (.data b) = if b.length ≠ superSize then .ok none
        else if field b 0 4 = 0x73717368 then .ok (some (alignTo (field b 40 8) 4096)) else .ok (readAndroid b) := rfl
      rw [e]
      by_cases h1 : b.length ≠ superSize
      · rw [if_pos h1]; simp
      · rw [if_neg h1]
        by_cases h2 : field b 0 4 = 0x73717368
        · rw [if_pos h2]
          simp only
          split <;> simp
        · rw [if_neg h2]
          match readAndroid b with
          | none => simp
          | some f => simp only; split <;> simp

/-- A size that is delivered stays, and is no more than the device has. -/
theorem payloadSize_ok {t : Turn} {n n' : Node} {size : Nat} (h : payloadSize t n = (.ok size, n')) : Settled n' size := by
  match n with
  | .reg k => injection h with h1 h2; injection h1 with h1; subst h1; subst h2; exact settled_reg _
  | .blk (some d) => injection h with h1 h2; injection h1 with h1; subst h1; subst h2; exact settled_blk _
  | .blk none =>
    have h' : ((readDeviceSize t).1, Node.blk (readDeviceSize t).2) = (.ok size, n') := h
    injection h' with h1 h2
    have : (readDeviceSize t).2 = some size := by
      unfold readDeviceSize at h1 ⊢
      match hb : t.blkSize with
      | .error e => rw [hb] at h1; cases h1
      | .ok u =>
        rw [hb] at h1
        simp only at h1 ⊢
        match hs : readSize t.super with
        | .err e => rw [hs] at h1; cases h1
        | .ub => rw [hs] at h1; cases h1
        | .ok none => rw [hs] at h1; injection h1 with h1; rw [← h1]
        | .ok (some f) =>
          rw [hs] at h1
          simp only at h1 ⊢
          split at h1
          · rename_i hc; injection h1 with h1; rw [if_pos hc, h1]
          · rename_i hc; injection h1 with h1; rw [if_neg hc, h1]
    rw [this] at h2
    subst h2
    exact settled_blk _

theorem readDeviceSize_le {t : Turn} {size : Nat} (h : (readDeviceSize t).1 = .ok size) :
    ∃ u, t.blkSize = .ok u ∧ size ≤ u * 512 := by
  unfold readDeviceSize at h
  match hb : t.blkSize with
  | .error e => rw [hb] at h; cases h
  | .ok u =>
    rw [hb] at h
    simp only at h
    refine ⟨u, rfl, ?_⟩
    have hmod := Nat.mod_le (u * 512) (2 ^ 64)
    match hs : readSize t.super with
    | .err e => rw [hs] at h; cases h
    | .ub => rw [hs] at h; cases h
    | .ok none => rw [hs] at h; injection h with h; omega
    | .ok (some f) =>
      rw [hs] at h
      simp only at h
      split at h
      · injection h with h; omega
      · injection h with h; omega

theorem payloadSize_ub (t : Turn) (n : Node) : (payloadSize t n).1 ≠ .ub := by
  match n with
  | .reg k => simp [payloadSize]
  | .blk (some d) => simp [payloadSize]
  | .blk none => exact readDeviceSize_ub t

theorem run_crash : ∀ (ts : List Turn) (s : Enc) (out : Bytes), run ts s out ≠ .crash := by
  intro ts
  induction ts with
  | nil => intro s out h; simp [run] at h
  | cons t ts ih =>
    intro ⟨n, off, buf⟩ out h
    match hp : payloadSize t n with
    | (.err e, n') => simp [run, turn, hp] at h
    | (.ub, n') => exact payloadSize_ub t n (by rw [hp])
    | (.ok size, n') =>
      simp only [run, turn_of hp (payloadSize_ok hp)] at h
      generalize off + buf.length = o at *
      by_cases hge : o ≥ size
      · rw [if_pos hge] at h; cases h
      · rw [if_neg hge] at h
        unfold payloadData at h
        rw [if_neg hge] at h
        match hb : t.payload o (want t (size - o)) with
        | .fail e => rw [hb] at h; cases h
        | .data b =>
          rw [hb] at h
          simp only at h
          by_cases hlen : b.length = want t (size - o)
          · rw [if_neg (fun h => h hlen)] at h; exact ih _ _ h
          · rw [if_pos hlen] at h; cases h

end Casync.Raw
