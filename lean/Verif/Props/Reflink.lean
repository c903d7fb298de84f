import Verif.Spec.Reflink
/-!
C55: reflinks do not change what was extracted.
-/
namespace Casync.Reflink
open Casync Location ReflinkSpec

theorem pwrite_same {b p : Bytes} {off : Nat} (h : p = pread b off p.length) : Holes.pwrite b off p = b := by
  unfold Holes.pwrite
  by_cases hp : p = []
  · rw [if_pos hp]
  rw [if_neg hp]
  have hpos : 0 < p.length := List.length_pos_iff.2 hp
  have hlen : p.length ≤ b.length - off := by
    have := congrArg List.length h
    unfold pread at this
    rw [List.length_take, List.length_drop] at this
    omega
  rw [show off - b.length = 0 by omega, List.replicate_zero, List.append_nil, ← List.drop_drop]
  have h2 : p ++ (b.drop off).drop p.length = b.drop off := by
    have := List.take_append_drop p.length (b.drop off)
    unfold pread at h
    rw [← h] at this
    exact this
  rw [List.append_assoc, h2, List.take_append_drop]

theorem validate_ok {can : Bool} {src dst : Bytes} {so dO n : Nat} (h : validate can src so dst dO n = true) :
    so + n ≤ src.length ∨ n = 0 := by
  unfold validate at h
  simp only [Bool.and_eq_true, beq_iff_eq] at h
  have := h.1.1.2
  unfold pread at this
  rw [List.length_take, List.length_drop] at this
  omega

theorem validate_dst {can : Bool} {src dst : Bytes} {so dO n : Nat} (h : validate can src so dst dO n = true) :
    (dO + n ≤ dst.length ∨ n = 0) ∧ pread src so n = pread dst dO n := by
  unfold validate at h
  simp only [Bool.and_eq_true, beq_iff_eq] at h
  have := h.1.2
  unfold pread at this
  rw [List.length_take, List.length_drop] at this
  exact ⟨by omega, h.2⟩

theorem pread_prefix {b : Bytes} {off n : Nat} {p : Bytes} (h : p <+: pread b off n) : p = pread b off p.length := by
  have := List.prefix_iff_eq_take.1 h
  unfold pread at *
  have hl : p.length ≤ n := by
    have := h.length_le
    rw [List.length_take] at this
    omega
  rw [List.take_take, Nat.min_eq_left hl] at this
  exact this

/-- `reflink_fd()` leaves the file as it is, and what it reports lies in the file. -/
theorem reflink_keeps (src : File) (so : Nat) (dst : File) (dO size : Nat) (v : Env) :
    (reflink src so dst dO size v).1 = dst ∧ ∀ n, (reflink src so dst dO size v).2 = .ok n → n ≤ size ∧ n + dO ≤ max dst.bytes.length dO := by
  unfold reflink
  by_cases e1 : so % block ≠ dO % block
  · rw [if_pos e1]; exact ⟨rfl, by intro n h; cases h⟩
  rw [if_neg e1]
  by_cases e2 : (so + size) % 2 ^ 64 < so
  · rw [if_pos e2]; exact ⟨rfl, by intro n h; cases h⟩
  rw [if_neg e2]
  by_cases e3 : (dO + size) % 2 ^ 64 < dO
  · rw [if_pos e3]; exact ⟨rfl, by intro n h; cases h⟩
  rw [if_neg e3]
  by_cases e4 : so % block > 0 ∧ block - so % block ≥ size
  · rw [if_pos e4]; exact ⟨rfl, by intro n h; cases h⟩
  rw [if_neg e4]
  generalize (if so % block > 0 then block - so % block else 0) = add
  simp only
  cases v.stat with
  | some e => exact ⟨rfl, by intro n h; cases h⟩
  | none =>
  simp only
  split
  · exact ⟨rfl, by intro n h; cases h⟩
  split
  · exact ⟨rfl, by intro n h; cases h⟩
  generalize hat : (decide (so + add + (size - add) ≥ src.bytes.length) && decide (dO + add + (size - add) ≥ dst.bytes.length)) = atEnd
  have hle : (if atEnd then size - add else (size - add) / block * block) ≤ size - add := by
    split
    · exact Nat.le_refl _
    · exact Nat.div_mul_le_self _ _
  by_cases h1 : atEnd = false ∧ (size - add) / block * block = 0
  · rw [if_pos h1]; exact ⟨rfl, by intro n h; cases h⟩
  rw [if_neg h1]
  cases h2 : validate v.before src.bytes (so + add) dst.bytes (dO + add) (if atEnd then size - add else (size - add) / block * block) with
  | false => exact ⟨rfl, by intro n h; cases h⟩
  | true =>
  simp only [Bool.not_true, Bool.false_eq_true, if_false]
  obtain ⟨hd, heq⟩ := validate_dst h2
  have hcl : cloned src.bytes (so + add) (if atEnd then 0 else (size - add) / block * block) =
      pread dst.bytes (dO + add) (if atEnd then size - add else (size - add) / block * block) := by
    rw [← heq]
    unfold cloned
    by_cases hat' : atEnd = true
    · rw [if_pos hat', if_pos hat', if_pos rfl]
      rw [← hat, Bool.and_eq_true, decide_eq_true_eq, decide_eq_true_eq] at hat'
      unfold pread
      rw [List.take_of_length_le (by rw [List.length_drop]; omega)]
    · rw [if_neg hat', if_neg hat', if_neg (fun h => h1 ⟨by simpa using hat', h⟩)]
  rw [hcl]
  generalize hR : (if atEnd then size - add else (size - add) / block * block) = R at *
  have hw : ∀ p, p <+: pread dst.bytes (dO + add) R → Holes.pwrite dst.bytes (dO + add) p = dst.bytes := fun p hp => pwrite_same (pread_prefix hp)
  cases v.clone with
  | failed e k =>
    simp only
    rw [hw _ (List.take_prefix ..)]
    exact ⟨rfl, by intro n h; cases h⟩
  | done =>
    simp only
    rw [hw _ (List.prefix_refl _)]
    split
    · exact ⟨rfl, by intro n h; cases h⟩
    · refine ⟨rfl, ?_⟩
      intro n h
      injection h with h
      subst h
      omega

theorem loop_keeps : ∀ (o : List (Location × Place × Env)) (off n : Nat) (dst : File),
    (reflinkLoop o off n dst).1 = dst ∧ ∀ k, (reflinkLoop o off n dst).2 = .ok k → k ≤ n + (dst.bytes.length - off)
  | [], off, n, dst => by
    refine ⟨rfl, ?_⟩
    intro k h
    injection h with h
    omega
  | (l, p, v) :: r, off, n, dst => by
    rw [reflinkLoop]
    have hnext : ∀ m, m ≤ n + (min l.size (dst.bytes.length - off)) →
        (reflinkLoop r (off + l.size) m dst).1 = dst ∧ ∀ k, (reflinkLoop r (off + l.size) m dst).2 = .ok k → k ≤ n + (dst.bytes.length - off) := by
      intro m hm
      obtain ⟨a, b⟩ := loop_keeps r (off + l.size) m dst
      refine ⟨a, ?_⟩
      intro k hk
      have := b k hk
      omega
    split
    · exact hnext n (by omega)
    split
    · exact hnext n (by omega)
    · exact ⟨rfl, by intro n h; cases h⟩
    · exact ⟨rfl, by intro n h; cases h⟩
    · rename_i src _
      obtain ⟨h1, h2⟩ := reflink_keeps src l.offset dst off l.size v
      generalize reflink src l.offset dst off l.size v = q at *
      obtain ⟨d', q⟩ := q
      simp only at h1 h2
      subst h1
      cases q with
      | ok k =>
        have := h2 k rfl
        exact hnext _ (by omega)
      | ub => exact ⟨rfl, by intro n h; cases h⟩
      | err e =>
        simp only
        split
        · exact hnext n (by omega)
        split
        · refine ⟨rfl, ?_⟩
          intro k h
          injection h with h
          omega
        · exact ⟨rfl, by intro n h; cases h⟩

/-- C55: whatever has become of the places the content of an extracted file came from, and whatever the kernel answers: reflinking leaves the
file as it was extracted; this also holds if it fails or if an assertion stops the program.  The bytes reported as cloned are bytes of the file. -/
theorem C55_content_kept (enabled : Bool) (origin : List (Location × Place × Env)) (extracted : File) :
    (nodeReflink enabled origin extracted).1 = extracted ∧
    ∀ n, (nodeReflink enabled origin extracted).2 = .ok n → n ≤ extracted.bytes.length := by
  unfold nodeReflink
  split
  · exact ⟨rfl, by intro n h; injection h with h; omega⟩
  · obtain ⟨a, b⟩ := loop_keeps origin 0 0 extracted
    refine ⟨a, ?_⟩
    intro n h
    have := b n h
    omega

theorem locationOpen_same {l : Location} {p : Place} {f : File} (hd : l.designator = payload) (hr : l.root ≠ none) (hi : p.invalidated = false) (hf : p.found = .ok f)
    (hs : SameIdentity l f) : locationOpen l p = .ok f := by
  unfold locationOpen
  rw [if_neg (by rw [hd]; decide), if_neg hr, hi, hf]
  simp only [Bool.false_eq_true, if_false]
  by_cases hm : l.mtime = u64max
  · rw [if_neg (by simpa using hm)]
  rw [if_pos hm]
  rcases hs with h | ⟨h1, h2, h3⟩
  · exact absurd h hm
  rw [if_neg (by simpa using h1), if_neg (by simpa using h2.symm), if_neg]
  rintro ⟨a, b⟩
  rcases h3 with h3 | h3
  · exact a h3
  · exact b h3

theorem locationOpen_gone {l : Location} {p : Place} (hd : l.designator = payload) (hr : l.root ≠ none) (hi : p.invalidated = false) (hf : p.found = .err .ENOENT) :
    locationOpen l p = .err .ENOENT := by
  unfold locationOpen
  rw [if_neg (by rw [hd]; decide), if_neg hr, hi, hf]
  rfl

theorem pread_sub {a b : Bytes} {x y n i m : Nat} (h : (a.drop x).take n = (b.drop y).take n) (hm : i + m ≤ n) : pread a (x + i) m = pread b (y + i) m := by
  have : (((a.drop x).take n).drop i).take m = (((b.drop y).take n).drop i).take m := by rw [h]
  rw [List.drop_take, List.drop_take, List.take_take, List.take_take, List.drop_drop, List.drop_drop, Nat.min_eq_left (by omega)] at this
  exact this

theorem pread_length {a : Bytes} {x n : Nat} (h : x + n ≤ a.length) : (pread a x n).length = n := by
  unfold pread
  rw [List.length_take, List.length_drop]
  omega

/-- With unchanged content nothing stops `reflink_fd()` but the cloning. -/
theorem reflink_reliable {src dst : File} {l : Location} {off : Nat} {v : Env} (hk : dst.kind = .reg) (hlen : dst.bytes.length < 2 ^ 63) (hoff : off + l.size ≤ dst.bytes.length)
    (hc : SameContent l src dst.bytes off) (h1 : v.stat = none) (h2 : v.before = true) (h3 : v.after = true) :
    (∃ n, (reflink src l.offset dst off l.size v).2 = .ok n) ∨ (reflink src l.offset dst off l.size v).2 = .err .EBADR ∨
    ∃ e k, v.clone = .failed e k ∧ (reflink src l.offset dst off l.size v).2 = .err e := by
  obtain ⟨c1, c2, c3, c4⟩ := hc
  have hkeep := (reflink_keeps src l.offset dst off l.size v).1
  revert hkeep
  unfold reflink
  rw [h1]
  by_cases e1 : l.offset % block ≠ off % block
  · rw [if_pos e1]; exact fun _ => .inr (.inl rfl)
  rw [if_neg e1, if_neg (by rw [Nat.mod_eq_of_lt (by omega)]; omega), if_neg (by rw [Nat.mod_eq_of_lt (by omega)]; omega)]
  by_cases e2 : l.offset % block > 0 ∧ block - l.offset % block ≥ l.size
  · rw [if_pos e2]; exact fun _ => .inr (.inl rfl)
  rw [if_neg e2]
  have hadd : (if l.offset % block > 0 then block - l.offset % block else 0) ≤ l.size := by
    split
    · omega
    · omega
  generalize (if l.offset % block > 0 then block - l.offset % block else 0) = add at *
  simp only
  rw [c1, hk]
  simp only [reduceCtorEq, or_self, if_false, ne_eq, not_true_eq_false]
  generalize hat : (decide (l.offset + add + (l.size - add) ≥ src.bytes.length) && decide (off + add + (l.size - add) ≥ dst.bytes.length)) = atEnd
  have hle : (if atEnd then l.size - add else (l.size - add) / block * block) ≤ l.size - add := by
    split
    · exact Nat.le_refl _
    · exact Nat.div_mul_le_self _ _
  by_cases e3 : atEnd = false ∧ (l.size - add) / block * block = 0
  · rw [if_pos e3]; exact fun _ => .inr (.inl rfl)
  rw [if_neg e3]
  generalize (if atEnd then l.size - add else (l.size - add) / block * block) = R at *
  have hv : validate true src.bytes (l.offset + add) dst.bytes (off + add) R = true := by
    unfold validate
    rw [pread_length (by omega), pread_length (by omega), pread_sub c4 (by omega)]
    simp
  rw [h2, h3, hv]
  simp only [Bool.not_true, Bool.false_eq_true, if_false]
  generalize cloned src.bytes (l.offset + add) (if atEnd = true then 0 else (l.size - add) / block * block) = C
  cases hcl : v.clone with
  | failed e k => exact fun _ => .inr (.inr ⟨e, k, rfl, rfl⟩)
  | done =>
    intro hkeep
    left
    simp only at hkeep ⊢
    split at hkeep
    · rename_i hbad
      exfalso
      have hb : (Holes.pwrite dst.bytes (off + add) C) = dst.bytes :=
        congrArg File.bytes hkeep
      rw [hb, hv] at hbad
      cases hbad
    · rename_i hgood
      rw [if_neg hgood]
      exact ⟨R, rfl⟩

theorem loop_reliable {dst : File} (hk : dst.kind = .reg) (hlen : dst.bytes.length < 2 ^ 63) : ∀ (o : List (Location × Place × Env)) (off n : Nat),
    off + (o.map fun x => x.1.size).sum ≤ dst.bytes.length → (∀ x ∈ placed off o, Unchanged dst.bytes x) →
    (∃ m, (reflinkLoop o off n dst).2 = .ok m) ∨ ∃ x ∈ o, ∃ e k, x.2.2.clone = .failed e k ∧ (reflinkLoop o off n dst).2 = .err e
  | [], _, n, _, _ => .inl ⟨n, rfl⟩
  | (l, p, v) :: r, off, n, hsum, hun => by
    rw [List.map_cons, List.sum_cons] at hsum
    simp only at hsum
    have hnext : ∀ m, (∃ m', (reflinkLoop r (off + l.size) m dst).2 = .ok m') ∨ ∃ x ∈ (l, p, v) :: r, ∃ e k, x.2.2.clone = .failed e k ∧ (reflinkLoop r (off + l.size) m dst).2 = .err e := by
      intro m
      rcases loop_reliable hk hlen r (off + l.size) m (by omega) (fun x hx => hun x (by rw [placed]; exact List.mem_cons_of_mem _ hx)) with h | ⟨x, h1, h2⟩
      · exact .inl h
      · exact .inr ⟨x, List.mem_cons_of_mem _ h1, h2⟩
    rw [reflinkLoop]
    by_cases hd : l.designator ≠ payload
    · rw [if_pos hd]; exact hnext n
    rw [if_neg hd]
    have hd : l.designator = payload := Decidable.not_not.1 hd
    obtain ⟨h1, h2, h3, h4, h5, h6⟩ := hun (off, l, p, v) (by rw [placed]; exact List.mem_cons_self ..) hd
    rcases h6 with h6 | ⟨f, h6, h7, h8⟩
    · rw [locationOpen_gone hd h4 h5 h6]
      exact hnext n
    rw [locationOpen_same hd h4 h5 h6 h7]
    simp only
    have hkeep := (reflink_keeps f l.offset dst off l.size v).1
    have hrel := reflink_reliable hk hlen (by omega) h8 h1 h2 h3
    generalize reflink f l.offset dst off l.size v = q at *
    obtain ⟨d', q⟩ := q
    simp only at hkeep hrel
    subst hkeep
    rcases hrel with ⟨m, h⟩ | h | ⟨e, k, h, h'⟩
    · subst h; exact hnext _
    · subst h; exact hnext n
    · subst h'
      simp only
      by_cases e1 : e = .EBADR ∨ e = .EXDEV
      · rw [if_pos e1]; exact hnext n
      rw [if_neg e1]
      by_cases e2 : unsupported e = true
      · rw [if_pos e2]; exact .inl ⟨n, rfl⟩
      rw [if_neg e2]
      exact .inr ⟨(l, p, v), List.mem_cons_self .., e, k, h, rfl⟩

/-- C55: as long as the files that the content came from are unchanged or gone, reflinking does not make an extraction fail, unless the kernel
refuses to clone with an error that does not mean "not supported here". -/
theorem C55_unchanged_seeds_partial (enabled : Bool) (origin : List (Location × Place × Env)) (extracted : File) (hk : extracted.kind = .reg) (hlen : extracted.bytes.length < 2 ^ 63)
    (hsize : (origin.map fun x => x.1.size).sum = extracted.bytes.length) (hun : ∀ x ∈ placed 0 origin, Unchanged extracted.bytes x) :
    (∃ n, (nodeReflink enabled origin extracted).2 = .ok n) ∨
    ∃ x ∈ origin, ∃ e k, x.2.2.clone = .failed e k ∧ (nodeReflink enabled origin extracted).2 = .err e := by
  unfold nodeReflink
  split
  · exact .inl ⟨0, rfl⟩
  · exact loop_reliable hk hlen origin 0 0 (by omega) hun

/-- C55: a file that is the whole of one unchanged file of a seed is shared with it completely. -/
theorem C55_whole_file (l : Location) (p : Place) (v : Env) (f extracted : File) (hl : l.designator = payload) (hr : l.root ≠ none) (hp : p = ⟨false, .ok f⟩) (hid : SameIdentity l f)
    (h0 : l.offset = 0) (hsz : l.size = f.bytes.length) (hk : f.kind = .reg) (hk' : extracted.kind = .reg) (hb : extracted.bytes = f.bytes) (hlen : f.bytes.length < 2 ^ 63)
    (h1 : v.stat = none) (h2 : v.before = true) (h3 : v.after = true) (h4 : v.clone = .done) :
    nodeReflink true [(l, p, v)] extracted = (extracted, .ok extracted.bytes.length) := by
  have hkeep := (C55_content_kept true [(l, p, v)] extracted).1
  have hres : (nodeReflink true [(l, p, v)] extracted).2 = .ok extracted.bytes.length := by
    unfold nodeReflink
    simp only [Bool.not_true, Bool.false_eq_true, if_false]
    rw [reflinkLoop, if_neg (by simpa using hl), locationOpen_same hl hr (by rw [hp]) (by rw [hp]) hid]
    simp only
    have hb2 : Holes.pwrite f.bytes 0 (f.bytes.drop 0) = f.bytes := by
      refine pwrite_same ?_
      unfold pread
      rw [List.drop_zero, List.take_of_length_le (Nat.le_refl _)]
    have : (reflink f l.offset extracted 0 l.size v).2 = .ok extracted.bytes.length := by
      unfold reflink
      rw [h0, hsz, h1, hk, hk', h2, h3, h4, hb]
      rw [if_neg (by simp), if_neg (by omega), if_neg (by omega), if_neg (by simp)]
      simp only [Nat.zero_mod, Nat.lt_irrefl, gt_iff_lt, if_false, Nat.add_zero, Nat.sub_zero, Nat.zero_add, ge_iff_le, Nat.le_refl, decide_true, Bool.and_self, if_true, reduceCtorEq, or_self, ne_eq, not_true_eq_false, false_and]
      have hv : validate true f.bytes 0 f.bytes 0 f.bytes.length = true := by
        unfold validate
        rw [pread_length (by omega)]
        simp
      unfold cloned
      rw [if_pos rfl, hb2, hv]
      rfl
    generalize reflink f l.offset extracted 0 l.size v = q at *
    obtain ⟨d', q⟩ := q
    simp only at this
    subst this
    simp only
    rw [reflinkLoop]
    simp
  exact Prod.ext hkeep hres

/-! ### Changed seeds -/

/-- A location in a file of a seed, as the encoder reports it: with the time and inode number of the file. -/
def exLocation : Location := { path := [97], designator := payload, offset := 0, size := 3, root := some 0, mtime := 5, inode := 7 }

/-- The file it was in. -/
def exSource : File := { kind := .reg, bytes := [1, 2, 3], inode := 7, mtime := 5 }

/-- The extracted file. -/
def exFile : File := { kind := .reg, bytes := [1, 2, 3] }

/-- C55, against the full statement: if a file of a seed is written to after its content has been used, the extraction of a file that is
already complete fails. -/
theorem C55_stale_seed_violated :
    nodeReflink true [(exLocation, ⟨false, .ok { exSource with bytes := [1, 2, 3, 4], mtime := 6 }⟩, {})] exFile = (exFile, .err .ESTALE) ∧
    nodeReflink false [(exLocation, ⟨false, .ok { exSource with bytes := [1, 2, 3, 4], mtime := 6 }⟩, {})] exFile = (exFile, .ok 0) := by
  decide +kernel

/-- C55, against the full statement: if the content of the file has changed and its time has not (or is not known), or the extracted file cannot
be read back, an assertion stops the program. -/
theorem C55_changed_seed_violated :
    nodeReflink true [(exLocation, ⟨false, .ok { exSource with bytes := [1, 2, 4] }⟩, {})] exFile = (exFile, .ub) ∧
    nodeReflink true [(exLocation, ⟨false, .ok exSource⟩, { before := false })] exFile = (exFile, .ub) := by
  decide +kernel

/-- The hypotheses of `C55_unchanged_seeds_partial` and `C55_whole_file` can be met, also with places that are not payload or gone. -/
example : Unchanged exFile.bytes (0, exLocation, ⟨false, .ok exSource⟩, {}) ∧
    nodeReflink true [(exLocation, ⟨false, .ok exSource⟩, {})] exFile = (exFile, .ok 3) :=
  ⟨fun _ => ⟨rfl, rfl, rfl, by decide, rfl, .inr ⟨exSource, rfl, .inr ⟨rfl, rfl, .inl rfl⟩, rfl, by decide, by decide, rfl⟩⟩, by decide +kernel⟩

example : ∀ x ∈ placed 0 [({ designator := void, size := 1 }, ⟨false, .err .EIO⟩, {}), ({ exLocation with size := 2 }, ⟨false, .err .ENOENT⟩, {})],
    Unchanged exFile.bytes x := by
  intro x hx
  simp only [placed, List.mem_cons, List.not_mem_nil, or_false] at hx
  rcases hx with rfl | rfl
  · intro h
    cases h
  · exact fun _ => ⟨rfl, rfl, rfl, by decide, rfl, .inl rfl⟩

/-- A refusal of the kernel that is passed on. -/
example : nodeReflink true [(exLocation, ⟨false, .ok exSource⟩, { clone := .failed .EIO 1 })] exFile = (exFile, .err .EIO) := by decide +kernel

end Casync.Reflink
