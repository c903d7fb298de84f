import Verif.Lemmas.Restore
/-!
What the encoder has stored of an object holds all of its metadata that the flags name.
-/
namespace Casync.Meta
open Casync Flags Archive

/-- The decoder's settings that belong to the encoder's. -/
def rcfg (c : Cfg) : RCfg := { replay := c.ff, shift := c.shift, range := c.range }

theorem uidToName_inv {c : Cfg} {db : Names} (hi : Inverse db) {u : Nat} {n : Bytes}
    (hk : has c.ff withIds = false → u ≠ 0 → (db.user u).isSome = true) (h : uidToName c db u = .ok (some n)) : db.uid n = some u := by
  unfold uidToName at h
  split at h
  · cases h
  split at h
  · injection h with h; cases h
  · rename_i h0
    rcases nameOf_ok h with ⟨n', h1, h2⟩ | ⟨_, _, h3⟩ | ⟨h1, h2⟩
    · injection h2 with h2; subst h2; exact hi.user u _ h1
    · cases h3
    · have := hk h2 h0; rw [h1] at this; cases this

theorem gidToName_inv {c : Cfg} {db : Names} (hi : Inverse db) {u : Nat} {n : Bytes}
    (hk : has c.ff withIds = false → u ≠ 0 → (db.group u).isSome = true) (h : gidToName c db u = .ok (some n)) : db.gid n = some u := by
  unfold gidToName at h
  split at h
  · injection h with h; cases h
  · rename_i h0
    rcases nameOf_ok h with ⟨n', h1, h2⟩ | ⟨_, _, h3⟩ | ⟨h1, h2⟩
    · injection h2 with h2; subst h2; exact hi.group u _ h1
    · cases h3
    · have := hk h2 h0; rw [h1] at this; cases this

theorem uidToName_none {c : Cfg} {db : Names} {u : Nat} (hi : has c.ff withIds = false)
    (hk : u ≠ 0 → (db.user u).isSome = true) (h : uidToName c db u = .ok none) : u = 0 := by
  by_cases h0 : u = 0
  · exact h0
  unfold uidToName at h
  split at h
  · cases h
  rcases nameOf_ok h with ⟨n', h1, h2⟩ | ⟨_, h2, _⟩ | ⟨h1, h2⟩
  · cases h2
  · rw [hi] at h2; cases h2
  · have := hk h0; rw [h1] at this; cases this

theorem gidToName_none {c : Cfg} {db : Names} {u : Nat} (hi : has c.ff withIds = false)
    (hk : u ≠ 0 → (db.group u).isSome = true) (h : gidToName c db u = .ok none) : u = 0 := by
  by_cases h0 : u = 0
  · exact h0
  unfold gidToName at h
  rw [if_neg h0] at h
  rcases nameOf_ok h with ⟨n', h1, h2⟩ | ⟨_, h2, _⟩ | ⟨h1, h2⟩
  · cases h2
  · rw [hi] at h2; cases h2
  · have := hk h0; rw [h1] at this; cases this

/-- An ACL record stands for the id it was made of. -/
theorem aclEnt_val {c : Cfg} {f : Nat → Res (Option Bytes)} {look : Bytes → Option Nat} {q p : Nat} {x : AclEnt} (hq : q < 2 ^ 32)
    (hr : InRange c.shift c.range q) (hsome : ∀ n, f q = .ok (some n) → look n = some q)
    (hnone : has c.ff withIds = false → f q = .ok none → q = 0) (hor : has c.ff withIds = false → has c.ff withUserNames = true)
    (h : aclEnt c f q p = .ok x) : (idVal (rcfg c) look x.name x.id, x.perm) = (q, p) := by
  obtain ⟨_, h2, _, h4, h5, h6, h7⟩ := aclEnt_ok h
  have : idVal (rcfg c) look x.name x.id = q := by
    refine idVal_stored hq (fun n hn => ?_) (fun hn => ?_) (fun _ => .inl h2) (fun _ => hr)
    · cases hu : has c.ff withUserNames with
      | true => exact hsome n (by rw [h6 hu, hn])
      | false => rw [h7 hu] at hn; cases hn
    · cases hi : has c.ff withIds with
      | true => rw [h5, hi]; exact .inl rfl
      | false =>
        have hz := hnone hi (by rw [h6 (hor hi), hn])
        rw [h5, hi]
        exact .inr ⟨rfl, hz, by have := hr.1; omega⟩
  rw [this, h4]

theorem Ents.val {c : Cfg} {f : Nat → Res (Option Bytes)} {look : Bytes → Option Nat} {l : List (Nat × Nat)} {out : List AclEnt} (h : Ents c f l out)
    (hv : ∀ x ∈ l, ∀ y, aclEnt c f x.1 x.2 = .ok y → (idVal (rcfg c) look y.name y.id, y.perm) = (x.1, x.2)) :
    out.map (fun y => (idVal (rcfg c) look y.name y.id, y.perm)) = l := by
  induction h with
  | nil => rfl
  | cons h1 _ ih =>
    rw [List.map_cons, ih (fun x hx => hv x (List.mem_cons_of_mem _ hx)), hv _ List.mem_cons_self _ h1]

theorem Ents.val_sorted {c : Cfg} {f : Nat → Res (Option Bytes)} {look : Bytes → Option Nat} {l : List (Nat × Nat)} {out : List AclEnt} (h : Ents c f l out)
    (hv : ∀ x ∈ l, ∀ y, aclEnt c f x.1 x.2 = .ok y → (idVal (rcfg c) look y.name y.id, y.perm) = (x.1, x.2)) :
    l.Perm ((sortAcl out).map (fun y => (idVal (rcfg c) look y.name y.id, y.perm))) := by
  rw [← h.val hv]
  have := ((sortAcl_perm out).symm).map (fun y => (idVal (rcfg c) look y.name y.id, y.perm))
  rw [h.val hv] at this ⊢
  exact this

/-! ### The flags -/

theorem fixupMode_same {c : Cfg} {m : Meta} (h : has c.ff (withPermissions ||| withAcl) = true) (hl : isType m.mode ifLnk = false) :
    fixupMode c m &&& 0xfff#64 = m.mode &&& 0xfff#64 := by
  unfold fixupMode
  rw [if_neg (by rw [hl]; simp), if_pos h]
  exact and_and_sub _ _ _ (by decide)

theorem fixupMode_link {c : Cfg} {m : Meta} (hl : isType m.mode ifLnk = true) : fixupMode c m &&& 0xfff#64 = 0x1ff#64 := by
  unfold fixupMode
  rw [if_pos hl]
  decide

/-- The bits of the entry flags. -/
theorem entryFlags_chattr {c : Cfg} {m : Meta} (ho : isType m.mode ifDir = true ∨ isType m.mode ifReg = true) (i : Nat) (hi : withChattr.getLsbD i = true) :
    (entryFlags c m).getLsbD i = ((fromMap chattrMap m.chattr).getLsbD i && c.ff.getLsbD i) := by
  have hf : (fromMap fatMap m.fat).getLsbD i = false := by
    rw [Bool.eq_false_iff]; intro q; have q := fat_sub _ _ q
    have : (withChattr &&& withFatAttrs).getLsbD i = true := by rw [BitVec.getLsbD_and, hi, q]; rfl
    rw [show withChattr &&& withFatAttrs = 0#64 by decide] at this; simp at this
  have hs : ∀ w : Word, w &&& withChattr = 0#64 → w.getLsbD i = false := by
    intro w hw
    have := congrArg (fun v => v.getLsbD i) hw
    simp only [BitVec.getLsbD_and, hi, Bool.and_true, BitVec.getLsbD_zero] at this
    exact this
  have ho' : (isType m.mode ifDir || isType m.mode ifReg) = true := by rw [Bool.or_eq_true]; exact ho
  have hcf : has c.ff withChattr = false → c.ff.getLsbD i = false := by
    intro q
    unfold has at q
    exact hs c.ff (by simpa using q)
  unfold entryFlags
  simp only [ho', Bool.true_and]
  have hA : (if has c.ff withChattr = true then fromMap chattrMap m.chattr &&& c.ff else 0#64).getLsbD i = ((fromMap chattrMap m.chattr).getLsbD i && c.ff.getLsbD i) := by
    split
    · rw [BitVec.getLsbD_and]
    · rename_i q; rw [hcf (by simpa using q)]; simp
  generalize (if has c.ff withChattr = true then fromMap chattrMap m.chattr &&& c.ff else 0#64) = A at hA ⊢
  have hB : (if has c.ff withFatAttrs = true then A ||| (fromMap fatMap m.fat &&& c.ff) else A).getLsbD i = A.getLsbD i := by
    split
    · rw [BitVec.getLsbD_or, BitVec.getLsbD_and, hf]; simp
    · rfl
  generalize (if has c.ff withFatAttrs = true then A ||| (fromMap fatMap m.fat &&& c.ff) else A) = B at hB ⊢
  rw [← hA, ← hB]
  split
  · rw [BitVec.getLsbD_or, BitVec.getLsbD_and, BitVec.getLsbD_or]
    have h1 : (if m.subvol = true then withSubvolume else 0#64).getLsbD i = false := by
      split
      · exact hs _ (by decide)
      · simp
    have h2 : (if m.subvolRo = true then withSubvolumeRo else 0#64).getLsbD i = false := by
      split
      · exact hs _ (by decide)
      · simp
    rw [h1, h2]; simp
  · rfl

theorem entryFlags_fat {c : Cfg} {m : Meta} (ho : isType m.mode ifDir = true ∨ isType m.mode ifReg = true) (i : Nat) (hi : withFatAttrs.getLsbD i = true) :
    (entryFlags c m).getLsbD i = ((fromMap fatMap m.fat).getLsbD i && c.ff.getLsbD i) := by
  have hf : (fromMap chattrMap m.chattr).getLsbD i = false := by
    rw [Bool.eq_false_iff]; intro q; have q := chattr_sub _ _ q
    have : (withChattr &&& withFatAttrs).getLsbD i = true := by rw [BitVec.getLsbD_and, hi, q]; rfl
    rw [show withChattr &&& withFatAttrs = 0#64 by decide] at this; simp at this
  have hs : ∀ w : Word, w &&& withFatAttrs = 0#64 → w.getLsbD i = false := by
    intro w hw
    have := congrArg (fun v => v.getLsbD i) hw
    simp only [BitVec.getLsbD_and, hi, Bool.and_true, BitVec.getLsbD_zero] at this
    exact this
  have ho' : (isType m.mode ifDir || isType m.mode ifReg) = true := by rw [Bool.or_eq_true]; exact ho
  have hcf : has c.ff withFatAttrs = false → c.ff.getLsbD i = false := by
    intro q
    unfold has at q
    exact hs c.ff (by simpa using q)
  unfold entryFlags
  simp only [ho', Bool.true_and]
  have hA : (if has c.ff withChattr = true then fromMap chattrMap m.chattr &&& c.ff else 0#64).getLsbD i = false := by
    split
    · rw [BitVec.getLsbD_and, hf]; rfl
    · simp
  generalize (if has c.ff withChattr = true then fromMap chattrMap m.chattr &&& c.ff else 0#64) = A at hA ⊢
  have hB : (if has c.ff withFatAttrs = true then A ||| (fromMap fatMap m.fat &&& c.ff) else A).getLsbD i = ((fromMap fatMap m.fat).getLsbD i && c.ff.getLsbD i) := by
    split
    · rw [BitVec.getLsbD_or, BitVec.getLsbD_and, hA]; simp
    · rename_i q; rw [hA, hcf (by simpa using q)]; simp
  generalize (if has c.ff withFatAttrs = true then A ||| (fromMap fatMap m.fat &&& c.ff) else A) = B at hB ⊢
  rw [← hB]
  split
  · rw [BitVec.getLsbD_or, BitVec.getLsbD_and, BitVec.getLsbD_or]
    have h1 : (if m.subvol = true then withSubvolume else 0#64).getLsbD i = false := by
      split
      · exact hs _ (by decide)
      · simp
    have h2 : (if m.subvolRo = true then withSubvolumeRo else 0#64).getLsbD i = false := by
      split
      · exact hs _ (by decide)
      · simp
    rw [h1, h2]; simp
  · rfl

/-- A table of single bits: each feature flag and each chattr(1) flag has its own bit. -/
structure BitMap (map : List (Word × Word)) (all : Word) : Prop where
  bits : ∀ x ∈ map, ∃ i j, i < 64 ∧ j < 64 ∧ x.1 = BitVec.twoPow 64 i ∧ x.2 = BitVec.twoPow 64 j ∧ all.getLsbD i = true
  left : ∀ x ∈ map, ∀ y ∈ map, x.1 = y.1 → x = y
  right : ∀ x ∈ map, ∀ y ∈ map, x.2 = y.2 → x = y

theorem bitMap_of {map : List (Word × Word)} {all : Word} (idx : List (Nat × Nat))
    (h : map = idx.map (fun p => (BitVec.twoPow 64 p.1, BitVec.twoPow 64 p.2)))
    (hb : ∀ p ∈ idx, p.1 < 64 ∧ p.2 < 64 ∧ all.getLsbD p.1 = true)
    (hl : ∀ x ∈ map, ∀ y ∈ map, x.1 = y.1 → x = y) (hr : ∀ x ∈ map, ∀ y ∈ map, x.2 = y.2 → x = y) : BitMap map all := by
  refine ⟨fun x hx => ?_, hl, hr⟩
  rw [h] at hx
  obtain ⟨p, hp, rfl⟩ := List.mem_map.1 hx
  obtain ⟨a, b, d⟩ := hb p hp
  exact ⟨p.1, p.2, a, b, rfl, rfl, d⟩

theorem chattr_bitMap : BitMap chattrMap withChattr :=
  bitMap_of [(16, 5), (17, 7), (18, 2), (19, 23), (20, 6), (21, 16), (22, 4), (23, 3), (24, 10), (25, 29)] (by decide) (by decide) (by decide) (by decide)

theorem fat_bitMap : BitMap fatMap withFatAttrs := bitMap_of [(13, 1), (14, 2), (15, 5)] (by decide) (by decide) (by decide) (by decide)

/-- There and back: of the flags that are looked at, those that were set. -/
theorem toMap_back {map : List (Word × Word)} {all f w fl : Word} (hm : BitMap map all)
    (h : ∀ i, all.getLsbD i = true → fl.getLsbD i = ((fromMap map w).getLsbD i && f.getLsbD i)) :
    toMap map fl &&& toMap map f = w &&& toMap map f := by
  apply bv_ext
  intro j _
  rw [BitVec.getLsbD_and, BitVec.getLsbD_and]
  cases ht : (toMap map f).getLsbD j with
  | false => simp
  | true =>
    rw [Bool.and_true, Bool.and_true]
    rw [toMap_bits, List.any_eq_true] at ht
    obtain ⟨x, hx, q⟩ := ht
    rw [Bool.and_eq_true] at q
    obtain ⟨i, j', hi, hj, e1, e2, ha⟩ := hm.bits x hx
    have hjj : j' = j := by
      have q2 := q.2
      rw [e2, BitVec.getLsbD_twoPow] at q2
      simp at q2; exact q2.2
    subst hjj
    have hfi : f.getLsbD i = true := by rw [← has_bit f i hi, ← e1]; exact q.1
    have hfl : fl.getLsbD i = w.getLsbD j' := by
      rw [h i ha, hfi, Bool.and_true, fromMap_bits]
      rw [Bool.eq_iff_iff, List.any_eq_true]
      constructor
      · rintro ⟨y, hy, p⟩
        rw [Bool.and_eq_true] at p
        have : y = x := by
          obtain ⟨i2, j2, hi2, _, g1, _, _⟩ := hm.bits y hy
          have p2 := p.2
          rw [g1, BitVec.getLsbD_twoPow] at p2
          simp at p2
          exact hm.left y hy x hx (by rw [g1, e1, p2.2])
        subst this
        rw [← has_bit w j' hj, ← e2]; exact p.1
      · intro p
        refine ⟨x, hx, ?_⟩
        rw [e2, has_bit w j' hj, p, e1, BitVec.getLsbD_twoPow]
        simp [hi]
    rw [toMap_bits, Bool.eq_iff_iff, List.any_eq_true]
    constructor
    · rintro ⟨y, hy, p⟩
      rw [Bool.and_eq_true] at p
      have : y = x := by
        obtain ⟨i2, j2, _, hj2, _, g2, _⟩ := hm.bits y hy
        have p2 := p.2
        rw [g2, BitVec.getLsbD_twoPow] at p2
        simp at p2
        exact hm.right y hy x hx (by rw [g2, e2, p2.2])
      subst this
      rw [← hfl, ← has_bit fl i hi, ← e1]; exact p.1
    · intro p
      refine ⟨x, hx, ?_⟩
      rw [Bool.and_eq_true]
      exact ⟨by rw [e1, has_bit fl i hi, hfl, p], q.2⟩

theorem entryFlags_sub {c : Cfg} {m : Meta} (hd : isType m.mode ifDir = true) (hs : has c.ff withSubvolume = true) :
    has (entryFlags c m) withSubvolume = m.subvol ∧ (has c.ff withSubvolumeRo = true → has (entryFlags c m) withSubvolumeRo = m.subvolRo) := by
  rw [has_withSubvolume] at hs ⊢
  rw [has_withSubvolumeRo, has_withSubvolumeRo]
  have c26 : ∀ w, (fromMap chattrMap w).getLsbD 26 = false ∧ (fromMap chattrMap w).getLsbD 27 = false := by
    intro w
    constructor <;> rw [Bool.eq_false_iff] <;> intro q <;> have q := chattr_sub _ _ q <;> revert q <;> decide
  have f26 : ∀ w, (fromMap fatMap w).getLsbD 26 = false ∧ (fromMap fatMap w).getLsbD 27 = false := by
    intro w
    constructor <;> rw [Bool.eq_false_iff] <;> intro q <;> have q := fat_sub _ _ q <;> revert q <;> decide
  have hs' : has c.ff withSubvolume = true := by rw [has_withSubvolume]; exact hs
  have hz : ∀ i, i = 26 ∨ i = 27 → (if has c.ff withFatAttrs = true then (if has c.ff withChattr = true then fromMap chattrMap m.chattr &&& c.ff else 0#64) ||| (fromMap fatMap m.fat &&& c.ff)
      else (if has c.ff withChattr = true then fromMap chattrMap m.chattr &&& c.ff else 0#64)).getLsbD i = false := by
    intro i hi
    have hA : (if has c.ff withChattr = true then fromMap chattrMap m.chattr &&& c.ff else 0#64).getLsbD i = false := by
      split
      · rw [BitVec.getLsbD_and]
        rcases hi with rfl | rfl
        · rw [(c26 _).1]; rfl
        · rw [(c26 _).2]; rfl
      · simp
    split
    · rw [BitVec.getLsbD_or, hA, BitVec.getLsbD_and]
      rcases hi with rfl | rfl
      · rw [(f26 _).1]; rfl
      · rw [(f26 _).2]; rfl
    · exact hA
  unfold entryFlags
  simp only [hd, Bool.true_or, Bool.true_and, hs', if_true]
  generalize (if has c.ff withFatAttrs = true then (if has c.ff withChattr = true then fromMap chattrMap m.chattr &&& c.ff else 0#64) ||| (fromMap fatMap m.fat &&& c.ff)
      else (if has c.ff withChattr = true then fromMap chattrMap m.chattr &&& c.ff else 0#64)) = A at hz ⊢
  rw [BitVec.getLsbD_or, BitVec.getLsbD_or, hz 26 (.inl rfl), hz 27 (.inr rfl), BitVec.getLsbD_and, BitVec.getLsbD_and, BitVec.getLsbD_or, BitVec.getLsbD_or, hs]
  constructor
  · cases m.subvol <;> cases m.subvolRo <;> decide
  · intro hr; rw [hr]; cases m.subvol <;> cases m.subvolRo <;> decide

theorem CfgOK.aclExcl {c : Cfg} (h : CfgOK c) (ha : has c.ff (withPermissions ||| withAcl) = true) : has c.ff withReadOnly = false := by
  obtain ⟨_, _, _, _, _, h5, h6, _⟩ := (C17_areNormalized_iff _).1 h.norm
  rw [has_or, has_withPermissions, has_withAcl, Bool.or_eq_true] at ha
  rw [has_withReadOnly]
  rcases ha with g | g
  · exact h5 g
  · exact (h6 g).2

theorem xval_sorted {l : List (Bytes × Bytes)} {n : Bytes} (hn : xattrStore n = true) (hl : (l.map (·.1)).Nodup) :
    xval ((l.filter (fun x => xattrStore x.1)).mergeSort xattrLe) n = xval l n := by
  have hp := List.mergeSort_perm (l.filter (fun x => xattrStore x.1)) xattrLe
  have hx : ∀ r : List (Bytes × Bytes), (r.map (·.1)).Nodup → ∀ v, xval r n = some v ↔ (n, v) ∈ r := by
    intro r
    induction r with
    | nil => intro _ v; unfold xval; simp
    | cons y r ih =>
      intro hr v
      rw [List.map_cons, List.nodup_cons] at hr
      have hc : xval (y :: r) n = if y.1 = n then some y.2 else xval r n := by
        unfold xval
        rw [List.find?_cons]
        by_cases e : y.1 = n
        · simp [e]
        · rw [if_neg e, beq_eq_false_iff_ne.2 e]
      rw [hc, List.mem_cons]
      by_cases e : y.1 = n
      · rw [if_pos e]
        constructor
        · intro h; injection h with h; exact .inl (by rw [← e, ← h])
        · rintro (h | h)
          · rw [← h]
          · exact absurd (List.mem_map_of_mem (f := (·.1)) h) (by rw [← e]; exact hr.1)
      · rw [if_neg e, ih hr.2]
        constructor
        · exact .inr
        · rintro (h | h)
          · exact absurd (by rw [← h]) e
          · exact h
  have hnf : ((l.filter (fun x => xattrStore x.1)).map (·.1)).Nodup := List.Sublist.nodup (List.Sublist.map _ List.filter_sublist) hl
  have hns : (((l.filter (fun x => xattrStore x.1)).mergeSort xattrLe).map (·.1)).Nodup := (hp.map (·.1)).nodup_iff.2 hnf
  rw [← xval_filter (l := l) (p := fun x => xattrStore x.1) (n := n) (by intro x e; rw [e]; exact hn)]
  apply Option.ext
  intro v
  exact (hx _ hns v).trans ((hp.mem_iff).trans (hx _ hnf v).symm)

/-- Everything that is put on an object is what the encoder has seen. -/
theorem gather_stores {c : Cfg} (hc : CfgOK c) {db : Names} (hdb : NamesOK db) (hinv : Inverse db) {k k' : Cache} (hk : CacheOK c db k) {m : Meta}
    (hm : FsOK m) (hf : Fits c db m) (hr : IdsInRange c m) {e : Entry} {a : Attrs} (h : gather c db k m = .ok (e, a, k')) :
    Stores (rcfg c) db e a m ∧ notReplayed (rcfg c) e = false := by
  obtain ⟨ho, _, hty, hrf⟩ := gather_ok hc hdb hk hm hf h
  have hnr : notReplayed (rcfg c) e = false := by
    have hi : ∀ t, isType e.mode t = isType m.mode t := by intro t; unfold isType; rw [hty]
    unfold typeRefused at hrf
    unfold notReplayed rcfg
    simp only [hi]
    simp only [Bool.or_eq_false_iff, Bool.and_eq_false_iff, Bool.not_eq_false'] at hrf ⊢
    obtain ⟨⟨⟨r1, r2⟩, r3⟩, r4⟩ := hrf
    exact ⟨⟨⟨r1.symm, r3.symm⟩, r4.symm⟩, r2.symm⟩
  refine ⟨?_, hnr⟩
  unfold gather at h
  cases hA : Meta.readAcl c db m with
  | err e => rw [hA] at h; cases h
  | ub => rw [hA] at h; cases h
  | ok acl =>
  rw [hA] at h
  simp only at h
  cases hN : readNames c db k m with
  | err e => rw [hN] at h; cases h
  | ub => rw [hN] at h; cases h
  | ok k1 =>
  rw [hN] at h
  simp only at h
  cases hI : entryIds c m with
  | err e => rw [hI] at h; cases h
  | ub => rw [hI] at h; cases h
  | ok ug =>
  obtain ⟨u, g⟩ := ug
  rw [hI] at h
  simp only at h
  by_cases hT : typeRefused c m = true
  · rw [if_pos hT] at h; cases h
  rw [if_neg hT] at h
  injection h with h
  injection h with he h
  injection h with ha hk'
  subst he; subst ha; subst hk'
  obtain ⟨_, hn1, hn2⟩ := readNames_ok hk hN
  have hid : has c.ff withIds = true → u = shiftUid c m.uid ∧ g = shiftUid c m.gid ∧ uidValid (shiftUid c m.uid) = true ∧ uidValid (shiftUid c m.gid) = true := by
    intro q
    unfold entryIds at hI
    rw [if_pos q] at hI
    by_cases v1 : uidValid (shiftUid c m.uid) = true
    · rw [if_neg (by simpa using v1)] at hI
      by_cases v2 : uidValid (shiftUid c m.gid) = true
      · rw [if_neg (by simpa using v2)] at hI
        split at hI
        · cases hI
        · injection hI with hI; injection hI with e1 e2; exact ⟨e1.symm, e2.symm, v1, v2⟩
      · rw [if_pos (by simpa using v2)] at hI; cases hI
    · rw [if_pos (by simpa using v1)] at hI; cases hI
  have kU : ∀ v, (v = m.uid ∨ v ∈ namedUsers m) → has c.ff withUserNames = true → has c.ff withIds = false → v ≠ 0 → (db.user v).isSome = true :=
    fun v hv q1 q2 => (hf.known q1 q2).1 v hv
  have kG : ∀ v, (v = m.gid ∨ v ∈ namedGroups m) → has c.ff withUserNames = true → has c.ff withIds = false → v ≠ 0 → (db.group v).isSome = true :=
    fun v hv q1 q2 => (hf.known q1 q2).2 v hv
  have rp : (rcfg c).replay = c.ff := rfl
  have aclVU : has c.ff withAcl = true → ∀ q ∈ namedUsers m, q < 2 ^ 32 → ∀ p y, aclEnt c (uidToName c db) q p = .ok y →
      (idVal (rcfg c) db.uid y.name y.id, y.perm) = (q, p) := by
    intro hacl q hq hlt p y hy
    refine aclEnt_val hlt (hr.users hacl q hq) (fun n hn => ?_) (fun hi hn => ?_) (hc.aclNames hacl) hy
    · exact uidToName_inv hinv (fun hi => kU q (.inr hq) (hc.aclNames hacl hi) hi) hn
    · exact uidToName_none hi (kU q (.inr hq) (hc.aclNames hacl hi) hi) hn
  have aclVG : has c.ff withAcl = true → ∀ q ∈ namedGroups m, q < 2 ^ 32 → ∀ p y, aclEnt c (gidToName c db) q p = .ok y →
      (idVal (rcfg c) db.gid y.name y.id, y.perm) = (q, p) := by
    intro hacl q hq hlt p y hy
    refine aclEnt_val hlt (hr.groups hacl q hq) (fun n hn => ?_) (fun hi hn => ?_) (hc.aclNames hacl) hy
    · exact gidToName_inv hinv (fun hi => kG q (.inr hq) (hc.aclNames hacl hi) hi) hn
    · exact gidToName_none hi (kG q (.inr hq) (hc.aclNames hacl hi) hi) hn
  exact {
    type := hty
    perm := fun q ql => fixupMode_same q ql
    link := fun q => fixupMode_link q
    userName := fun n hn => (ho.attrs.user n hn).2
    groupName := fun n hn => (ho.attrs.group n hn).2
    uid := fun q => by
      refine idVal_stored hm.ids.1 (fun n hn => ?_) (fun hn => ?_) (fun hn => ?_) (fun hn => ?_) <;> unfold usedName at hn <;> rw [rp] at hn
      · split at hn
        · rename_i hu
          exact uidToName_inv hinv (kU m.uid (.inl rfl) hu) (by rw [(hn1 hu).1]; exact congrArg _ hn)
        · cases hn
      all_goals
        have hi : has c.ff withIds = true := by
          by_cases hi : has c.ff withIds = true
          · exact hi
          have hi : has c.ff withIds = false := by simpa using hi
          rw [rp, has_or, hi, Bool.false_or] at q
          rw [if_pos q] at hn
          exact absurd (uidToName_none hi (kU m.uid (.inl rfl) q hi) (by rw [(hn1 q).1]; exact congrArg _ hn)) (hf.notRoot q hi).1
      · exact .inl (hid hi).1
      · exact .inl (hid hi).2.2.1
      · exact (hr.owner hi).1
    gid := fun q => by
      refine idVal_stored hm.ids.2 (fun n hn => ?_) (fun hn => ?_) (fun hn => ?_) (fun hn => ?_) <;> unfold usedName at hn <;> rw [rp] at hn
      · split at hn
        · rename_i hu
          exact gidToName_inv hinv (kG m.gid (.inl rfl) hu) (by rw [(hn1 hu).2]; exact congrArg _ hn)
        · cases hn
      all_goals
        have hi : has c.ff withIds = true := by
          by_cases hi : has c.ff withIds = true
          · exact hi
          have hi : has c.ff withIds = false := by simpa using hi
          rw [rp, has_or, hi, Bool.false_or] at q
          rw [if_pos q] at hn
          exact absurd (gidToName_none hi (kG m.gid (.inl rfl) q hi) (by rw [(hn1 q).2]; exact congrArg _ hn)) (hf.notRoot q hi).2
      · exact .inl (hid hi).2.1
      · exact .inl (hid hi).2.2.2
      · exact (hr.owner hi).2
    aclNames := ⟨fun x hx n hn => ((ho.attrs.aclUser x hx).name n hn).2, fun x hx n hn => ((ho.attrs.aclGroup x hx).name n hn).2⟩
    defNames := ⟨fun x hx n hn => ((ho.attrs.defUser x hx).name n hn).2, fun x hx n hn => ((ho.attrs.defGroup x hx).name n hn).2⟩
    noAcl := fun q => by
      rcases readAcl_ok hA with ⟨h1, _⟩ | ⟨_, h2, _⟩
      · subst h1; rfl
      · rw [q] at h2; cases h2
    acl := fun q ql => by
      rcases readAcl_ok hA with ⟨_, h1 | h1⟩ | ⟨_, _, x, hx, e1, e2, e3, _⟩
      · rw [rp, h1] at q; cases q
      · rw [ql] at h1; cases h1
      · rcases process_access hx with ⟨g0, g1, g2, g3⟩ | ⟨z, gz, g1, g2, g3⟩
        · left
          refine ⟨g0, ?_, ?_, ?_⟩
          · show acl.users = []; rw [e1, g1]; simp [sortAcl]
          · show acl.groups = []; rw [e2, g2]; simp [sortAcl]
          · show acl.groupObj = none; rw [e3, g3]
        · right
          have hz := hm.ext z gz
          have mu : ∀ v, v ∈ z.users.map (·.1) → v ∈ namedUsers m := fun v hv => by unfold namedUsers; rw [gz]; exact List.mem_append_left _ hv
          have mg : ∀ v, v ∈ z.groups.map (·.1) → v ∈ namedGroups m := fun v hv => by unfold namedGroups; rw [gz]; exact List.mem_append_left _ hv
          refine ⟨z, gz, ?_, ?_, ?_⟩
          · show z.users.Perm (acl.users.map _); rw [e1]
            exact g1.val_sorted (fun x hx y hy => aclVU q x.1 (mu _ (List.mem_map_of_mem hx)) (hz.users x hx).2 _ y hy)
          · show z.groups.Perm (acl.groups.map _); rw [e2]
            exact g2.val_sorted (fun x hx y hy => aclVG q x.1 (mg _ (List.mem_map_of_mem hx)) (hz.groups x hx).2 _ y hy)
          · show acl.groupObj = _; rw [e3, g3]
    dfl := fun q ql => by
      rcases readAcl_ok hA with ⟨_, h1 | h1⟩ | ⟨_, _, x, hx, _, _, _, ⟨hd, _⟩ | ⟨_, y, hy, e1, e2, e3⟩⟩
      · rw [rp, h1] at q; cases q
      · rw [isType_excl ql (by decide)] at h1; cases h1
      · rw [ql] at hd; cases hd
      · rcases process_default hy with ⟨g0, g1, g2, g3⟩ | ⟨z, gz, g1, g2, g3⟩
        · left
          exact ⟨g0, by show acl.dfl = none; rw [e1, g3]⟩
        · right
          have hz := hm.dfl z gz
          have mu : ∀ v, v ∈ z.users.map (·.1) → v ∈ namedUsers m := fun v hv => by unfold namedUsers; rw [gz]; exact List.mem_append_right _ hv
          have mg : ∀ v, v ∈ z.groups.map (·.1) → v ∈ namedGroups m := fun v hv => by unfold namedGroups; rw [gz]; exact List.mem_append_right _ hv
          refine ⟨z, gz, ?_, ?_, ?_, hz.obj.1, hz.obj.2.1, hz.obj.2.2, hz.mask⟩
          · show z.users.Perm (acl.defUsers.map _); rw [e2]
            exact g1.val_sorted (fun x hx y hy => aclVU q x.1 (mu _ (List.mem_map_of_mem hx)) (hz.users x hx).2 _ y hy)
          · show z.groups.Perm (acl.defGroups.map _); rw [e3]
            exact g2.val_sorted (fun x hx y hy => aclVG q x.1 (mg _ (List.mem_map_of_mem hx)) (hz.groups x hx).2 _ y hy)
          · show acl.dfl = _; rw [e1, g3]
    xattrs := fun q ql => by
      have hrd : readXattrs c m = (m.xattrs.filter (fun x => xattrStore x.1)).mergeSort xattrLe := by
        unfold readXattrs
        rw [if_neg]
        rw [rp] at q
        rw [q]
        rcases ql with q | q <;> simp [q]
      have hp := List.mergeSort_perm (m.xattrs.filter (fun x => xattrStore x.1)) xattrLe
      show (∀ x ∈ readXattrs c m, _) ∧ ((readXattrs c m).map _).Nodup ∧ _
      simp only [hrd]
      refine ⟨fun x hx => ?_, ?_, fun n hn => xval_sorted hn hm.xattrOnce⟩
      · exact (List.mem_filter.1 (hp.mem_iff.1 hx)).2
      · exact (hp.map (·.1)).nodup_iff.2 (List.Sublist.nodup (List.Sublist.map _ List.filter_sublist) hm.xattrOnce)
    fcaps := fun q ql => by
      show readFcaps c m = _
      unfold readFcaps
      rw [rp] at q
      rw [q, ql]; rfl
    selinux := fun q => by
      show readSelinux c m = _
      unfold readSelinux
      rw [rp] at q
      rw [q]; rfl
    time := fun g' hg => by
      have hmax : u64max = 18446744073709551615 := by decide
      rw [rp] at hg
      have hgc : c.gran = g' := by
        rcases hc.gran with q | ⟨q, _⟩
        · rw [hg] at q; injection q with q; exact q.symm
        · rw [hg] at q; cases q
      have hgs : g' = 1 ∨ g' = 1000 ∨ g' = 1000000000 ∨ g' = 2000000000 := by
        rcases ((C17_granularity_iff _ _).1 hg).2 with q | q | q | q <;> omega
      show fixupMtime c m / g' = _
      unfold fixupMtime
      rw [hgc, if_neg (by omega)]
      exact Nat.mul_div_cancel _ (by omega)
    chattr := fun ho => toMap_back chattr_bitMap (fun i hi => entryFlags_chattr ho i hi)
    fat := fun ho => toMap_back fat_bitMap (fun i hi => entryFlags_fat ho i hi)
    subvol := fun q ql => (entryFlags_sub ql q).1
    subvolRo := fun q qr ql => (entryFlags_sub ql q).2 qr
    aclExcl := fun q => hc.aclExcl q }

end Casync.Meta
