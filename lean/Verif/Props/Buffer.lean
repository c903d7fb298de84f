import Verif.Spec.Buffer
/-!
Property C22: the growable buffer behaves like a byte string.
-/
namespace Casync.Buffer
open Casync Casync.Buffer.Spec

theorem contents_length {b : Buf} (h : Inv b) : (contents b).length = b.stop - b.start := by
  unfold contents
  have := h.stop_le; have := h.len; have := h.start_le
  rw [List.length_take, List.length_drop]; omega

theorem size_ok {b : Buf} (h : Inv b) : size b = .ok (contents b).length := by
  have h1 := h.start_le; have h2 := h.stop_le
  rw [contents_length h]; simp [size, h1, h2]

theorem dataOff_ok {b : Buf} (h : Inv b) : dataOff b = .ok b.start := by
  have h1 := h.start_le; have h2 := h.stop_le
  simp [dataOff, h1, h2]

theorem alignTo_bounds (l : Nat) : l ≤ alignTo l 4096 ∧ alignTo l 4096 < l + 4096 := by
  unfold alignTo; omega

theorem malloc_length (junk : Nat → UInt8) (n : Nat) : (malloc junk n).length = n := by simp [malloc]

theorem inv_empty {b : Buf} (h : Inv b) : Inv { b with start := 0, stop := 0 } :=
  ⟨Nat.le_refl _, Nat.zero_le _, h.len, h.small⟩

theorem contents_empty (b : Buf) : contents { b with start := 0, stop := 0 } = [] := by simp [contents]

/-- `acquire` below the cap succeeds and keeps the common prefix. -/
theorem acquire_ok {b : Buf} (h : Inv b) (junk : Nat → UInt8) {n : Nat} (hn : n ≤ MAX) :
    ∃ b', acquire junk b n = .ok (b', b'.start) ∧ Inv b' ∧ (contents b').length = n ∧
      (contents b').take (contents b).length = (contents b).take n := by
  obtain ⟨h1, h2, h3, h4⟩ := h
  have h : Inv b := ⟨h1, h2, h3, h4⟩
  simp only [MAX] at hn
  unfold acquire
  by_cases h0 : n = 0
  · subst h0
    rw [if_pos rfl]
    exact ⟨_, rfl, inv_empty h, by rw [contents_empty]; rfl, by rw [contents_empty]; simp⟩
  · rw [if_neg h0, if_neg (by simp only [MAX]; omega)]
    simp only
    have hne : (b.start + n) % 2 ^ 64 = b.start + n := Nat.mod_eq_of_lt (by omega)
    rw [hne, if_neg (by omega)]
    by_cases hfit : b.start + n ≤ b.allocated
    · rw [if_pos hfit]
      have hi : Inv { b with stop := b.start + n } := ⟨by simp, hfit, h3, h4⟩
      rw [dataOff_ok hi, Res.bind_ok]
      refine ⟨_, rfl, hi, ?_, ?_⟩
      · rw [contents_length hi]; simp
      · rw [contents_length h]
        simp only [contents]
        rw [List.take_take, List.take_take]
        congr 1
        omega
    · rw [if_neg hfit]
      have hna : b.allocated * 2 % 2 ^ 64 = b.allocated * 2 := Nat.mod_eq_of_lt (by omega)
      rw [hna, if_neg (by omega)]
      generalize hm : max (if b.allocated * 2 > MAX then MAX else b.allocated * 2) n = m
      obtain ⟨a1, a2⟩ := alignTo_bounds m
      have hmn : n ≤ m := by omega
      have hmM : m ≤ MAX := by
        simp only [MAX] at hm ⊢
        split at hm <;> omega
      simp only [MAX] at hmM
      by_cases hs : b.start = 0
      · rw [if_pos hs]
        have hlen : (realloc junk b.data (alignTo m 4096)).length = alignTo m 4096 := by
          unfold realloc
          rw [List.length_append, List.length_take, List.length_drop, malloc_length]
          omega
        have hi : Inv { data := realloc junk b.data (alignTo m 4096), allocated := alignTo m 4096, start := 0, stop := n } :=
          ⟨Nat.zero_le _, by simp only; omega, hlen, by simp only; omega⟩
        refine ⟨_, rfl, hi, by rw [contents_length hi]; simp, ?_⟩
        rw [contents_length h]
        simp only [contents, hs, List.drop_zero, Nat.sub_zero]
        rw [List.take_take, List.take_take]
        unfold realloc
        rw [List.take_of_length_le (by omega : b.data.length ≤ alignTo m 4096),
          List.take_append_of_le_length (by omega)]
        congr 1
        omega
      · rw [if_neg hs, dataOff_ok h, Res.bind_ok, size_ok h, Res.bind_ok, contents_length h]
        rw [if_pos (by omega)]
        unfold memcpy
        have hcl := contents_length h
        rw [show (b.data.drop b.start).take (b.stop - b.start) = contents b from rfl]
        rw [if_pos (by rw [malloc_length]; omega), Res.bind_ok]
        have hi : Inv (Buf.mk ((malloc junk (alignTo m 4096)).take 0 ++ contents b ++
            (malloc junk (alignTo m 4096)).drop (0 + (contents b).length)) (alignTo m 4096) 0 n) :=
          ⟨Nat.zero_le _, by simp only; omega, by
            simp only [List.length_append, List.length_take, List.length_drop, malloc_length]; omega, by simp only; omega⟩
        refine ⟨_, rfl, hi, by rw [contents_length hi]; simp, ?_⟩
        rw [show ∀ (d : Bytes) (a s e : Nat), contents { data := d, allocated := a, start := s, stop := e } =
          (d.drop s).take (e - s) from fun _ _ _ _ => rfl]
        rw [List.take_zero, List.nil_append, List.drop_zero, Nat.sub_zero, List.take_take,
          List.take_append_of_le_length (by omega)]
        rw [← hcl, show min (contents b).length n = (contents b).length by omega, List.take_length]
        rw [List.take_of_length_le (by omega)]

theorem acquire_err {b : Buf} (junk : Nat → UInt8) {n : Nat} (hn : MAX < n) : acquire junk b n = .err .ENOMEM := by
  unfold acquire
  rw [if_neg (by omega), if_pos hn]

theorem extend_ok {b : Buf} (h : Inv b) (junk : Nat → UInt8) {n : Nat} (hn : (contents b).length + n ≤ MAX) :
    ∃ b', extend junk b n = .ok (b', b'.start + (contents b).length) ∧ Inv b' ∧
      (contents b').length = (contents b).length + n ∧ (contents b').take (contents b).length = contents b := by
  unfold extend
  rw [size_ok h, Res.bind_ok]
  simp only
  have hm : ((contents b).length + n) % 2 ^ 64 = (contents b).length + n := Nat.mod_eq_of_lt (by simp only [MAX] at hn; omega)
  rw [hm, if_neg (by omega)]
  obtain ⟨b', e1, e2, e3, e4⟩ := acquire_ok h junk hn
  rw [e1, Res.bind_ok]
  refine ⟨b', rfl, e2, e3, ?_⟩
  rw [e4, List.take_of_length_le (by omega)]

theorem extend_err {b : Buf} (h : Inv b) (junk : Nat → UInt8) {n : Nat} (hn64 : n < 2 ^ 64)
    (hn : MAX < (contents b).length + n) : extend junk b n = .err .ENOMEM := by
  unfold extend
  rw [size_ok h, Res.bind_ok]
  simp only
  have := contents_length h
  have := h.small; have := h.stop_le
  split
  · rfl
  · rename_i hlt
    rw [acquire_err junk (by simp only [MAX] at hn ⊢; omega), Res.bind_err]

/-- Writing into the extension. -/
theorem memcpy_ok {b : Buf} (h : Inv b) {k : Nat} {p : Bytes} (hk : k + p.length ≤ (contents b).length) :
    ∃ m, memcpy b.data (b.start + k) p = .ok m ∧ Inv { b with data := m } ∧
      contents { b with data := m } = (contents b).take k ++ p ++ (contents b).drop (k + p.length) := by
  have hc := contents_length h
  have h1 := h.start_le; have h2 := h.stop_le; have h3 := h.len
  unfold memcpy
  rw [if_pos (by omega)]
  refine ⟨_, rfl, ⟨h1, h2, ?_, h.small⟩, ?_⟩
  · simp only [List.length_append, List.length_take, List.length_drop]; omega
  · simp only [contents]
    rw [List.append_assoc, List.drop_append, List.length_take, show b.start - min (b.start + k) b.data.length = 0 by omega,
      List.drop_zero, List.drop_take, show b.start + k - b.start = k by omega]
    rw [List.take_append, List.length_take, List.length_drop, List.take_append]
    have e1 : min k (b.data.length - b.start) = k := by omega
    rw [e1, List.take_of_length_le (l := p) (by omega), List.take_take, List.take_take, List.append_assoc,
      show min (b.stop - b.start) k = k by omega, show min k (b.stop - b.start) = k by omega]
    congr 2
    rw [List.drop_take, List.drop_drop]
    congr 1
    · omega
    · congr 1; omega

theorem append_ok {b : Buf} (h : Inv b) (junk : Nat → UInt8) {p : Bytes} (hn : (contents b).length + p.length ≤ MAX) :
    ∃ b' o, append junk b p = .ok (b', o) ∧ Inv b' ∧ contents b' = contents b ++ p := by
  obtain ⟨b1, e1, e2, e3, e4⟩ := extend_ok h junk hn
  obtain ⟨m, f1, f2, f3⟩ := memcpy_ok e2 (k := (contents b).length) (p := p) (by omega)
  unfold append
  rw [e1, Res.bind_ok]
  simp only
  rw [f1, Res.bind_ok]
  refine ⟨_, _, rfl, f2, ?_⟩
  rw [f3, e4, List.drop_eq_nil_of_le (by omega), List.append_nil]

theorem shorten_ok {b : Buf} (h : Inv b) {n : Nat} (hn : n ≤ (contents b).length) :
    ∃ b', shorten b n = .ok b' ∧ Inv b' ∧ contents b' = (contents b).take ((contents b).length - n) := by
  have hc := contents_length h
  have h1 := h.start_le; have h2 := h.stop_le; have h3 := h.len
  unfold shorten
  rw [size_ok h, Res.bind_ok, if_neg (by omega)]
  by_cases h0 : n = 0
  · subst h0
    rw [if_pos rfl]
    exact ⟨b, rfl, h, by rw [Nat.sub_zero, List.take_length]⟩
  · rw [if_neg h0]
    simp only
    by_cases he : b.stop - n = b.start
    · rw [if_pos he]
      refine ⟨_, rfl, inv_empty (b := b) h, ?_⟩
      rw [show ({ data := b.data, allocated := b.allocated, start := 0, stop := 0 } : Buf) = { b with start := 0, stop := 0 } from rfl,
        contents_empty, show (contents b).length - n = 0 by omega, List.take_zero]
    · rw [if_neg he]
      refine ⟨_, rfl, ⟨by simp only; omega, by simp only; omega, h3, h.small⟩, ?_⟩
      simp only [contents]
      rw [List.take_take]
      congr 1
      simp only [contents] at hc
      omega

theorem ite_pos {c : Prop} [Decidable c] {a b : Prop} (h : c) (ha : a) : if c then a else b := by
  rw [if_pos h]; exact ha

theorem ite_neg {c : Prop} [Decidable c] {a b : Prop} (h : ¬ c) (hb : b) : if c then a else b := by
  rw [if_neg h]; exact hb

/-- One operation does what the specification says, without undefined behaviour, and keeps the bookkeeping in range. -/
theorem exec_step (junk : Nat → UInt8) {b : Buf} (h : Inv b) (op : Op) (hop : OpOk op) :
    (∃ b', exec junk b op = .ok b' ∧ Inv b' ∧ Step op (contents b) true (contents b')) ∨
    (∃ e, exec junk b op = .err e ∧ Step op (contents b) false (contents b)) := by
  have hc := contents_length h
  have h1 := h.start_le; have h2 := h.stop_le; have h3 := h.len; have h4 := h.small
  have hM : MAX = 2 ^ 30 := rfl
  cases op with
  | acquire n =>
    rcases Nat.lt_or_ge MAX n with hn | hn
    · right
      exact ⟨.ENOMEM, by simp only [exec, acquire_err junk hn, Res.bind_err], ite_neg (by omega) ⟨rfl, rfl⟩⟩
    · left
      obtain ⟨b', e1, e2, e3, e4⟩ := acquire_ok h junk hn
      exact ⟨b', by simp only [exec, e1, Res.bind_ok], e2, ite_pos (by omega) ⟨rfl, e3, e4.symm⟩⟩
  | acquire0 n =>
    rcases Nat.lt_or_ge MAX n with hn | hn
    · right
      refine ⟨.ENOMEM, ?_, ite_neg (by omega) ⟨rfl, rfl⟩⟩
      simp only [exec, acquire0]; rw [if_neg (by omega), if_pos hn, Res.bind_err]
    · left
      simp only [exec, acquire0]
      by_cases h0 : n = 0
      · rw [if_pos h0, Res.bind_ok]
        exact ⟨_, rfl, inv_empty h, ite_pos (by omega) ⟨rfl, by rw [contents_empty, h0]; rfl⟩⟩
      · rw [if_neg h0, if_neg (by omega)]
        by_cases hlt : n < b.allocated
        · rw [if_pos hlt]
          have hi : Inv { b with start := 0, stop := n } := ⟨Nat.zero_le _, by simp only; omega, h3, h4⟩
          obtain ⟨m, f1, f2, f3⟩ := memcpy_ok hi (k := 0) (p := List.replicate n 0) (by
            rw [contents_length hi]; simp)
          have f1' : memcpy b.data 0 (List.replicate n 0) = .ok m := f1
          rw [f1', Res.bind_ok]
          have := dataOff_ok f2
          simp only at this
          rw [this, Res.bind_ok, Res.bind_ok]
          refine ⟨_, rfl, f2, ite_pos (by omega) ⟨rfl, ?_⟩⟩
          rw [f3, List.take_zero, List.nil_append, List.drop_eq_nil_of_le (by rw [contents_length hi]; simp), List.append_nil]
        · rw [if_neg hlt]
          rw [Nat.mod_eq_of_lt (a := b.allocated * 2) (by omega), if_neg (by omega), Res.bind_ok]
          generalize hm : max (if b.allocated * 2 > MAX then MAX else b.allocated * 2) n = m
          obtain ⟨a1, a2⟩ := alignTo_bounds m
          have hmM : m ≤ MAX := by
            simp only [MAX] at hm hn ⊢
            split at hm <;> omega
          simp only [MAX] at hmM
          refine ⟨_, rfl, ⟨Nat.zero_le _, by simp only; omega, by simp, by simp only; omega⟩, ite_pos (by omega) ⟨rfl, ?_⟩⟩
          simp only [contents, List.drop_zero, Nat.sub_zero]
          rw [List.take_replicate]; congr 1; omega
  | extend n =>
    have hop : n < 2 ^ 64 := hop
    simp only [exec]
    rcases Nat.lt_or_ge MAX ((contents b).length + n) with hn | hn
    · right
      rw [extend_err h junk hop hn]
      exact ⟨_, rfl, ite_neg (by omega) ⟨rfl, rfl⟩⟩
    · left
      obtain ⟨b', e1, e2, e3, e4⟩ := extend_ok h junk hn
      rw [e1]
      refine ⟨b', rfl, e2, ite_pos (by omega) ⟨rfl, (contents b').drop (contents b).length, by rw [List.length_drop]; omega, ?_⟩⟩
      conv => lhs; rw [← List.take_append_drop (contents b).length (contents b')]
      rw [e4]
  | extend0 n =>
    have hop : n < 2 ^ 64 := hop
    simp only [exec, extend0]
    rcases Nat.lt_or_ge MAX ((contents b).length + n) with hn | hn
    · right
      rw [extend_err h junk hop hn]
      exact ⟨_, rfl, ite_neg (by omega) ⟨rfl, rfl⟩⟩
    · left
      obtain ⟨b', e1, e2, e3, e4⟩ := extend_ok h junk hn
      rw [e1, Res.bind_ok]
      obtain ⟨m, f1, f2, f3⟩ := memcpy_ok e2 (k := (contents b).length) (p := List.replicate n 0) (by
        rw [List.length_replicate]; omega)
      simp only
      rw [f1, Res.bind_ok, Res.bind_ok]
      refine ⟨_, rfl, f2, ite_pos (by omega) ⟨rfl, ?_⟩⟩
      rw [f3, e4, List.drop_eq_nil_of_le (by rw [List.length_replicate]; omega), List.append_nil]
  | append p =>
    have hop : p.length < 2 ^ 62 := hop
    simp only [exec]
    rcases Nat.lt_or_ge MAX ((contents b).length + p.length) with hn | hn
    · right
      unfold append
      rw [extend_err h junk (by omega) hn]
      exact ⟨_, rfl, ite_neg (by omega) ⟨rfl, rfl⟩⟩
    · left
      obtain ⟨b', o, e1, e2, e3⟩ := append_ok h junk hn
      rw [e1]
      exact ⟨b', rfl, e2, ite_pos (by omega) ⟨rfl, e3⟩⟩
  | free =>
    left
    exact ⟨empty0, rfl, ⟨Nat.le_refl _, Nat.le_refl _, rfl, by simp [empty0]⟩, rfl, rfl⟩
  | empty =>
    left
    exact ⟨_, rfl, inv_empty h, rfl, contents_empty b⟩
  | advance n =>
    have hop : n < 2 ^ 64 := hop
    simp only [exec, advance]
    by_cases h0 : n = 0
    · left; rw [if_pos h0]
      exact ⟨b, rfl, h, ite_pos (by omega) ⟨rfl, by rw [h0]; rfl⟩⟩
    · rw [if_neg h0]
      by_cases hw : b.start + n < 2 ^ 64
      · rw [Nat.mod_eq_of_lt hw, if_neg (by omega)]
        by_cases hgt : b.start + n > b.stop
        · right; rw [if_pos hgt]; exact ⟨_, rfl, ite_neg (by omega) ⟨rfl, rfl⟩⟩
        · left
          rw [if_neg hgt]
          by_cases he : b.start + n = b.stop
          · rw [if_pos he]
            refine ⟨_, rfl, inv_empty h, ite_pos (by omega) ⟨rfl, ?_⟩⟩
            rw [contents_empty, List.drop_eq_nil_of_le (by omega)]
          · rw [if_neg he]
            refine ⟨_, rfl, ⟨by simp only; omega, h2, h3, h4⟩, ite_pos (by omega) ⟨rfl, ?_⟩⟩
            simp only [contents]
            rw [List.drop_take, List.drop_drop]
            congr 1
            omega
      · right
        have : (b.start + n) % 2 ^ 64 < b.start := by omega
        rw [if_pos this]
        exact ⟨_, rfl, ite_neg (by omega) ⟨rfl, rfl⟩⟩
  | shorten n =>
    simp only [exec]
    by_cases hn : n ≤ (contents b).length
    · left
      obtain ⟨b', e1, e2, e3⟩ := shorten_ok h hn
      exact ⟨b', e1, e2, ite_pos hn ⟨rfl, e3⟩⟩
    · right
      unfold shorten
      rw [size_ok h, Res.bind_ok, if_pos (by omega)]
      exact ⟨_, rfl, ite_neg hn ⟨rfl, rfl⟩⟩
  | truncate n =>
    simp only [exec, truncate]
    by_cases h0 : n = 0
    · left; rw [if_pos h0]
      exact ⟨_, rfl, inv_empty h, ite_pos (by omega) ⟨rfl, by rw [contents_empty, h0, List.take_zero]⟩⟩
    · rw [if_neg h0, size_ok h, Res.bind_ok]
      by_cases hn : n ≤ (contents b).length
      · left
        rw [if_neg (by omega)]
        refine ⟨_, rfl, ⟨by simp only; omega, by simp only; omega, h3, h4⟩, ite_pos hn ⟨rfl, ?_⟩⟩
        simp only [contents]
        rw [List.take_take]; congr 1
        omega
      · right
        rw [if_pos (by omega)]
        exact ⟨_, rfl, ite_neg hn ⟨rfl, rfl⟩⟩
  | read n reply =>
    obtain ⟨hop1, hop2⟩ : n < 2 ^ 64 ∧ ∀ d, reply = some d → d.length ≤ (if n = 2 ^ 64 - 1 then 65536 else max n 65536) := hop
    simp only [exec, readSize, -Nat.reducePow, -Nat.reduceSub]
    have hadd : (if n = 2 ^ 64 - 1 ∨ n < BUFFER_SIZE then BUFFER_SIZE else n) = (if n = 2 ^ 64 - 1 then 65536 else max n 65536) := by
      simp only [BUFFER_SIZE]
      split <;> split <;> omega
    rw [hadd]
    have ha64 : (if n = 2 ^ 64 - 1 then 65536 else max n 65536) < 2 ^ 64 := by split <;> omega
    rcases Nat.lt_or_ge MAX ((contents b).length + (if n = 2 ^ 64 - 1 then 65536 else max n 65536)) with hn | hn
    · right
      rw [extend_err h junk ha64 hn]
      exact ⟨_, rfl, ite_neg (by omega) ⟨rfl, rfl⟩⟩
    · left
      have hfin : ∀ b', exec junk b (.read n reply) = .ok b' → Inv b' → contents b' = contents b ++ reply.getD [] →
          ∃ b', exec junk b (.read n reply) = .ok b' ∧ Inv b' ∧ Step (.read n reply) (contents b) true (contents b') :=
        fun b' x y z => ⟨b', x, y, ite_pos (by omega) ⟨rfl, z⟩⟩
      simp only [exec, readSize, -Nat.reducePow, -Nat.reduceSub] at hfin
      rw [hadd] at hfin
      generalize (if n = 2 ^ 64 - 1 then 65536 else max n 65536) = a at *
      obtain ⟨b', e1, e2, e3, e4⟩ := extend_ok h junk hn
      rw [e1, Res.bind_ok] at hfin
      rw [e1, Res.bind_ok]
      cases reply with
      | none =>
        obtain ⟨b2, s1, s2, s3⟩ := shorten_ok e2 (n := a) (by omega)
        refine hfin b2 ?_ s2 ?_
        · simp only; rw [s1, Res.bind_ok, Res.bind_ok]
        · rw [s3, e3, Nat.add_sub_cancel, e4]; simp
      | some d =>
        have hd := hop2 d rfl
        obtain ⟨m, f1, f2, f3⟩ := memcpy_ok e2 (k := (contents b).length) (p := d) (by omega)
        have f3l : (contents { b' with data := m }).length = (contents b).length + a := by
          rw [contents_length f2]
          have := contents_length e2
          simp only
          omega
        obtain ⟨b2, s1, s2, s3⟩ := shorten_ok f2 (n := a - d.length) (by omega)
        refine hfin b2 ?_ s2 ?_
        · simp only
          rw [if_neg (by omega), f1, Res.bind_ok, s1, Res.bind_ok, Res.bind_ok]
        · rw [s3, f3l, f3, e4]
          rw [show (contents b).length + a - (a - d.length) = (contents b ++ d).length by rw [List.length_append]; omega]
          rw [List.take_append_of_le_length (Nat.le_refl _), List.take_length]
          rfl
  | donate p =>
    have hop : p.length < 2 ^ 62 := hop
    simp only [exec, donate]
    rw [size_ok h, Res.bind_ok]
    by_cases hce : contents b = []
    · left
      rw [if_neg (by rw [hce]; simp)]
      exact ⟨_, rfl, ⟨Nat.zero_le _, Nat.le_refl _, rfl, hop⟩, ite_pos hce ⟨rfl, by simp [contents]⟩⟩
    · have hpos : (contents b).length > 0 := List.length_pos_iff.2 hce
      rw [if_pos hpos]
      rcases Nat.lt_or_ge MAX ((contents b).length + p.length) with hn | hn
      · right
        unfold append
        rw [extend_err h junk (by omega) hn]
        exact ⟨_, rfl, ite_neg hce (ite_neg (by omega) ⟨rfl, rfl⟩)⟩
      · left
        obtain ⟨b', o, e1, e2, e3⟩ := append_ok h junk hn
        rw [e1]
        exact ⟨b', rfl, e2, ite_neg hce (ite_pos (by omega) ⟨rfl, e3⟩)⟩
  | steal =>
    left
    simp only [exec, steal]
    have hi : Inv empty0 := ⟨Nat.le_refl _, Nat.le_refl _, rfl, by simp [empty0]⟩
    by_cases hs : b.start = 0
    · rw [if_pos hs, Res.bind_ok]
      exact ⟨_, rfl, hi, rfl, rfl⟩
    · rw [if_neg hs, dataOff_ok h, Res.bind_ok, size_ok h, Res.bind_ok, Res.bind_ok]
      exact ⟨_, rfl, hi, rfl, rfl⟩

/-- C22. Every sequence of buffer operations, with every argument a caller can pass and whatever uninitialised memory
holds, acts on the contents as the byte string operations of `Spec.Step`: refused requests change nothing, nothing
fails an assertion or leaves the allocated memory, and the bookkeeping stays in range. -/
theorem C22_refines (junk : Nat → Nat → UInt8) (t : Nat) (b : Buf) (h : Inv b) (ops : List Op)
    (hops : ∀ op ∈ ops, OpOk op) :
    ∃ b' oks, run junk t b ops = .ok (b', oks) ∧ Inv b' ∧ Steps ops (contents b) oks (contents b') := by
  induction ops generalizing t b with
  | nil => exact ⟨b, [], rfl, h, .nil _⟩
  | cons op ops ih =>
    have hop := hops op (by simp)
    have hrest := fun o ho => hops o (List.mem_cons_of_mem _ ho)
    rcases exec_step (junk t) h op hop with ⟨b1, e1, e2, e3⟩ | ⟨e, e1, e2⟩
    · obtain ⟨b2, oks, r1, r2, r3⟩ := ih (t + 1) b1 e2 hrest
      refine ⟨b2, true :: oks, ?_, r2, .cons e3 r3⟩
      simp only [run, e1, r1, Res.bind_ok]
    · obtain ⟨b2, oks, r1, r2, r3⟩ := ih (t + 1) b h hrest
      refine ⟨b2, false :: oks, ?_, r2, .cons e2 r3⟩
      simp only [run, e1, r1, Res.bind_ok]

/-- C22. The same from the zero-initialised buffer. -/
theorem C22_from_empty (junk : Nat → Nat → UInt8) (ops : List Op) (hops : ∀ op ∈ ops, OpOk op) :
    ∃ b' oks, run junk 0 empty0 ops = .ok (b', oks) ∧ Inv b' ∧ Steps ops [] oks (contents b') :=
  C22_refines junk 0 empty0 ⟨Nat.le_refl _, Nat.le_refl _, rfl, by simp [empty0]⟩ ops hops

/-- C22. `steal` hands out the contents: the first bytes of the memory returned. -/
theorem C22_steal (b : Buf) (h : Inv b) : ∃ p, steal b = .ok (p, empty0) ∧ p.take (contents b).length = contents b := by
  unfold steal
  by_cases hs : b.start = 0
  · rw [if_pos hs]
    refine ⟨_, rfl, ?_⟩
    rw [contents_length h]
    simp only [contents, hs, List.drop_zero, Nat.sub_zero]
  · rw [if_neg hs, dataOff_ok h, Res.bind_ok, size_ok h, Res.bind_ok, contents_length h]
    refine ⟨_, rfl, ?_⟩
    simp only [contents]
    rw [List.take_take, Nat.min_self]

/-- C22. `memchr` finds the first occurrence in the contents. -/
theorem C22_memchr (b : Buf) (h : Inv b) (c : UInt8) :
    (∀ i, memchr b c = .ok i → (contents b)[i]? = some c ∧ ∀ j < i, (contents b)[j]? ≠ some c) ∧
    (memchr b c = .err .ENXIO → c ∉ contents b) ∧ memchr b c ≠ .ub := by
  unfold memchr
  rw [size_ok h, Res.bind_ok]
  by_cases h0 : (contents b).length = 0
  · rw [if_pos h0]
    refine ⟨fun i hi => (by cases hi), fun _ => ?_, by simp⟩
    rw [List.length_eq_zero_iff.1 h0]; simp
  · rw [if_neg h0, dataOff_ok h, Res.bind_ok, contents_length h]
    rw [show (b.data.drop b.start).take (b.stop - b.start) = contents b from rfl]
    cases hx : (contents b).idxOf? c with
    | none =>
      refine ⟨fun i hi => (by cases hi), fun _ => List.idxOf?_eq_none_iff.1 hx, by simp⟩
    | some d =>
      simp only
      have hd := List.findIdx?_eq_some_iff_getElem.1 hx
      obtain ⟨hlt, heq, hmin⟩ := hd
      refine ⟨?_, ?_, by split <;> simp⟩
      · intro i hi
        split at hi
        · have := Res.ok.inj hi; subst this
          refine ⟨by rw [List.getElem?_eq_getElem hlt]; simpa using heq, fun j hj hc => ?_⟩
          rw [List.getElem?_eq_getElem (by omega)] at hc
          have := hmin j hj
          simp at this hc
          exact this hc
        · cases hi
      · intro hi; split at hi <;> cases hi

/-! ### non-vacuity -/

/-- A history that takes the copying branch of `acquire`: append, advance, then extend beyond the allocation. -/
def exOps : List Op := [.append [1, 2, 3], .advance 1, .extend 5000, .advance 10000, .shorten 5000, .append [9]]

example : ∃ b' oks, run (fun _ i => UInt8.ofNat i) 0 empty0 exOps = .ok (b', oks) ∧
    Inv b' ∧ Steps exOps [] oks (contents b') :=
  C22_from_empty _ _ (by simp [exOps, OpOk])

end Casync.Buffer
