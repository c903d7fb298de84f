import Verif.Lemmas.SeekLayout
/-!
Reading the records of an object in the archive of a tree.
-/
namespace Casync.Archive
open Casync Flags

variable {q : List Goodbye.NameItem → List Goodbye.NameItem}

theorem tail_symlink {ff : Word} {f f' : FF} {e : Entry} {a : Attrs} {tg : Bytes} (hv : validateFeatureFlags f ff = some f')
    (hlnk : isType e.mode ifLnk = true) (hw : has ff withSymlinks = true) (hne : tg ≠ []) (hz : (0 : UInt8) ∉ tg) (hln : tg.length ≤ 4095) (x : Bytes) :
    headRec f' { entry := some e, attrs := a } (strRecord .symlink tg ++ x) = .done (.symlink tg) (strRecord .symlink tg).length := by
  have hmax : u64max = 2 ^ 64 - 1 := by decide
  have hpos := List.length_pos_iff.2 hne
  have hvt : validateTarget (tg ++ [0]) = true := by
    unfold validateTarget
    have : (tg ++ [0]).length = tg.length + 1 := by simp
    rw [if_neg (by omega), if_neg (by rw [getLast_append]; simp), List.dropLast_concat, if_neg]
    · simp; omega
    · rw [any_false_iff.2]
      · simp
      · intro y hy
        have : y ≠ 0 := fun e => hz (e ▸ hy)
        simpa using this
  have hf' := (validateFeatureFlags_again hv).2.1
  rw [strRecord_length]
  have := headRec_end (d := f') (st := { entry := some e, attrs := a }) (r := .symlink) (body := tg ++ [0]) (t := .symlink tg) x
    (by rw [List.length_append]; simp; omega) rfl (by decide) (by simp [pre, hlnk]; omega)
    (by simp only [acceptEnd, hf', hw, hvt, List.dropLast_concat]; rfl)
  rw [show 17 + tg.length = termSize (.symlink tg) by simp only [termSize]; omega]
  exact this

theorem tail_device {ff : Word} {f f' : FF} {e : Entry} {a : Attrs} {ma mi : Nat} (hv : validateFeatureFlags f ff = some f')
    (hdev : isType e.mode ifChr = true ∨ isType e.mode ifBlk = true) (hw : has ff withDeviceNodes = true) (h1 : ma < 2 ^ 12) (h2 : mi < 2 ^ 20) (x : Bytes) :
    headRec f' { entry := some e, attrs := a } (record .device (le64 ma ++ le64 mi) ++ x) = .done (.device ma mi) (record .device (le64 ma ++ le64 mi)).length := by
  have hmax : u64max = 2 ^ 64 - 1 := by decide
  have hf' := (validateFeatureFlags_again hv).2.1
  have hdl : (le64 ma ++ le64 mi).length = 16 := by simp only [List.length_append, le64_length]
  have w0 : word 0 (le64 ma ++ le64 mi) = ma := word_zero (by omega) _
  have w1 : word 1 (le64 ma ++ le64 mi) = mi := by
    have := word_one (a := ma) (show mi < 2 ^ 64 by omega) []
    rwa [List.append_nil] at this
  rw [record_length, hdl]
  generalize le64 ma ++ le64 mi = body at *
  exact headRec_end (d := f') (st := { entry := some e, attrs := a }) (r := .device) (body := body) (t := .device ma mi) x
    (by omega) rfl (by decide) (by rcases hdev with h | h <;> simp [pre, h, hdl])
    (by simp [acceptEnd, validateDevice, hf', hw, w0, w1]; omega)

theorem dir_follow {ff : Word} {s : Tree} (hS : Storable ff s) (hd : s.isDir = true) {A y : Bytes} {off : Nat} (h : Placed q A s off y) (hl : A.length < 2 ^ 62) :
    DirNext ((kenc q off s).1 ++ (gbytes q off s ++ y)) := by
  have h1 := h.dist hd
  have h4 : gst q off s = off + ((headBytes s).length + (kenc q off s).1.length) := rfl
  refine dirNext_kids q s.kids (kstart off s) _ (ff := ff) ?_ (h.dirNext hd hl) ?_
  · cases s with
    | dir e a api k =>
      cases api with
      | false => rw [Storable] at hS; exact hS.2.2
      | true => unfold Tree.kids; rw [StorableKids]; trivial
    | file e a api k => cases hd
    | symlink e a b => cases hd
    | device e a x y => cases hd
    | special e a => cases hd
  · have : (encKids q (kstart off s) s.kids).1.length = (kenc q off s).1.length := rfl
    omega

/-- An object the records of which can be read. -/
structure Parsed.Of (p : Parsed) (s : Tree) : Prop where
  entry : p.entry = s.entry
  attrs : p.attrs = s.attrs
  shown : p.term.shown = s.shown

/-- The records of an object in the archive of a tree. -/
theorem parse_tree {ff : Word} (hkn : ff &&& ~~~flagsMax = 0#64) {f f' : FF} (hv : validateFeatureFlags f ff = some f') {s : Tree} (hS : Storable ff s)
    {A y : Bytes} {off : Nat} (h : Placed q A s off y) (hl : A.length < 2 ^ 62) {root : Bool} (hf : s.isDir = true ∨ (root = false ∧ DirNext y)) :
    ∃ p, parseEntry f root (A.drop off) = (f', .ok (p, (headBytes s).length)) ∧ p.Of s := by
  have hmax : u64max = 2 ^ 64 - 1 := by decide
  have hle := h.le
  by_cases hd : s.isDir = true
  · obtain ⟨t, ht, hrec⟩ := dir_follow hS hd h hl f' { entry := some s.entry, attrs := s.attrs } rfl
    have hsh : t.shown = .nothing := shown_dir ht
    have ho : ObjOK ff s.entry s.attrs ∧ isType s.entry.mode ifDir = true ∧ headBytes s = entryBytes s.entry ++ attrsBytes s.attrs ∧ s.shown = .nothing := by
      cases s with
      | dir e a api k =>
        rw [Storable] at hS
        refine ⟨hS.1, hS.2.1, ?_, rfl⟩
        unfold headBytes tailBytes; rw [List.append_nil]
      | file e a api k => cases hd
      | symlink e a b => cases hd
      | device e a x y => cases hd
      | special e a => cases hd
    have hp := parseEntry_head ho.1 (.inr (.inl ho.2.1)) hv hkn (TermFor.dir (root := root) (t := t) ho.2.1 ht) (k := 0) hrec
    rw [← List.append_assoc, ← ho.2.2.1, Nat.add_zero, ← List.append_assoc, ← List.append_assoc, List.append_assoc (headBytes s), ← encTree_dir hd] at hp
    unfold Placed at h
    rw [h]
    exact ⟨_, hp, ⟨rfl, rfl, hsh.trans ho.2.2.2.symm⟩⟩
  · obtain ⟨hroot, hn⟩ := hf.resolve_left hd
    unfold Placed at h
    rw [h]
    cases s with
    | dir e a api k => exact absurd rfl hd
    | file e a api b =>
      rw [Storable] at hS
      obtain ⟨ho, hreg⟩ := hS
      unfold encTree at hle ⊢
      rw [List.length_append] at hle
      have hp := parseEntry_head ho (.inl hreg) hv hkn (TermFor.file (root := root) (n := (stored api b).length) hreg hroot)
        (headRec_payload (stored api b ++ y) (by omega) hreg)
      refine ⟨⟨e, a, .payload (stored api b).length⟩, ?_, ⟨rfl, rfl, rfl⟩⟩
      unfold headBytes tailBytes
      rw [List.length_append (as := entryBytes _ ++ attrsBytes _), show (header (16 + (stored api b).length) .payload).length = 16 by unfold header; simp only [List.length_append, le64_length]]
      simpa only [List.append_assoc, Tree.entry, Tree.attrs] using hp
    | symlink e a tg =>
      rw [Storable] at hS
      obtain ⟨ho, hlnk, hw, hne, hz, hln⟩ := hS
      unfold encTree
      have hp := parseEntry_head ho (.inr (.inr (.inr (.inr (.inr ⟨hlnk, hw⟩))))) hv hkn (TermFor.symlink (root := root) hlnk hroot)
        (tail_symlink hv hlnk hw hne hz hln y)
      refine ⟨⟨e, a, .symlink tg⟩, ?_, ⟨rfl, rfl, rfl⟩⟩
      unfold headBytes tailBytes
      rw [List.length_append (as := entryBytes _ ++ attrsBytes _)]
      simpa only [List.append_assoc, Tree.entry, Tree.attrs] using hp
    | device e a ma mi =>
      rw [Storable] at hS
      obtain ⟨ho, hdev, hw, h1, h2⟩ := hS
      unfold encTree
      have hp := parseEntry_head ho (.inr (.inr (.inr (.inr (.inl ⟨hdev.symm, hw⟩))))) hv hkn (TermFor.device (root := root) hdev hroot)
        (tail_device hv hdev hw h1 h2 y)
      refine ⟨⟨e, a, .device ma mi⟩, ?_, ⟨rfl, rfl, rfl⟩⟩
      unfold headBytes tailBytes
      rw [List.length_append (as := entryBytes _ ++ attrsBytes _)]
      simpa only [List.append_assoc, Tree.entry, Tree.attrs] using hp
    | special e a =>
      rw [Storable] at hS
      obtain ⟨ho, hsp⟩ := hS
      obtain ⟨t, ht, hrec⟩ := hn f' { entry := some e, attrs := a } rfl
      have hT : isType e.mode ifFifo = true ∨ isType e.mode ifSock = true := by
        rcases hsp with ⟨h, _⟩ | ⟨h, _⟩
        · exact .inl h
        · exact .inr h
      unfold encTree
      have hp := parseEntry_head ho (by
        rcases hsp with h | h
        · exact .inr (.inr (.inr (.inl h)))
        · exact .inr (.inr (.inl h))) hv hkn (TermFor.special (root := root) hT hroot ht) hrec
      refine ⟨⟨e, a, t⟩, ?_, ⟨rfl, rfl, shown_dir ht⟩⟩
      unfold headBytes tailBytes
      rw [List.append_nil]
      simpa only [List.append_assoc, Tree.entry, Tree.attrs, Nat.add_zero] using hp

end Casync.Archive
