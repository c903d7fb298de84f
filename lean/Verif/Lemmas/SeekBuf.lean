import Verif.Lemmas.SeekStack
/-!
Reading records from the buffer of a decoder at a place of the archive of a tree.
-/
namespace Casync.Archive
open Casync Flags

variable {q : List Goodbye.NameItem → List Goodbye.NameItem} {A : Bytes} {t : Tree} {ff : Word} {f' : FF}

/-- The buffer holds what comes next in the archive; if the end has been signalled, all of it. -/
structure BufOK (A : Bytes) (c : Dec) : Prop where
  at_ : ∃ z, A.drop c.archiveOff = c.buf ++ z ∧ (c.eof = true → z = [])
  size : c.stepSize ≤ c.buf.length

theorem BufOK.advance {c : Dec} (h : BufOK A c) : BufOK A (Archive.advance c) := by
  obtain ⟨z, h1, h2⟩ := h.at_
  refine ⟨⟨z, ?_, h2⟩, Nat.zero_le _⟩
  show A.drop (c.archiveOff + c.stepSize) = c.buf.drop c.stepSize ++ z
  rw [← List.drop_drop, h1, List.drop_append_of_le_length h.size]

theorem BufOK.put {c c' : Dec} {p : Bytes} (h : BufOK A c) (hp : p <+: A.drop (c.archiveOff + c.buf.length)) (h2 : putData c p = .ok c') : BufOK A c' := by
  unfold putData at h2
  by_cases h0 : p = []
  · rw [if_pos h0] at h2; injection h2 with h2; rw [← h2]; exact h
  rw [if_neg h0] at h2
  by_cases he : c.eof = true
  · rw [if_pos he] at h2; cases h2
  rw [if_neg he] at h2
  injection h2 with h2
  subst h2
  obtain ⟨z, h1, _⟩ := h.at_
  obtain ⟨w, hw⟩ := hp
  refine ⟨⟨w, ?_, fun h => absurd h he⟩, ?_⟩
  · show A.drop c.archiveOff = c.buf ++ p ++ w
    have : A.drop (c.archiveOff + c.buf.length) = z := by rw [← List.drop_drop, h1, List.drop_left]
    rw [h1, List.append_assoc, hw, this]
  · show c.stepSize ≤ (c.buf ++ p).length
    have := h.size
    rw [List.length_append]; omega

theorem BufOK.putEof {c : Dec} (h : BufOK A c) (hp : A.drop (c.archiveOff + c.buf.length) = []) : BufOK A (putEof c) := by
  obtain ⟨z, h1, _⟩ := h.at_
  have : A.drop (c.archiveOff + c.buf.length) = z := by rw [← List.drop_drop, h1, List.drop_left]
  exact ⟨⟨z, h1, fun _ => by rw [← this, hp]⟩, h.size⟩

theorem parse_of_not_request {b z : Bytes} {r : DirRec × Nat} (h : parseDirRec (b ++ z) = .ok r) : parseDirRec b = .request ∨ parseDirRec b = .ok r := by
  by_cases hr : parseDirRec b = .request
  · exact .inl hr
  · right; rw [← parseDirRec_append z hr, h]

/-- A record of a directory. -/
theorem BufOK.dirRec {c : Dec} (h : BufOK A c) {r : DirRec × Nat} (hw : parseDirRec (A.drop c.archiveOff) = .ok r) :
    (parseDirRec c.buf = .request ∧ c.eof = false) ∨ parseDirRec c.buf = .ok r := by
  obtain ⟨z, h1, h2⟩ := h.at_
  rw [h1] at hw
  cases he : c.eof with
  | false => rcases parse_of_not_request hw with h | h
             · exact .inl ⟨h, rfl⟩
             · exact .inr h
  | true =>
    rw [h2 he, List.append_nil] at hw
    exact .inr hw

theorem parseEntry_flags {d d' d1 : FF} {root : Bool} {b x : Bytes} {r : Parsed × Nat} (h : parseEntry d root b = (d1, .request))
    (hw : parseEntry d root (b ++ x) = (d', .ok r)) : d1 = d ∨ d1 = d' := by
  have h1 : parseLoop d {} 0 b = (d1, .request) := by
    unfold parseEntry at h
    generalize hp : parseLoop d {} 0 b = p at h
    obtain ⟨e1, r1⟩ := p
    cases r1 with
    | request => simp only at h; injection h with h _; rw [h]
    | err e => simp only at h; injection h with _ h2; cases h2
    | ok a =>
      obtain ⟨st, tm, off⟩ := a
      simp only at h
      cases hst : st.entry with
      | none => rw [hst] at h; injection h with _ h2; cases h2
      | some e =>
        rw [hst] at h
        simp only at h
        split at h
        · injection h with _ h2; cases h2
        · injection h with _ h2; cases h2
  have h2 : (parseLoop d {} 0 (b ++ x)).1 = d' := by
    unfold parseEntry at hw
    generalize hp : parseLoop d {} 0 (b ++ x) = p at hw
    obtain ⟨e1, r1⟩ := p
    cases r1 with
    | request => simp only at hw; injection hw with _ h2
    | err e => simp only at hw; injection hw with _ h2
    | ok a =>
      obtain ⟨st, tm, off⟩ := a
      simp only at hw
      cases hst : st.entry with
      | none => rw [hst] at hw; injection hw with _ h2
      | some e =>
        rw [hst] at hw
        simp only at hw
        split at hw
        · injection hw
        · injection hw with _ h2
  rw [parseLoop_eq] at h1
  cases hh : headRec d {} b with
  | request => rw [hh] at h1; injection h1 with h1 _; exact .inl h1.symm
  | err e => rw [hh] at h1; injection h1 with _ h1; cases h1
  | done a k => rw [hh] at h1; injection h1 with _ h1; cases h1
  | more d2 st l =>
    right
    rw [hh] at h1
    simp only at h1
    obtain ⟨hl, hl1, hl2, r, hr, hp, hends, ha⟩ := headRec_more hh
    have hre := pre_first rfl hp
    subst hre
    obtain ⟨ha1, ha2⟩ := accept_entry ha
    have e1 := parseLoop_ff (b.drop l).length d2 st (0 + l) (b.drop l) (Nat.le_refl _) (by rw [ha2]; rfl)
    rw [h1] at e1
    simp only at e1
    rw [parseLoop_eq, headRec_append _ _ _ _ (by rw [hh]; simp), hh] at h2
    simp only at h2
    rw [parseLoop_ff _ d2 st (0 + l) ((b ++ x).drop l) (Nat.le_refl _) (by rw [ha2]; rfl)] at h2
    rw [e1, h2]

/-- The records of an object. -/
theorem BufOK.entryRec {c : Dec} (h : BufOK A c) {f f1 : FF} {root : Bool} {r : Parsed × Nat} (hw : parseEntry f root (A.drop c.archiveOff) = (f1, .ok r)) :
    (∃ f2, parseEntry f root c.buf = (f2, .request) ∧ (f2 = f ∨ f2 = f1) ∧ c.eof = false) ∨ parseEntry f root c.buf = (f1, .ok r) := by
  obtain ⟨z, h1, h2⟩ := h.at_
  rw [h1] at hw
  generalize hp : parseEntry f root c.buf = p
  obtain ⟨f2, r2⟩ := p
  by_cases hr : r2 = .request
  · subst hr
    cases he : c.eof with
    | false => exact .inl ⟨f2, rfl, parseEntry_flags hp hw, rfl⟩
    | true => rw [h2 he, List.append_nil, hp] at hw; exact .inr hw
  · rw [parseEntry_append z hp hr] at hw
    exact .inr hw

/-- The next entry of a directory, or none. -/
theorem KidsAt.next {z : Bytes} {K : Kids} : ∀ {k : Kids} {off : Nat}, KidsAt q A off k z → Suf k K →
    (∃ nm s' r, Suf (.cons true nm s' r) K ∧ KidsAt q A off (.cons true nm s' r) z ∧ k.listed = (nm, s') :: r.listed) ∨ (A.drop off = z ∧ k.listed = [])
  | .nil, off, h, _ => by
    right
    unfold KidsAt at h
    rw [encKids, List.nil_append] at h
    exact ⟨h, by rw [Kids.listed]⟩
  | .cons true nm s' r, off, h, hs => .inl ⟨nm, s', r, hs, h, by rw [Kids.listed]⟩
  | .cons false nm s' r, off, h, hs => by
    rw [Kids.listed]
    exact KidsAt.next h.skip hs.tail

theorem drop_inj {a b : Nat} {z : Bytes} (h1 : A.drop a = z) (h2 : A.drop b = z) (hz : z ≠ []) : a = b := by
  have l1 := congrArg List.length h1
  have l2 := congrArg List.length h2
  rw [List.length_drop] at l1 l2
  have := List.length_pos_iff.2 hz
  omega

theorem gbytes_ne (off : Nat) (s : Tree) (y : Bytes) : gbytes q off s ++ y ≠ [] := by
  intro e
  have := congrArg List.length e
  rw [List.length_append, gbytes_length] at this
  simp at this

/-- The name of an entry. -/
theorem KidsAt.parse {s : Tree} {off : Nat} {nm : Bytes} {s' : Tree} {r : Kids} {z : Bytes} (hk : KidsAt q A off (.cons true nm s' r) z) (hS : Storable ff s)
    (hsuf : Suf (.cons true nm s' r) s.kids) (hl : A.length < 2 ^ 62) : SafeName nm ∧ parseDirRec (A.drop off) = .ok (.filename nm, 17 + nm.length) := by
  have hst := hsuf.storable (Tree.kids_storable hS)
  rw [StorableKids] at hst
  have h1 := hk.here.1
  have hlen := congrArg List.length h1
  rw [List.length_append, strRecord_length, List.length_drop] at hlen
  refine ⟨hst.1, ?_⟩
  rw [h1, parseDirRec_filename hst.1 (by omega), strRecord_length]

/-- One step in a directory. -/
theorem dirBody_spec (hc : Ctx q A t ff f') {c : Dec} {n : DNode} {ns : List DNode} {exts : List NX} {s : Tree} {path : List Bytes} {y : Bytes} (hb : BufOK A c)
    (hn : c.nodes = n :: ns) (hs : Stack q A t (n :: ns) exts s path y) (hd : s.isDir = true) {k : Kids} (hk : KidsAt q A c.archiveOff k (gbytes q n.entryOff s ++ y))
    (hsuf : Suf k s.kids) :
    (dirBody c = (c, .ok .request) ∧ c.eof = false) ∨
    (∃ nm s' r n', (n' = n ∨ n' = { n with dirents := n.dirents ++ [nm] }) ∧ Suf (.cons true nm s' r) s.kids ∧
      KidsAt q A c.archiveOff (.cons true nm s' r) (gbytes q n.entryOff s ++ y) ∧ k.listed = (nm, s') :: r.listed ∧ 17 + nm.length ≤ c.buf.length ∧
      dirBody c = (setStep (enterState { c with nodes := { name := some nm, entryOff := c.archiveOff + (17 + nm.length) } :: n' :: ns } .entered) (17 + nm.length), .ok .step)) ∨
    (c.archiveOff = gst q n.entryOff s ∧ k.listed = [] ∧ (gbytes q n.entryOff s).length ≤ c.buf.length ∧ bufRows c = some (grows q n.entryOff s) ∧
      dirBody c = (setStep (enterState c .goodbye) (gbytes q n.entryOff s).length, .ok .step)) := by
  have hf := hs.facts hc
  have hp := hf.placed n ns rfl
  rcases hk.next hsuf with ⟨nm, s', r, h1, h2, h3⟩ | ⟨h1, h2⟩
  · obtain ⟨hsafe, hpa⟩ := h2.parse hf.storable h1 hc.small
    rcases hb.dirRec hpa with ⟨hr, he⟩ | hr
    · left
      refine ⟨?_, he⟩
      unfold dirBody
      rw [hn]
      simp only [hr]
    · right; left
      have hsz := (parseDirRec_size hr).2
      have hhe := h1.height
      have hkh := s.kids_height
      have hfh := hf.height
      have hh := hc.height
      have hl := hf.len
      have hs' := s'.height_pos
      rw [Kids.height] at hhe
      have hmax : nodesMax = 64 := rfl
      have hno : ¬ (n :: ns).length ≥ nodesMax := by omega
      refine ⟨nm, s', r, if c.cfg.delete then { n with dirents := n.dirents ++ [nm] } else n, ?_, h1, h2, h3, hsz, ?_⟩
      · split
        · exact .inr rfl
        · exact .inl rfl
      · unfold dirBody
        rw [hn]
        simp only [hr]
        rw [if_neg hno]
  · have hgoff : c.archiveOff = gst q n.entryOff s := drop_inj h1 (hp.goodbye hd) (gbytes_ne _ _ _)
    have hpa := hp.parseGoodbye hd hc.small
    rw [← hgoff] at hpa
    rcases hb.dirRec hpa with ⟨hr, he⟩ | hr
    · left
      refine ⟨?_, he⟩
      unfold dirBody
      rw [hn]
      simp only [hr]
    · right; right
      have hsz := (parseDirRec_size hr).2
      refine ⟨hgoff, h2, hsz, ?_, ?_⟩
      · unfold bufRows
        rw [hr]
        simp only
        rw [hp.rows hd hc.sorts hc.small]
      · unfold dirBody
        rw [hn]
        simp only [hr]
        rw [if_neg (by simp)]

end Casync.Archive
