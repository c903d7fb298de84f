import Verif.Lemmas.SeekHunt
/-!
The steps of a seek in the archive of a tree.
-/
namespace Casync.Archive
open Casync Flags

variable {q : List Goodbye.NameItem → List Goodbye.NameItem} {A : Bytes} {t : Tree} {ff : Word} {f' : FF}

/-- The type of a record of a directory. -/
def recType : DirRec → Option RType
  | .filename _ => some .filename
  | .goodbye _ _ => some .goodbye

/-- May the record be there? -/
def mayBe (tg : Target) : DirRec → Prop
  | .filename _ => tg ≠ .goodbye
  | .goodbye _ _ => tg ≠ .filename

theorem parse_rtype {b : Bytes} {r : DirRec} {l : Nat} (h : parseDirRec b = .ok (r, l)) :
    rtype (word 1 b) = recType r := by
  unfold parseDirRec at h
  by_cases h1 : b.length < 16
  · rw [if_pos h1] at h; cases h
  rw [if_neg h1] at h
  simp only at h
  by_cases h2 : word 0 b < 16
  · rw [if_pos h2] at h; cases h
  rw [if_neg h2] at h
  by_cases h3 : (word 0 b == u64max) = true
  · rw [if_pos h3] at h; cases h
  rw [if_neg h3] at h
  split at h
  · rename_i he
    rw [he]
    split at h
    · cases h
    split at h
    · cases h
    split at h
    · cases h
    · injection h with h; injection h with h _; rw [← h]; rfl
  · rename_i he
    rw [he]
    split at h
    · cases h
    split at h
    · cases h
    split at h
    · cases h
    · injection h with h; injection h with h _; rw [← h]; rfl
  · cases h

theorem word_prefix {i : Nat} {b z : Bytes} (h : 8 * i + 8 ≤ b.length) : word i (b ++ z) = word i b := by
  unfold word
  rw [List.drop_append_of_le_length (by omega), List.take_append_of_le_length (by rw [List.length_drop]; omega)]

/-- The record at a place of the archive has one type. -/
theorem BufOK.right {c : Dec} (h : BufOK A c) {r : DirRec} {l : Nat} (hw : parseDirRec (A.drop c.archiveOff) = .ok (r, l)) (tg : Target)
    (hr : mayBe tg r) : wrongRecord tg c.buf = false := by
  unfold wrongRecord
  by_cases hl : 16 ≤ c.buf.length
  · obtain ⟨z, h1, _⟩ := h.at_
    have h2 := parse_rtype hw
    rw [h1, word_prefix (by omega)] at h2
    rw [h2]
    cases r with
    | filename nm => have hr : tg ≠ .goodbye := hr; simp [recType, hr]
    | goodbye a b => have hr : tg ≠ .filename := hr; simp [recType, hr]
  · simp [hl]

theorem TargetOK.same {d e : SDec} {g : Goal} {goal : List Bytes} {tg : Target} {o : Nat} (h : TargetOK q A t ff f' d g goal tg o) (h1 : e.core.nodes = d.core.nodes) (h2 : e.exts = d.exts)
    (h3 : e.below = d.below) (h4 : e.core.cfg = d.core.cfg) (h6 : e.core.ff = d.core.ff) (h7 : BufOK A e.core) (h8 : e.path = d.path) (h9 : e.sibling = d.sibling) (h10 : e.pay = d.pay)
    (h11 : e.idx = d.idx) (h12 : e.endOff = d.endOff) : TargetOK q A t ff f' e g goal tg o := by
  cases h with
  | entry h a b => exact .entry (h.same h1 h2 h3 h4 h6 h7 h8 h9 h10 h11) a b
  | payload h a b c d e' => exact .payload (h.same h1 h2 h3 h4 h6 h7 h8 h9 h10 h11) a b c d e'
  | filename h a b c d' e' f g' => exact .filename (h.same h1 h2 h3 h4 h6 h7 h8 h9 h10 h11) a b c d' e' (by rw [h11]; exact f) (h12.trans g')
  | goodbye h a b c d' => exact .goodbye (h.same h1 h2 h3 h4 h6 h7 h8 h9 h10 h11) a b c d'
  | goodbyeTail h a b c d' => exact .goodbyeTail (h.same h1 h2 h3 h4 h6 h7 h8 h9 h10 h11) a b c d'
  | nextSibling hb hcur a b c d' e' f g' =>
    exact .nextSibling (hb.same h1 h2 h3 (by rw [h4]) (by rw [h4]) h6 h7) ⟨h1.trans hcur.nodes, h2.trans hcur.exts, hcur.stack⟩ a b c d' (by show e.core.cfg.boundary ≤ _; rw [h4]; exact e') f g'

/-- The mode that the preparation of a seek checks. -/
theorem TargetOK.mode (hc : Ctx q A t ff f') {d : SDec} {g : Goal} {goal : List Bytes} {tg : Target} {o : Nat} (h : TargetOK q A t ff f' d g goal tg o) (ht : tg ≠ .entry) :
    ∃ m, curMode d = some m ∧ isType m (if tg = .payload then ifReg else ifDir) = true := by
  have dir : ∀ {n ns x xs s path y}, Cur q A t d n ns x xs s path y → s.isDir = true → (sMode n x).isSome = true → ∃ m, curMode d = some m ∧ isType m ifDir = true := by
    intro n ns x xs s path y hcur hd hm
    obtain ⟨_, _, _, _, e1, e2, hno⟩ := hcur.stack.head
    injection e1 with e1 _
    injection e2 with e2 _
    subst e1 e2
    obtain ⟨m, hm⟩ := Option.isSome_iff_exists.1 hm
    refine ⟨m, ?_, ?_⟩
    · unfold curMode; rw [hcur.nodes, hcur.exts]; exact hm
    · rw [sMode_dir (hcur.stack.facts hc).storable hno hm, hd]
  cases h with
  | entry => exact absurd rfl ht
  | @payload n ns x xs s path y p e a api b k h _ _ hs hp =>
    have hcur := h.cur
    obtain ⟨_, _, _, _, e1, e2, hno⟩ := hcur.stack.head
    injection e1 with e1 _
    injection e2 with e2 _
    subst e1 e2
    obtain ⟨p, hp⟩ := Option.isSome_iff_exists.1 hp
    refine ⟨p.entry.mode, ?_, ?_⟩
    · unfold curMode; rw [hcur.nodes, hcur.exts]; show sMode n x = _; unfold sMode; rw [hp]
    · rw [if_pos rfl, (hno.parsed p hp).entry]
      have hS := (hcur.stack.facts hc).storable
      rw [hs] at hS ⊢
      rw [Storable] at hS
      exact hS.2
  | filename h _ a b => exact dir h.cur a b
  | goodbye h _ a b => exact dir h.cur a b
  | goodbyeTail h _ a b => exact dir h.cur a b
  | nextSibling _ h _ _ a b => exact dir h a b

theorem bufOK_empty (A : Bytes) (c : Dec) (o : Nat) : BufOK A { c with archiveOff := o, stepSize := 0, eof := false, buf := [] } :=
  ⟨⟨A.drop o, rfl, fun h => nomatch h⟩, Nat.zero_le _⟩

/-- The preparation of a seek. -/
theorem prep_good (hc : Ctx q A t ff f') {d : SDec} {g : Goal} {goal : List Bytes} {tg : Target} {o : Nat} (h : TargetOK q A t ff f' d g goal tg o) (ho : d.off = some o) :
    SGood (OK q A t ff f') (t.answer (stopDepth d) goal g) (stepSeek d (.prep tg)) := by
  have hok : OK q A t ff f' (applySeek (setMode d (.seeking tg)) o) (t.answer (stopDepth d) goal g) := by
    refine .inr (.seeking (tg := tg) (g := g) (goal := goal) rfl ?_)
    exact h.same rfl rfl rfl rfl rfl (bufOK_empty A _ o) rfl rfl rfl rfl rfl
  by_cases he : tg = .entry
  · subst he
    unfold stepSeek
    simp only [ho]
    exact .seek hok
  · obtain ⟨m, h1, h2⟩ := h.mode hc he
    have : stepSeek d (.prep tg) = (applySeek (setMode d (.seeking tg)) o, .ok .seek) := by
      unfold stepSeek
      cases tg with
      | entry => exact absurd rfl he
      | _ => simp at h2; simp [h1, ho, h2]
    rw [this]
    exact .seek hok

/-- The goal is at hand: the entry. -/
theorem seekingEntry_good (hc : Ctx q A t ff f') {d : SDec} {g : Goal} {goal : List Bytes} (h : TargetOK q A t ff f' d g goal .entry d.core.archiveOff) :
    SGood (OK q A t ff f') (t.answer (stopDepth d) goal g) (stepSeek d (.seeking .entry)) := by
  generalize ho : d.core.archiveOff = o at h
  cases h with
  | @entry n ns x xs s path y p h hg hcomp =>
    have hf := h.cur.stack.facts hc
    have hgoal : path = goal := by have := h.way; rw [hcomp, List.append_nil] at this; exact this
    have hlen := hf.len
    unfold stepSeek
    refine .found (l' := (events path s).map SAtom.seen) ?_ (.inl (POK.mk (own := events path s) (h.base.same rfl rfl rfl rfl rfl rfl ⟨h.base.buf.at_, Nat.zero_le _⟩) rfl
      ⟨h.cur.nodes, h.cur.exts, h.cur.stack⟩ (.enter (.inr rfl) h.below ?_ ho) ?_))
    · show _ = Answer.see (.found (pathOf d.core.nodes) :: _)
      rw [h.cur.nodes, hf.names, hg, ← hgoal]
      unfold Tree.answer
      simp only [hf.find]
    · show d.core.nodes.length - 1 ≤ _
      rw [h.cur.nodes, hlen]
      omega
    · show _ = Answer.see ((_ ++ t.after (d.core.nodes.length - 1) _).map SAtom.seen)
      rw [after_stop (by rw [h.cur.nodes, hlen]; exact Nat.le_refl _), List.append_nil]

/-- The goal is at hand: a place in a file. -/
theorem seekingPayload_good (hc : Ctx q A t ff f') {d : SDec} {g : Goal} {goal : List Bytes} (h : TargetOK q A t ff f' d g goal .payload d.core.archiveOff) :
    SGood (OK q A t ff f') (t.answer (stopDepth d) goal g) (stepSeek d (.seeking .payload)) := by
  generalize ho : d.core.archiveOff = o at h
  cases h with
  | @payload n ns x xs s path y p e a api b k h hg hcomp hs hpar hle =>
    have hf := h.cur.stack.facts hc
    have hgoal : path = goal := by have := h.way; rw [hcomp, List.append_nil] at this; exact this
    have hpay : d.pay = some k := by rw [h.pay, hg]; rfl
    unfold stepSeek
    rw [hpay]
    simp only
    have hstep : ∀ c : Dec, c.state = .inPayload → stepNode c = stepPayload c := by intro c hc; unfold stepNode; rw [hc]
    rw [hstep _ rfl]
    have hb' : Base q A t ff f' (setPlain (resetSeek d) .inPayload) := h.base.same rfl rfl rfl rfl rfl rfl ⟨h.base.buf.at_, Nat.zero_le _⟩
    have := payload_good hc (d := setPlain (resetSeek d) .inPayload) (c := { (setPlain (resetSeek d) .inPayload).core with payloadOff := k }) hb' rfl
      ⟨h.cur.nodes, h.cur.exts, h.cur.stack⟩ hs hpar hle ho rfl ⟨h.base.buf.at_, Nat.zero_le _⟩ rfl rfl rfl rfl rfl
    refine SGood.mono (fun _ _ h => .inl h) ?_
    have hans : t.answer (stopDepth d) goal g = .see ((((stored api b).drop k).map Atom.byte ++ [Atom.doneFile path] ++ t.after (stopDepth d) path.reverse).map SAtom.seen) := by
      rw [hg, ← hgoal]
      unfold Tree.answer
      simp only [hf.find, hs]
      rw [if_neg (by omega), List.append_assoc]
      rfl
    rw [hans]
    exact this

end Casync.Archive
