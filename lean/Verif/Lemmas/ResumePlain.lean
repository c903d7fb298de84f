import Verif.Lemmas.ResumeHist
/-!
Every encoder that was moved by seeks is, up to the position in the current record, one that was not; and an encoder without seeks is at each place only once.
-/
namespace Casync.Resume
open Casync Archive

/-! ### What is left to do -/

mutual
def treeSize : Tree → Nat
  | .file _ _ _ _ => 0
  | .symlink _ _ _ => 0
  | .device _ _ _ _ => 0
  | .special _ _ => 0
  | .dir _ _ _ k => kidsSize k
def kidsSize : Kids → Nat
  | .nil => 0
  | .cons _ _ t r => treeSize t + 10 + kidsSize r
end

def upSize : List ENode → Nat
  | [] => 0
  | p :: us => 5 + kidsSize p.kids.tail + upSize us

def topSize (st : EState) (n : ENode) : Nat :=
  match st with
  | .init => 10 + kidsSize n.kids
  | .entered => 9 + kidsSize n.kids
  | .entry => 8 + kidsSize n.kids
  | .inPayload => 7
  | .nextDirent => 7 + kidsSize n.kids.tail
  | .firstDirent => 7 + kidsSize n.kids
  | .filename => 6 + kidsSize n.kids
  | .goodbye => 4
  | .finalize => 3
  | .eof => 0

def msr (e : Enc) : Nat :=
  match e.nodes with
  | [] => 0
  | n :: us => topSize e.state n + upSize us

theorem msr_canon (e : Enc) : msr (canon e) = msr e := by
  unfold canon msr
  cases hs : e.state <;> cases hn : e.nodes <;> simp [trim, topSize]

/-- The length of the record, from its beginning. -/
def recLen (q : List Goodbye.NameItem → List Goodbye.NameItem) (e : Enc) : Nat :=
  match e.state, e.nodes with
  | .inPayload, n :: _ => (match n.tree with | .file _ _ _ c => c.length | _ => 0)
  | _, _ => (match makeData q e none with | .ok x => x.length | _ => 0)

/-- The encoder after the record. -/
def full (q : List Goodbye.NameItem → List Goodbye.NameItem) (e : Enc) : Enc :=
  { e with payloadOff := e.payloadOff + recLen q e, archiveOff := e.archiveOff + recLen q e, buf := [] }

/-- From one record to the next one. -/
def Next (q : List Goodbye.NameItem → List Goodbye.NameItem) (e f : Enc) : Prop :=
  e.state ≠ .eof ∧ ∃ e' ev, eStep (full q e) = (e', .ok ev) ∧ canon e' = f

section
variable {q : List Goodbye.NameItem → List Goodbye.NameItem}

theorem kidsSize_tail (k : Kids) : kidsSize k.tail ≤ kidsSize k := by
  cases k with
  | nil => exact Nat.le_refl _
  | cons a b t r => unfold Kids.tail; simp only [kidsSize]; omega

theorem kidsSize_skip : ∀ k : Kids, kidsSize (skipKids k) ≤ kidsSize k
  | .nil => Nat.le_refl _
  | .cons true _ _ _ => Nat.le_refl _
  | .cons false _ t r => by
    have := kidsSize_skip r
    unfold skipKids
    simp only [kidsSize]
    omega

theorem freshNode_size (t : Tree) : kidsSize (freshNode t).kids = treeSize t := by
  cases t <;> simp [freshNode, treeSize, kidsSize]

theorem dirents_msr {e e' : Enc} {n : ENode} {rest : List ENode} {ev : EEv} (h : Archive.stepDirents e n rest = (e', .ok ev)) : msr e' ≤ 6 + kidsSize n.kids + upSize rest := by
  unfold Archive.stepDirents at h
  split at h
  · injection h with h _
    subst h
    simp [msr, eEnter, setTop, topSize]
    omega
  · split at h
    · injection h with _ h; cases h
    · split at h
      · injection h with h _
        subst h
        simp [msr, eEnter, setTop, topSize]
        omega
      · rename_i hk
        injection h with h _
        subst h
        have := kidsSize_skip n.kids
        rw [hk] at this
        simp only [msr, eEnter, setTop, topSize]
        omega

theorem entered_msr {e e' : Enc} {n : ENode} {rest : List ENode} {ev : EEv} (hn : e.nodes = n :: rest) (h : Archive.stepEntered e = (e', .ok ev)) : msr e' = 8 + kidsSize n.kids + upSize rest := by
  unfold Archive.stepEntered at h
  rw [hn] at h
  simp only at h
  injection h with h _
  subst h
  simp only [msr, eEnter, setTop, topSize]
  unfold enteredNode
  split <;> rfl

theorem payload_msr {e e' : Enc} {n : ENode} {rest : List ENode} {ev : EEv} (hn : e.nodes = n :: rest) (hs : e.state = .inPayload) (h : stepEPayload e = (e', .ok ev)) :
    msr e' ≤ 7 + upSize rest ∧ ((∀ a b c d, n.tree = .file a b c d → d.length ≤ e.payloadOff) → msr e' < 7 + upSize rest) := by
  unfold stepEPayload at h
  rw [hn] at h
  simp only at h
  split at h
  · rename_i ht
    split at h
    · split at h
      · injection h with h _
        subst h
        simp [msr, eEnter, hn, topSize]
      · injection h with h _
        subst h
        simp [msr, eEnter, hn, topSize]
    · rename_i hlt
      injection h with h _
      subst h
      refine ⟨by simp [msr, hn, hs, topSize], fun hh => ?_⟩
      have := hh _ _ _ _ ht
      omega
  · injection h with _ h; cases h

theorem Next.less {e f : Enc} (h : Next q e f) : msr f < msr e := by
  obtain ⟨hne, e', ev, h, rfl⟩ := h
  rw [msr_canon]
  unfold eStep at h
  have hst : (full q e).state = e.state := rfl
  rw [hst, if_neg hne] at h
  have hadv : eAdvance (full q e) = full q e := by
    unfold eAdvance full
    simp
  rw [hadv] at h
  unfold eStepNode at h
  have hnn : (full q e).nodes = e.nodes := rfl
  rw [hnn] at h
  cases hn : e.nodes with
  | nil => rw [hn] at h; simp only at h; injection h with _ h; cases h
  | cons n rest =>
    rw [hn] at h
    simp only at h
    rw [hst] at h
    have hm : msr e = topSize e.state n + upSize rest := by unfold msr; rw [hn]
    rw [hm]
    have hnf : (full q e).nodes = n :: rest := hn
    cases hs : e.state <;> rw [hs] at h <;> simp only at h <;> unfold topSize <;> simp only
    case init =>
      split at h
      · have := (payload_msr (e := eEnter (full q e) .inPayload) hnf rfl h).1
        omega
      · have := entered_msr (e := eEnter (full q e) .entered) hnf h
        omega
    case entered =>
      have := entered_msr hnf h
      omega
    case entry =>
      split at h
      · have := (payload_msr (e := eEnter (full q e) .inPayload) hnf rfl h).1
        omega
      · have := dirents_msr h
        omega
      · injection h with h _
        subst h
        simp [msr, eEnter, hnf, topSize]
        omega
      · injection h with h _
        subst h
        simp [msr, eEnter, hnf, topSize]
        omega
    case inPayload =>
      refine (payload_msr hnf (by rw [hst, hs]) h).2 ?_
      intro a b c d hd
      show d.length ≤ e.payloadOff + recLen q e
      unfold recLen
      rw [hs, hn]
      simp only
      rw [hd]
      simp
    case nextDirent =>
      have := dirents_msr h
      simp only at this
      omega
    case firstDirent =>
      have := dirents_msr h
      omega
    case filename =>
      split at h
      · rename_i hk
        have := entered_msr (e := eEnter (setTop (full q e) (freshNode _) (n :: rest)) .entered) rfl h
        rw [freshNode_size] at this
        rw [hk]
        unfold upSize at this
        rw [hk] at this
        simp only [kidsSize, Kids.tail] at this ⊢
        omega
      · injection h with _ h; cases h
    case goodbye =>
      injection h with h _
      subst h
      simp [msr, eEnter, hnf, topSize]
    case finalize =>
      split at h
      · injection h with h _
        subst h
        simp [msr, eEnter, hnf, topSize]
      · have := dirents_msr h
        simp only at this
        unfold upSize
        omega
    case eof => exact absurd hs hne

/-! ### One after another -/

inductive Chain (q : List Goodbye.NameItem → List Goodbye.NameItem) : Enc → Enc → Prop
  | refl {e} : Chain q e e
  | head {e f g} : Next q e f → Chain q f g → Chain q e g

theorem Next.det {e f g : Enc} (h : Next q e f) (h' : Next q e g) : f = g := by
  obtain ⟨_, e1, ev1, h1, rfl⟩ := h
  obtain ⟨_, e2, ev2, h2, rfl⟩ := h'
  rw [h1] at h2
  injection h2 with h2 _
  rw [h2]

theorem Chain.snoc {e f g : Enc} (h : Chain q e f) (h' : Next q f g) : Chain q e g := by
  induction h with
  | refl => exact .head h' .refl
  | head h1 _ ih => exact .head h1 (ih h')

theorem Chain.total {s e f : Enc} (h : Chain q s e) (h' : Chain q s f) : Chain q e f ∨ Chain q f e := by
  induction h with
  | refl => exact .inl h'
  | head h1 h2 ih =>
    cases h' with
    | refl => exact .inr (.head h1 h2)
    | head h3 h4 =>
      have := h1.det h3
      subst this
      exact ih h4

theorem Chain.less {e f : Enc} (h : Chain q e f) : e = f ∨ msr f < msr e := by
  induction h with
  | refl => exact .inl rfl
  | head h1 _ ih =>
    have := h1.less
    rcases ih with rfl | ih
    · exact .inr this
    · exact .inr (by omega)

theorem Chain.unique {s e f : Enc} (h : Chain q s e) (h' : Chain q s f) (hm : msr e = msr f) : e = f := by
  rcases h.total h' with h | h
  · rcases h.less with h | h
    · exact h
    · omega
  · rcases h.less with h | h
    · exact h.symm
    · omega

end

/-! ### An encoder with data -/

theorem canon_record {e : Enc} (hs : e.state = .entry ∨ e.state = .filename ∨ e.state = .inPayload ∨ e.state = .goodbye) :
    canon e = { e with nodes := trim e.state e.nodes, buf := [], archiveOff := e.archiveOff - e.payloadOff, payloadOff := 0 } := by
  unfold canon
  rcases hs with h | h | h | h <;> rw [h]

section
variable {q : List Goodbye.NameItem → List Goodbye.NameItem}

/-- How much of the record there is. -/
theorem recLen_data {e : Enc} {x : Bytes} (hs : e.state = .entry ∨ e.state = .filename ∨ e.state = .goodbye) (hpa : e.payloadOff ≤ e.archiveOff) (hm : Fetched q e x) (hx : x ≠ []) :
    e.payloadOff + x.length = recLen q (canon e) := by
  have hl : 0 < x.length := List.length_pos_iff.2 hx
  rcases hm with ⟨k, _, hm⟩ | ⟨_, _, _, _, _, _, _, _, _, f3, _⟩
  case inr => rw [f3] at hs; rcases hs with h | h | h <;> cases h
  rw [canon_record (by rcases hs with h | h | h <;> rw [h] <;> simp)]
  unfold makeData at hm
  cases hn : e.nodes with
  | nil => rw [hn] at hm; cases hm
  | cons n rest =>
    rw [hn] at hm
    simp only at hm
    unfold recLen makeData
    rcases hs with h | h | h
    · rw [h] at hm ⊢
      simp only [trim] at hm ⊢
      injection hm with hm
      subst hm
      rw [List.length_drop] at hl ⊢
      simp only [List.drop_zero]
      omega
    · rw [h] at hm ⊢
      simp only [trim] at hm ⊢
      cases hk : n.kids with
      | nil => rw [hk] at hm; cases hm
      | cons a b c d =>
        rw [hk] at hm
        simp only at hm ⊢
        injection hm with hm
        subst hm
        rw [List.length_drop] at hl ⊢
        simp only [List.drop_zero]
        omega
    · rw [h] at hm ⊢
      simp only [trim] at hm ⊢
      rw [if_neg (by omega)] at hm ⊢
      rw [Nat.sub_zero]
      obtain ⟨rows, r1, hm⟩ := Res.bind_eq_ok.1 hm
      obtain ⟨u, r2, hm⟩ := Res.bind_eq_ok.1 hm
      rw [r1]
      show _ = (match (do Res.assert (decide (n.entryOff < e.archiveOff - e.payloadOff)); .ok ((goodbyeBytes rows (e.archiveOff - e.payloadOff - n.entryOff)).drop 0) : Res Bytes) with | .ok x => x.length | _ => 0)
      rw [r2]
      show _ = ((goodbyeBytes rows (e.archiveOff - e.payloadOff - n.entryOff)).drop 0).length
      injection hm with hm
      subst hm
      rw [List.length_drop] at hl ⊢
      rw [List.drop_zero]
      omega

theorem full_canon {e : Enc} {x : Bytes} (hs : e.state = .entry ∨ e.state = .filename ∨ e.state = .inPayload ∨ e.state = .goodbye) (hpa : e.payloadOff ≤ e.archiveOff)
    (hl : e.payloadOff + x.length = recLen q (canon e)) : full q (canon e) = { eAdvance (setBuf e x) with nodes := trim e.state e.nodes } := by
  unfold full
  rw [← hl, canon_record hs]
  unfold eAdvance setBuf
  simp only [Nat.zero_add, Enc.mk.injEq, true_and, and_true]
  omega

theorem eStep_adv {e : Enc} (h : e.state ≠ .eof) (hb : e.buf = []) : eStep e = eStepNode e := by
  unfold eStep
  rw [if_neg h]
  unfold eAdvance
  rw [hb]
  simp only [List.length_nil, Nat.add_zero]
  rw [← hb]

/-- A step, seen from the beginning of the record. -/
theorem follow {e e' : Enc} {x : Bytes} {ev : EEv} (hb : e.buf = []) (hpa : e.payloadOff ≤ e.archiveOff) (hne : e.state ≠ .eof)
    (hd : (Fetched q e x ∧ x ≠ [] ∧ (e.state = .entry ∨ e.state = .filename ∨ e.state = .inPayload ∨ e.state = .goodbye)) ∨ (x = [] ∧ (e.state = .init ∨ e.state = .finalize)))
    (h : eStep (setBuf e x) = (e', .ok ev)) : canon e' = canon e ∨ Next q (canon e) (canon e') := by
  have hst : (setBuf e x).state = e.state := rfl
  have h' : eStepNode (eAdvance (setBuf e x)) = (e', .ok ev) := by
    unfold eStep at h
    rw [hst, if_neg hne] at h
    exact h
  have hcs : (canon e).state = e.state := by unfold canon; split <;> rfl
  have hgo : e.payloadOff + x.length = recLen q (canon e) → (e.state = .entry ∨ e.state = .filename ∨ e.state = .inPayload) → Next q (canon e) (canon e') := by
    intro hl hs
    refine ⟨by rw [hcs]; exact hne, e', ev, ?_, rfl⟩
    rw [eStep_adv (by show (canon e).state ≠ _; rw [hcs]; exact hne) rfl, full_canon (by rcases hs with h | h | h <;> rw [h] <;> simp) hpa hl]
    have : trim e.state e.nodes = (eAdvance (setBuf e x)).nodes := by rcases hs with h | h | h <;> rw [h] <;> rfl
    rw [this]
    exact h'
  rcases hd with ⟨hm, hx, hs⟩ | ⟨hx, hs⟩
  · rcases hs with hs | hs | hs | hs
    · exact .inr (hgo (recLen_data (.inl hs) hpa hm hx) (.inl hs))
    · exact .inr (hgo (recLen_data (.inr (.inl hs)) hpa hm hx) (.inr (.inl hs)))
    · cases hn : e.nodes with
      | nil =>
        unfold eStepNode at h'
        rw [show (eAdvance (setBuf e x)).nodes = e.nodes from rfl, hn] at h'
        injection h' with _ h'
        cases h'
      | cons n rest =>
        have hrec : ∀ a b c d, n.tree = .file a b c d → recLen q (canon e) = d.length := by
          intro a b c d hd
          rw [canon_record (.inr (.inr (.inl hs)))]
          unfold recLen
          rw [hs, hn]
          simp only [trim]
          rw [hd]
        have hfile : ∃ a b c d, n.tree = .file a b c d := by
          unfold eStepNode at h'
          rw [show (eAdvance (setBuf e x)).nodes = e.nodes from rfl, hn] at h'
          simp only at h'
          rw [show (eAdvance (setBuf e x)).state = e.state from rfl, hs] at h'
          simp only at h'
          unfold stepEPayload at h'
          rw [show (eAdvance (setBuf e x)).nodes = e.nodes from rfl, hn] at h'
          simp only at h'
          cases ht : n.tree with
          | file a b c d => exact ⟨a, b, c, d, rfl⟩
          | _ => rw [ht] at h'; injection h' with _ h'; cases h'
        obtain ⟨ea, ab, ap, c, ht⟩ := hfile
        have hlt : e.payloadOff + x.length ≤ c.length := by
          have hl : 0 < x.length := List.length_pos_iff.2 hx
          rcases hm with ⟨k, _, hm⟩ | ⟨n', rest', _, _, _, c1, d, f1, f2, f3, f4, f5, f6⟩
          · unfold makeData at hm
            rw [hn] at hm
            simp only at hm
            rw [hs] at hm
            simp only at hm
            rw [ht] at hm
            simp only at hm
            split at hm
            · injection hm with hm
              exact absurd hm.symm hx
            · injection hm with hm
              have := (getPayloadData_len c e.payloadOff k).2
              rw [hm] at this
              omega
          · rw [hn] at f1
            injection f1 with f1 _
            subst f1
            rw [ht] at f2
            injection f2 with _ _ _ f2
            subst f2
            rw [f5, List.length_take, List.length_drop]
            omega
        by_cases hfin : c.length ≤ e.payloadOff + x.length
        · exact .inr (hgo (by rw [hrec _ _ _ _ ht]; omega) (.inr (.inr hs)))
        · left
          unfold eStepNode at h'
          rw [show (eAdvance (setBuf e x)).nodes = e.nodes from rfl, hn] at h'
          simp only at h'
          rw [show (eAdvance (setBuf e x)).state = e.state from rfl, hs] at h'
          simp only at h'
          unfold stepEPayload at h'
          rw [show (eAdvance (setBuf e x)).nodes = e.nodes from rfl, hn] at h'
          simp only at h'
          rw [ht] at h'
          simp only at h'
          rw [if_neg (show ¬ ((eAdvance (setBuf e x)).payloadOff ≥ c.length) by show ¬ (e.payloadOff + x.length ≥ c.length); omega)] at h'
          injection h' with h' _
          rw [← h', canon_record (.inr (.inr (.inl hs))), canon_record (e := eAdvance (setBuf e x)) (.inr (.inr (.inl hs)))]
          unfold eAdvance setBuf
          simp only [Enc.mk.injEq, true_and, and_true]
          omega
    · right
      have hl := recLen_data (.inr (.inr hs)) hpa hm hx
      cases hn : e.nodes with
      | nil =>
        unfold eStepNode at h'
        rw [show (eAdvance (setBuf e x)).nodes = e.nodes from rfl, hn] at h'
        injection h' with _ h'
        cases h'
      | cons n rest =>
        unfold eStepNode at h'
        rw [show (eAdvance (setBuf e x)).nodes = e.nodes from rfl, hn] at h'
        simp only at h'
        rw [show (eAdvance (setBuf e x)).state = e.state from rfl, hs] at h'
        simp only at h'
        injection h' with h1 h2
        refine ⟨by rw [hcs]; exact hne, eEnter (full q (canon e)) .finalize, .doneFile, ?_, ?_⟩
        · rw [eStep_adv (by show (canon e).state ≠ _; rw [hcs]; exact hne) rfl]
          unfold eStepNode
          rw [full_canon (.inr (.inr (.inr hs))) hpa hl]
          simp only [hs, hn, trim]
          rw [show (eAdvance (setBuf e x)).state = e.state from rfl, hs]
        · rw [full_canon (.inr (.inr (.inr hs))) hpa hl, ← h1]
          unfold canon eEnter
          simp only [hs, hn, trim, eAdvance, setBuf]
  · subst hx
    have he : eAdvance (setBuf e []) = e := by
      unfold eAdvance setBuf
      simp only [List.length_nil, Nat.add_zero]
      rw [← hb]
    rw [he] at h'
    right
    have hz : ∀ e' : Enc, e'.state = .init ∨ e'.state = .finalize → e'.buf = [] → full q e' = e' := by
      intro e' h hb
      have : recLen q e' = 0 := by
        unfold recLen makeData
        rcases h with h | h <;> rw [h] <;> cases e'.nodes <;> rfl
      unfold full
      rw [this, Nat.add_zero, Nat.add_zero, ← hb]
    have hcb : (canon e).buf = [] := by unfold canon; split <;> rfl
    suffices hh : ∃ e'' ev, eStepNode (canon e) = (e'', .ok ev) ∧ canon e'' = canon e' by
      obtain ⟨e'', ev, h1, h2⟩ := hh
      refine ⟨by rw [hcs]; exact hne, e'', ev, ?_, h2⟩
      rw [hz _ (by rw [hcs]; exact hs) hcb, eStep_adv (by rw [hcs]; exact hne) hcb]
      exact h1
    rcases hs with hs | hs
    · have : canon e = e := by
        unfold canon
        rw [hs]
        simp only [trim]
        rw [← hs, ← hb]
      rw [this]
      exact ⟨e', ev, h', rfl⟩
    · have hc : canon e = { e with nodes := trim .finalize e.nodes } := by
        unfold canon
        rw [hs]
        simp only
        rw [← hs, ← hb]
      rw [hc]
      unfold eStepNode at h' ⊢
      cases hn : e.nodes with
      | nil => rw [hn] at h'; injection h' with _ h'; cases h'
      | cons n rest =>
        rw [hn] at h'
        simp only [trim] at h' ⊢
        rw [hs] at h' ⊢
        cases rest with
        | nil =>
          simp only at h' ⊢
          injection h' with h' _
          refine ⟨_, _, rfl, ?_⟩
          rw [← h']
          unfold canon eEnter
          simp only [trim, hn]
        | cons p up => exact ⟨e', ev, h', rfl⟩

end

end Casync.Resume
