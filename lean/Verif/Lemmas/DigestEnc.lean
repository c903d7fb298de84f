import Verif.Lemmas.Digest
/-!
The digests of the encoder.
-/
namespace Casync.Archive
open Casync Flags

variable {H : Bytes → Bytes} {q : List Goodbye.NameItem → List Goodbye.NameItem}

theorem eStepD_step {x x' : DEnc} {r : Res EEv} (h : eStepD x = (x', r)) :
    eStep x.enc = (x'.enc, r) ∧ x'.want = x.want ∧ x'.sum.archive = x.sum.archive ∧
    (r = .ok .nextFile → x'.sum.payload = reset x.want.payload x.sum.payload ∧ x'.sum.hardlink = reset x.want.hardlink x.sum.hardlink) ∧
    (r ≠ .ok .nextFile → x'.sum = x.sum) := by
  unfold eStepD at h
  simp only at h
  generalize eStep x.enc = p at h ⊢
  obtain ⟨e, r1⟩ := p
  simp only at h
  by_cases hk : r1 = .ok .nextFile
  · subst hk
    injection h with h1 h2
    subst h1 h2
    exact ⟨rfl, rfl, rfl, fun _ => ⟨rfl, rfl⟩, fun h => absurd rfl h⟩
  · split at h
    · exact absurd rfl hk
    · injection h with h1 h2
      subst h1 h2
      exact ⟨rfl, rfl, rfl, fun h => absurd h hk, fun _ => rfl⟩

theorem getDataD_data {x x' : DEnc} {k : Option Nat} {r : Res Bytes} (h : getDataD q x k = (x', r)) :
    getData q x.enc k = (x'.enc, r) ∧ x'.want = x.want := by
  unfold getDataD at h
  by_cases c : x.enc.buf ≠ []
  · rw [if_pos c] at h
    injection h with h1 h2
    subst h1 h2
    refine ⟨?_, rfl⟩
    unfold getData
    rw [if_pos c]
  · rw [if_neg c] at h
    generalize getData q x.enc k = p at h ⊢
    obtain ⟨e, r1⟩ := p
    cases r1 <;> (injection h with h1 h2; subst h1 h2; exact ⟨rfl, rfl⟩)

theorem EDRun.run {sz : Nat → Option Nat} {x : DEnc} {b : Bytes} {as : List EAsked} {o : EOutcome} {a : Res Bytes} (h : EDRun H q sz x b as o a) :
    ERun q sz x.enc b o := by
  induction h with
  | finished hs => exact .finished (eStepD_step hs).1
  | error hs => exact .error (eStepD_step hs).1
  | crash hs => exact .crash (eStepD_step hs).1
  | done hs _ ih => exact .done (eStepD_step hs).1 ih
  | data hs hm hg _ ih => exact .data (eStepD_step hs).1 hm (getDataD_data hg).1 ih
  | dataError hs hm hg => exact .dataError (eStepD_step hs).1 hm (getDataD_data hg).1
  | dataCrash hs hm hg => exact .dataCrash (eStepD_step hs).1 hm (getDataD_data hg).1

theorem stepDirents_buf (e : Enc) (n : ENode) (rest : List ENode) : (stepDirents e n rest).1.buf = e.buf := by
  unfold stepDirents
  split
  · rfl
  · split
    · rfl
    · split <;> rfl

theorem stepEntered_buf (e : Enc) : (stepEntered e).1.buf = e.buf := by
  unfold stepEntered
  split <;> rfl

theorem stepEPayload_buf (e : Enc) : (stepEPayload e).1.buf = e.buf := by
  unfold stepEPayload
  split
  · rfl
  · split
    · split
      · split <;> rfl
      · rfl
    · rfl

theorem eStepNode_buf (e : Enc) : (eStepNode e).1.buf = e.buf := by
  unfold eStepNode
  split
  · rfl
  · split
    · split
      · rw [stepEPayload_buf]; rfl
      · rw [stepEntered_buf]; rfl
    · rw [stepEntered_buf]
    · split
      · rw [stepEPayload_buf]; rfl
      · rw [stepDirents_buf]; rfl
      · rfl
      · rfl
    · rw [stepEPayload_buf]
    · rw [stepDirents_buf]
    · rw [stepDirents_buf]
    · split
      · rw [stepEntered_buf]; rfl
      · rfl
    · rfl
    · split
      · rfl
      · rw [stepDirents_buf]; rfl
    · rfl

theorem eStep_buf {e e' : Enc} {r : Res EEv} (h : eStep e = (e', r)) (hr : r ≠ .ok .finished) : e'.buf = [] ∧ eStepNode (eAdvance e) = (e', r) := by
  unfold eStep at h
  split at h
  · injection h with _ h; exact absurd h.symm hr
  · have := eStepNode_buf (eAdvance e)
    rw [h] at this
    exact ⟨this, h⟩

theorem stepDirents_ev {e e' : Enc} {n : ENode} {rest : List ENode} {ev : EEv} (h : stepDirents e n rest = (e', .ok ev)) :
    ev = .data ∧ (e'.state = .goodbye ∨ e'.state = .filename) := by
  unfold stepDirents at h
  split at h
  · injection h with h1 h; injection h with h; subst h1; exact ⟨h.symm, .inl rfl⟩
  · split at h
    · simp at h
    · split at h <;> (injection h with h1 h; injection h with h; subst h1)
      · exact ⟨h.symm, .inl rfl⟩
      · exact ⟨h.symm, .inr rfl⟩

theorem stepEntered_ev {e e' : Enc} {ev : EEv} (h : stepEntered e = (e', .ok ev)) :
    ev = .nextFile ∧ e'.state = .entry ∧ e'.payloadOff = 0 ∧ ∃ n rest, e'.nodes = n :: rest := by
  unfold stepEntered at h
  split at h
  · simp at h
  · injection h with h1 h; injection h with h; subst h1; exact ⟨h.symm, rfl, rfl, _, _, rfl⟩

theorem stepEPayload_ev {e e' : Enc} {ev : EEv} (h : stepEPayload e = (e', .ok ev)) :
    ∃ n rest en a api c, e.nodes = n :: rest ∧ n.tree = .file en a api c ∧
    ((ev = .finished ∧ e'.state = .eof ∧ c.length ≤ e.payloadOff) ∨ (ev = .doneFile ∧ e'.state = .finalize ∧ e'.nodes = n :: rest ∧ c.length ≤ e.payloadOff ∧ rest ≠ []) ∨
      (ev = .payload ∧ e' = e ∧ e.payloadOff < c.length)) := by
  unfold stepEPayload at h
  split at h
  · simp at h
  · rename_i n rest hn
    split at h
    · rename_i en a api c ht
      refine ⟨n, rest, en, a, api, c, hn, ht, ?_⟩
      split at h
      · rename_i hc
        split at h
        · injection h with h1 h; injection h with h; subst h1; exact .inl ⟨h.symm, rfl, hc⟩
        · rename_i hk
          injection h with h1 h; injection h with h; subst h1
          refine .inr (.inl ⟨h.symm, rfl, hn, hc, fun hr => hk ?_⟩)
          unfold eNaked
          rw [hn, hr]
          simp only
          rw [ht]
      · rename_i hc
        injection h with h1 h; injection h with h; exact .inr (.inr ⟨h.symm, h1.symm, by omega⟩)
    · simp at h

/-- An encoder that has finished is at its end. -/
theorem eStep_finished {e e' : Enc} (h : eStep e = (e', .ok .finished)) : e'.state = .eof := by
  unfold eStep at h
  split at h
  · rename_i c; injection h with h; rw [← h]; exact c
  · generalize eAdvance e = g at h
    unfold eStepNode at h
    split at h
    · simp at h
    · split at h
      · split at h
        · obtain ⟨_, _, _, _, _, _, _, _, k⟩ := stepEPayload_ev h
          rcases k with k | k | k
          · exact k.2.1
          · cases k.1
          · cases k.1
        · cases (stepEntered_ev h).1
      · cases (stepEntered_ev h).1
      · split at h
        · obtain ⟨_, _, _, _, _, _, _, _, k⟩ := stepEPayload_ev h
          rcases k with k | k | k
          · exact k.2.1
          · cases k.1
          · cases k.1
        · cases (stepDirents_ev h).1
        · simp at h
        · simp at h
      · obtain ⟨_, _, _, _, _, _, _, _, k⟩ := stepEPayload_ev h
        rcases k with k | k | k
        · exact k.2.1
        · cases k.1
        · cases k.1
      · cases (stepDirents_ev h).1
      · cases (stepDirents_ev h).1
      · split at h
        · cases (stepEntered_ev h).1
        · simp at h
      · simp at h
      · split at h
        · injection h with h; rw [← h]; rfl
        · cases (stepDirents_ev h).1
      · rename_i hs; injection h with h; rw [← h]; exact hs

/-- The digest of the archive is that of all the data. -/
theorem EDRun.archive {sz : Nat → Option Nat} {x : DEnc} {b : Bytes} {as : List EAsked} {o : EOutcome} {a : Res Bytes} (h : EDRun H q sz x b as o a)
    (hw : x.want.archive = true) : o = .finished → a = .ok (H (x.sum.archive ++ b)) := by
  induction h with
  | @finished sz e e' hs =>
    intro _
    obtain ⟨h1, h2, h3, _⟩ := eStepD_step hs
    unfold eArchive
    rw [h2, hw, eStep_finished h1, h3, List.append_nil]
    rfl
  | error => intro h; cases h
  | crash => intro h; cases h
  | done hs _ ih =>
    obtain ⟨h1, h2, h3, _⟩ := eStepD_step hs
    intro ho
    rw [ih (by rw [h2]; exact hw) ho, h3]
  | @data sz e e' e'' ev x b as o a hs hm hg _ ih =>
    obtain ⟨h1, h2, h3, _⟩ := eStepD_step hs
    intro ho
    have hb := (eStep_buf h1 (by intro h; injection h with h; subst h; simp at hm)).1
    unfold getDataD at hg
    rw [if_neg (by rw [hb]; simp)] at hg
    have hw' : e'.want.archive = true := by rw [h2]; exact hw
    split at hg
    · injection hg with g1 g2
      injection g2 with g2
      subst g1 g2
      rw [ih hw' ho]
      simp only [feed, hw', if_true, h3, List.append_assoc]
    · exfalso
      injection hg with g1 g2
      subst g2
      rename_i hne hh
      exact hne _ rfl
  | dataError => intro h; cases h
  | dataCrash => intro h; cases h

/-! ### The content of the files -/

/-- States in which the encoder is at a directory. -/
def atDir : EState → Bool
  | .firstDirent | .nextDirent | .filename | .goodbye => true
  | _ => false

/-- Only directories have something below them. -/
structure EDir (e : Enc) : Prop where
  top : ∀ n rest, e.nodes = n :: rest → atDir e.state = true → isDirectory n.tree = true
  up : ∀ n rest, e.nodes = n :: rest → ∀ m ∈ rest, isDirectory m.tree = true

theorem EDir.mk' {e : Enc} {n : ENode} {rest : List ENode} (hn : e.nodes = n :: rest) (h1 : atDir e.state = true → isDirectory n.tree = true)
    (h2 : ∀ m ∈ rest, isDirectory m.tree = true) : EDir e :=
  ⟨fun n' r' h hs => by rw [hn] at h; injection h with a b; subst a; exact h1 hs, fun n' r' h => by rw [hn] at h; injection h with a b; subst b; exact h2⟩

theorem stepDirents_dir {e : Enc} {n : ENode} {rest : List ENode} (he : EDir e) (h1 : isDirectory n.tree = true) (h2 : ∀ m ∈ rest, isDirectory m.tree = true) :
    EDir (stepDirents e n rest).1 := by
  unfold stepDirents
  split
  · exact EDir.mk' rfl (fun _ => h1) h2
  · split
    · exact he
    · split
      · exact EDir.mk' rfl (fun _ => h1) h2
      · exact EDir.mk' rfl (fun _ => h1) h2

theorem entered_tree (n : ENode) (k : Nat) : (enteredNode n k).tree = n.tree := by
  unfold enteredNode
  split <;> rfl

theorem stepEntered_dir {e : Enc} (he : EDir e) : EDir (stepEntered e).1 := by
  unfold stepEntered
  split
  · exact he
  · rename_i n rest hn
    exact EDir.mk' rfl (fun h => (by cases h)) (he.up n rest hn)

theorem stepEPayload_dir {e : Enc} (he : EDir e) : EDir (stepEPayload e).1 := by
  unfold stepEPayload
  split
  · exact he
  · rename_i n rest hn
    split
    · split
      · split
        · exact EDir.mk' hn (fun h => (by cases h)) (he.up n rest hn)
        · exact EDir.mk' hn (fun h => (by cases h)) (he.up n rest hn)
      · exact he
    · exact he

theorem eStepNode_dir {e : Enc} (he : EDir e) : EDir (eStepNode e).1 := by
  unfold eStepNode
  split
  · exact he
  · rename_i n rest hn
    have hup := he.up n rest hn
    split
    · split
      · exact stepEPayload_dir (EDir.mk' hn (fun h => (by cases h)) hup)
      · exact stepEntered_dir (EDir.mk' hn (fun h => (by cases h)) hup)
    · exact stepEntered_dir he
    · split
      · exact stepEPayload_dir (EDir.mk' hn (fun h => (by cases h)) hup)
      · rename_i ht
        have hd : isDirectory n.tree = true := by rw [ht]; rfl
        exact stepDirents_dir (EDir.mk' hn (fun _ => hd) hup) hd hup
      · rename_i ht
        exact EDir.mk' hn (fun _ => by rw [ht]; rfl) hup
      · exact EDir.mk' hn (fun h => (by cases h)) hup
    · exact stepEPayload_dir he
    · rename_i hs
      have hd := he.top n rest hn (by rw [hs]; rfl)
      exact stepDirents_dir he hd hup
    · rename_i hs
      have hd := he.top n rest hn (by rw [hs]; rfl)
      exact stepDirents_dir he hd hup
    · rename_i hs
      have hd := he.top n rest hn (by rw [hs]; rfl)
      split
      · refine stepEntered_dir (EDir.mk' (n := freshNode _) (rest := n :: rest) rfl (fun h => (by cases h)) (fun m hm => ?_))
        rcases List.mem_cons.1 hm with h | h
        · rw [h]; exact hd
        · exact hup m h
      · exact he
    · exact EDir.mk' hn (fun h => (by cases h)) hup
    · split
      · exact EDir.mk' hn (fun h => (by cases h)) hup
      · rename_i p up
        have hp := hup p (List.mem_cons_self ..)
        have hu : ∀ m ∈ up, isDirectory m.tree = true := fun m hm => hup m (List.mem_cons_of_mem _ hm)
        exact stepDirents_dir (EDir.mk' (n := p) (rest := up) rfl (fun _ => hp) hu) hp hu
    · exact he

theorem EDir.same {e e' : Enc} (h : EDir e) (h1 : e'.nodes = e.nodes) (h2 : e'.state = e.state) : EDir e' :=
  ⟨by rw [h1, h2]; exact h.top, by rw [h1]; exact h.up⟩

theorem eStep_dir {e : Enc} (he : EDir e) : EDir (eStep e).1 := by
  unfold eStep
  split
  · exact he
  · exact eStepNode_dir (he.same rfl rfl)

/-- What the two digests of an object are, between two steps. -/
structure EAcc (x : DEnc) (head c : Bytes) : Prop where
  payload : x.want.payload = true → x.sum.payload = c
  hardlink : x.want.hardlink = true → x.sum.hardlink = head ++ c

structure EIn (x : DEnc) : Prop where
  dir : EDir x.enc
  entry : ∀ n rest, x.enc.nodes = n :: rest → x.enc.state = .entry → EAcc x (headBytes n.tree) []
  pay : ∀ n rest, x.enc.nodes = n :: rest → x.enc.state = .inPayload → rest ≠ [] → ∃ e a c, n.tree = .file e a false c ∧
    EAcc x (headBytes n.tree) (c.take (x.enc.payloadOff + x.enc.buf.length))

theorem EIn.of_state {x : DEnc} (h0 : EDir x.enc) (h1 : x.enc.state ≠ .entry) (h2 : x.enc.state ≠ .inPayload) : EIn x :=
  ⟨h0, fun _ _ _ h => absurd h h1, fun _ _ _ h => absurd h h2⟩

theorem eAdvance_off (e : Enc) : (eAdvance e).payloadOff = e.payloadOff + e.buf.length := rfl

/-- How an object is left. -/
theorem EIn.done {x x' : DEnc} (h : EIn x) (hs : eStepD x = (x', .ok .doneFile)) : x'.enc.state = .finalize ∧
    ∃ n rest, x'.enc.nodes = n :: rest ∧ (isDirectory n.tree = true ∨ EAcc x' (headBytes n.tree) (content n.tree)) := by
  obtain ⟨h1, h2, _, _, h5⟩ := eStepD_step hs
  have h5 := h5 (by simp)
  obtain ⟨_, hn⟩ := eStep_buf h1 (by simp)
  have acc : ∀ {a b : Bytes}, EAcc x a b → EAcc x' a b := fun hh => ⟨by rw [h2, h5]; exact hh.payload, by rw [h2, h5]; exact hh.hardlink⟩
  generalize hg : eAdvance x.enc = g at hn
  have hst : g.state = x.enc.state := by rw [← hg]; rfl
  have hno : g.nodes = x.enc.nodes := by rw [← hg]; rfl
  have hof : g.payloadOff = x.enc.payloadOff + x.enc.buf.length := by rw [← hg]; rfl
  unfold eStepNode at hn
  split at hn
  · simp at hn
  · rename_i n rest hnn
    rw [hno] at hnn
    split at hn
    · split at hn
      · obtain ⟨n1, r1, en, a, api, c, k1, k2, k⟩ := stepEPayload_ev hn
        rcases k with k | k | k
        · cases k.1
        · exfalso
          rename_i hnk
          have hnk' : eNaked (eEnter g .inPayload) = true := hnk
          have hnn' : (eEnter g .inPayload).nodes = n1 :: r1 := k1
          have hr := k.2.2.2.2
          unfold eNaked at hnk'
          rw [hnn'] at hnk'
          cases r1 with
          | nil => exact hr rfl
          | cons y ys => simp at hnk'
        · cases k.1
      · cases (stepEntered_ev hn).1
    · cases (stepEntered_ev hn).1
    · rename_i hs0
      have he := h.entry n rest hnn (by rw [← hst]; exact hs0)
      split at hn
      · rename_i en a c ht
        obtain ⟨n1, r1, en1, a1, api1, c1, k1, k2, k⟩ := stepEPayload_ev hn
        rcases k with k | k | k
        · cases k.1
        · have hk1 : n1 :: r1 = n :: rest := by rw [← k1, ← hnn, ← hno]; rfl
          injection hk1 with e1 e2
          subst e1 e2
          refine ⟨k.2.1, n1, r1, k.2.2.1, .inr ?_⟩
          rw [k2] at ht
          injection ht with _ _ t3 t4
          subst t3 t4
          have hc : c1 = [] := List.length_eq_zero_iff.1 (by have := k.2.2.2.1; exact Nat.le_zero.1 this)
          have : content n1.tree = [] := by rw [k2, hc]; rfl
          rw [this]
          exact acc he
        · cases k.1
      · cases (stepDirents_ev hn).1
      · simp at hn
      · rename_i nf nd nd2
        injection hn with k1 _
        refine ⟨by rw [← k1]; rfl, n, rest, by rw [← k1]; show g.nodes = _; rw [hno, hnn], ?_⟩
        cases ht : n.tree with
        | file en a api c =>
          cases api with
          | false => exact absurd ht (nf _ _ _)
          | true =>
            right
            show EAcc x' _ []
            rw [← ht]
            exact acc he
        | symlink => right; rw [← ht]; have : content n.tree = [] := by rw [ht]; rfl
                     rw [this]; exact acc he
        | device => right; rw [← ht]; have : content n.tree = [] := by rw [ht]; rfl
                    rw [this]; exact acc he
        | special => right; rw [← ht]; have : content n.tree = [] := by rw [ht]; rfl
                     rw [this]; exact acc he
        | dir en a api k => left; rfl
    · rename_i hs0
      obtain ⟨n1, r1, en1, a1, api1, c1, k1, k2, k⟩ := stepEPayload_ev hn
      rcases k with k | k | k
      · cases k.1
      · have hk1 : n1 :: r1 = n :: rest := by rw [← k1, ← hnn, ← hno]
        injection hk1 with e1 e2
        subst e1 e2
        refine ⟨k.2.1, n1, r1, k.2.2.1, .inr ?_⟩
        obtain ⟨en, a, c, p1, p2⟩ := h.pay n1 r1 hnn (by rw [← hst]; exact hs0) k.2.2.2.2
        rw [k2] at p1
        injection p1 with _ _ t3 t4
        subst t3 t4
        have hl := k.2.2.2.1
        rw [hof] at hl
        rw [List.take_of_length_le hl] at p2
        have : content n1.tree = c1 := by rw [k2]; rfl
        rw [this]
        exact acc p2
      · cases k.1
    · cases (stepDirents_ev hn).1
    · cases (stepDirents_ev hn).1
    · split at hn
      · cases (stepEntered_ev hn).1
      · simp at hn
    · rename_i hs0
      injection hn with k1 _
      refine ⟨by rw [← k1]; rfl, n, rest, by rw [← k1]; show g.nodes = _; rw [hno, hnn], .inl ?_⟩
      exact h.dir.top n rest hnn (by rw [← hst, hs0]; rfl)
    · split at hn
      · simp at hn
      · cases (stepDirents_ev hn).1
    · simp at hn

theorem getDataD_ok {x x' : DEnc} {k : Option Nat} {b : Bytes} (hb : x.enc.buf = []) (h : getDataD q x k = (x', .ok b)) :
    makeData q x.enc k = .ok b ∧ x'.enc = setBuf x.enc b ∧ x'.want = x.want ∧
    x'.sum.payload = feed (x.want.payload && decide (x.enc.state = .inPayload)) x.sum.payload b ∧
    x'.sum.hardlink = feed (x.want.hardlink && decide (x.enc.state = .entry ∨ x.enc.state = .inPayload)) x.sum.hardlink b := by
  unfold getDataD getData at h
  rw [if_neg (by rw [hb]; simp), if_neg (by rw [hb]; simp)] at h
  cases hm : makeData q x.enc k with
  | ok b' =>
    rw [hm] at h
    simp only at h
    injection h with h1 h2
    injection h2 with h2
    subst h1 h2
    exact ⟨rfl, rfl, rfl, rfl, rfl⟩
  | err e => rw [hm] at h; simp at h
  | ub => rw [hm] at h; simp at h

/-- What the events of a step say about the state after it. -/
theorem eStepNode_ev {e e' : Enc} {ev : EEv} (h : eStepNode e = (e', .ok ev)) :
    (ev = .nextFile → e'.state = .entry ∧ e'.payloadOff = 0 ∧ ∃ n rest, e'.nodes = n :: rest) ∧
    (ev = .data → e'.state = .goodbye ∨ e'.state = .filename) ∧
    (ev = .payload → e'.state = .inPayload ∧ ∃ n rest en a api c, e.nodes = n :: rest ∧ e'.nodes = n :: rest ∧ n.tree = .file en a api c ∧ e'.payloadOff < c.length ∧
      (rest = [] ∨ (e.state = .entry ∧ e'.payloadOff = 0 ∧ api = false) ∨ (e.state = .inPayload ∧ e'.payloadOff = e.payloadOff))) := by
  have ent : ∀ {g : Enc}, stepEntered g = (e', .ok ev) →
      (ev = .nextFile → e'.state = .entry ∧ e'.payloadOff = 0 ∧ ∃ n rest, e'.nodes = n :: rest) ∧
      (ev = .data → e'.state = .goodbye ∨ e'.state = .filename) ∧ ev ≠ .payload := fun hg => by
    obtain ⟨a, b, c, d⟩ := stepEntered_ev hg
    subst a
    exact ⟨fun _ => ⟨b, c, d⟩, fun h => (by cases h), by simp⟩
  have dirs : ∀ {g : Enc} {n : ENode} {rest : List ENode}, stepDirents g n rest = (e', .ok ev) →
      ev ≠ .nextFile ∧ (ev = .data → e'.state = .goodbye ∨ e'.state = .filename) ∧ ev ≠ .payload := fun hg => by
    obtain ⟨a, b⟩ := stepDirents_ev hg
    subst a
    exact ⟨by simp, fun _ => b, by simp⟩
  unfold eStepNode at h
  split at h
  · simp at h
  · rename_i n rest hn
    split at h
    · rename_i hst
      split at h
      · rename_i hnk
        obtain ⟨n1, r1, en, a, api, c, k1, k2, k⟩ := stepEPayload_ev h
        rcases k with k | k | k
        · rw [k.1]; exact ⟨fun h => (by cases h), fun h => (by cases h), fun h => (by cases h)⟩
        · rw [k.1]; exact ⟨fun h => (by cases h), fun h => (by cases h), fun h => (by cases h)⟩
        · rw [k.1, k.2.1]
          refine ⟨fun h => (by cases h), fun h => (by cases h), fun _ => ⟨rfl, n1, r1, en, a, api, c, k1, k1, k2, k.2.2, .inl ?_⟩⟩
          have k1' : e.nodes = n1 :: r1 := k1
          unfold eNaked at hnk
          rw [k1'] at hnk
          cases r1 with
          | nil => rfl
          | cons y ys => simp at hnk
      · obtain ⟨a, b, c⟩ := ent h
        exact ⟨a, b, fun h => absurd h c⟩
    · obtain ⟨a, b, c⟩ := ent h
      exact ⟨a, b, fun h => absurd h c⟩
    · rename_i hst
      split at h
      · rename_i en a c ht
        obtain ⟨n1, r1, en1, a1, api1, c1, k1, k2, k⟩ := stepEPayload_ev h
        rcases k with k | k | k
        · rw [k.1]; exact ⟨fun h => (by cases h), fun h => (by cases h), fun h => (by cases h)⟩
        · rw [k.1]; exact ⟨fun h => (by cases h), fun h => (by cases h), fun h => (by cases h)⟩
        · rw [k.1, k.2.1]
          have hk1 : n1 :: r1 = n :: rest := by rw [← k1, ← hn]; rfl
          injection hk1 with e1 e2
          subst e1 e2
          refine ⟨fun h => (by cases h), fun h => (by cases h), fun _ => ⟨rfl, n1, r1, en1, a1, api1, c1, k1, k1, k2, k.2.2, .inr (.inl ⟨hst, rfl, ?_⟩)⟩⟩
          rw [k2] at ht
          injection ht
      · obtain ⟨a, b, c⟩ := dirs h
        exact ⟨fun h => absurd h a, b, fun h => absurd h c⟩
      · injection h with h1 h; injection h with h; subst h1 h
        exact ⟨fun h => (by cases h), fun _ => .inl rfl, fun h => (by cases h)⟩
      · injection h with h1 h; injection h with h; subst h1 h
        exact ⟨fun h => (by cases h), fun h => (by cases h), fun h => (by cases h)⟩
    · rename_i hst
      obtain ⟨n1, r1, en1, a1, api1, c1, k1, k2, k⟩ := stepEPayload_ev h
      rcases k with k | k | k
      · rw [k.1]; exact ⟨fun h => (by cases h), fun h => (by cases h), fun h => (by cases h)⟩
      · rw [k.1]; exact ⟨fun h => (by cases h), fun h => (by cases h), fun h => (by cases h)⟩
      · rw [k.1, k.2.1]
        exact ⟨fun h => (by cases h), fun h => (by cases h), fun _ => ⟨hst, n1, r1, en1, a1, api1, c1, k1, k1, k2, k.2.2, .inr (.inr ⟨hst, rfl⟩)⟩⟩
    · obtain ⟨a, b, c⟩ := dirs h
      exact ⟨fun h => absurd h a, b, fun h => absurd h c⟩
    · obtain ⟨a, b, c⟩ := dirs h
      exact ⟨fun h => absurd h a, b, fun h => absurd h c⟩
    · split at h
      · obtain ⟨a, b, c⟩ := ent h
        exact ⟨a, b, fun h => absurd h c⟩
      · simp at h
    · injection h with h1 h; injection h with h; subst h1 h
      exact ⟨fun h => (by cases h), fun h => (by cases h), fun h => (by cases h)⟩
    · split at h
      · injection h with h1 h; injection h with h; subst h1 h
        exact ⟨fun h => (by cases h), fun h => (by cases h), fun h => (by cases h)⟩
      · obtain ⟨a, b, c⟩ := dirs h
        exact ⟨fun h => absurd h a, b, fun h => absurd h c⟩
    · injection h with h1 h; injection h with h; subst h1 h
      exact ⟨fun h => (by cases h), fun h => (by cases h), fun h => (by cases h)⟩

theorem take_piece (c : Bytes) (off k : Nat) : c.take off ++ (c.drop off).take k = c.take (off + ((c.drop off).take k).length) := by
  rw [List.take_add, List.length_take]
  congr 1
  rw [List.take_eq_take_iff]
  omega

/-- Data keeps the invariant. -/
theorem EIn.data {x x' x'' : DEnc} {k : Option Nat} {ev : EEv} {b : Bytes} (h : EIn x) (hs : eStepD x = (x', .ok ev))
    (hm : ev ∈ [EEv.nextFile, .payload, .data]) (hg : getDataD q x' k = (x'', .ok b)) : EIn x'' := by
  obtain ⟨h1, h2, _, h4, h5⟩ := eStepD_step hs
  obtain ⟨hb, hn⟩ := eStep_buf h1 (by intro h; injection h with h; subst h; simp at hm)
  obtain ⟨g1, g2, g3, g4, g5⟩ := getDataD_ok hb hg
  obtain ⟨v1, v2, v3⟩ := eStepNode_ev hn
  have hd : EDir x''.enc := by
    rw [g2]
    have := eStep_dir h.dir
    rw [h1] at this
    exact this.same rfl rfl
  have hst : x''.enc.state = x'.enc.state := by rw [g2]; rfl
  have hno : x''.enc.nodes = x'.enc.nodes := by rw [g2]; rfl
  cases ev with
  | finished => simp at hm
  | doneFile => simp at hm
  | data =>
    rcases v2 rfl with v | v
    · exact EIn.of_state hd (by rw [hst, v]; simp) (by rw [hst, v]; simp)
    · exact EIn.of_state hd (by rw [hst, v]; simp) (by rw [hst, v]; simp)
  | nextFile =>
    obtain ⟨w1, w2, n, rest, w3⟩ := v1 rfl
    obtain ⟨u1, u2⟩ := h4 rfl
    refine ⟨hd, fun n' r' hnn _ => ?_, fun _ _ _ hh => (by rw [hst, w1] at hh; cases hh)⟩
    rw [hno, w3] at hnn
    injection hnn with e1 e2
    subst e1 e2
    have hbb : b = headBytes n.tree := by
      unfold makeData at g1
      rw [w3, w1, w2] at g1
      simp only [List.drop_zero] at g1
      injection g1 with g1
      exact g1.symm
    refine ⟨fun hw => ?_, fun hw => ?_⟩
    · rw [g3, h2] at hw
      rw [g4, w1, u1, h2, hw]
      rfl
    · rw [g3, h2] at hw
      rw [g5, w1, u2, h2, hw, hbb]
      simp only [feed, reset, if_true, List.append_nil, List.nil_append, Bool.true_and, decide_true, true_or]
  | payload =>
    obtain ⟨w1, n, rest, en, a, api, c, w2, w3, w4, w5, w6⟩ := v3 rfl
    have hsum := h5 (by simp)
    refine ⟨hd, fun _ _ _ hh => (by rw [hst, w1] at hh; cases hh), fun n' r' hnn _ hr => ?_⟩
    rw [hno, w3] at hnn
    injection hnn with e1 e2
    subst e1 e2
    have hx : x.enc.nodes = n :: rest := w2
    have key : api = false ∧ EAcc x (headBytes n.tree) (c.take x'.enc.payloadOff) := by
      rcases w6 with w6 | ⟨w6, w7, w8⟩ | ⟨w6, w7⟩
      · exact absurd w6 hr
      · refine ⟨w8, ?_⟩
        rw [w7, List.take_zero]
        exact h.entry n rest hx w6
      · obtain ⟨en', a', c', p1, p2⟩ := h.pay n rest hx w6 hr
        rw [w4] at p1
        injection p1 with _ _ t3 t4
        subst t3 t4
        refine ⟨rfl, ?_⟩
        rw [w7]
        exact p2
    obtain ⟨ha, acc⟩ := key
    subst ha
    refine ⟨en, a, c, w4, ?_⟩
    have hbb : ∃ m, b = (c.drop x'.enc.payloadOff).take m := by
      unfold makeData at g1
      rw [w3, w1] at g1
      simp only at g1
      rw [w4] at g1
      simp only at g1
      rw [if_neg (by omega)] at g1
      injection g1 with g1
      exact ⟨_, g1.symm⟩
    obtain ⟨m, hbb⟩ := hbb
    have hlen : x''.enc.payloadOff + x''.enc.buf.length = x'.enc.payloadOff + ((c.drop x'.enc.payloadOff).take m).length := by
      rw [g2, ← hbb]; rfl
    rw [hlen, ← take_piece]
    refine ⟨fun hw => ?_, fun hw => ?_⟩
    · rw [g3, h2] at hw
      rw [g4, w1, h2, hw, hsum, acc.payload hw, hbb]
      simp only [feed, if_true, Bool.true_and, decide_true]
    · rw [g3, h2] at hw
      rw [g5, w1, h2, hw, hsum, acc.hardlink hw, hbb]
      simp only [feed, if_true, Bool.true_and, decide_true, or_true, List.append_assoc]

theorem EDRun.right {sz : Nat → Option Nat} {x : DEnc} {b : Bytes} {as : List EAsked} {o : EOutcome} {a : Res Bytes} (h : EDRun H q sz x b as o a)
    (hi : EIn x) : ∀ r ∈ as, r.Right H x.want := by
  induction h with
  | finished => intro r hr; cases hr
  | error => intro r hr; cases hr
  | crash => intro r hr; cases hr
  | @done sz x x' b as o a hs _ ih =>
    obtain ⟨d1, n, rest, d2, d3⟩ := hi.done hs
    obtain ⟨h1, h2, _⟩ := eStepD_step hs
    intro r hr
    rcases List.mem_cons.1 hr with hr | hr
    · subst hr
      refine ⟨n.tree, by unfold eObject; rw [d2]; rfl, fun hw => ?_, fun hw => ?_⟩
      · show ePayload H x' = _
        unfold ePayload
        rw [h2, hw, d1, d2]
        simp only [Bool.not_true, Bool.false_eq_true, if_false, ne_eq, not_true_eq_false]
        by_cases hp : hasPayload n.tree = true
        · rw [hp]
          simp only [Bool.not_true, Bool.false_eq_true, if_false, if_true]
          rcases d3 with d3 | d3
          · exfalso
            cases ht : n.tree <;> rw [ht] at hp d3 <;> first | (cases hp; done) | (cases d3; done)
          · rw [d3.payload (by rw [h2]; exact hw)]
        · rw [Bool.not_eq_true] at hp
          rw [hp]
          rfl
      · show eHardlink H x' = _
        unfold eHardlink
        rw [h2, hw, d1, d2]
        simp only [Bool.not_true, Bool.false_eq_true, if_false, ne_eq, not_true_eq_false]
        by_cases hp : isDirectory n.tree = true
        · rw [hp]; rfl
        · rw [if_neg hp, if_neg hp]
          rcases d3 with d3 | d3
          · exact absurd d3 hp
          · rw [d3.hardlink (by rw [h2]; exact hw)]
    · rw [← h2]
      refine ih (EIn.of_state ?_ (by rw [d1]; simp) (by rw [d1]; simp)) r hr
      have := eStep_dir hi.dir
      rw [h1] at this
      exact this
  | @data sz x x' x'' ev y b as o a hs hm hg _ ih =>
    have := ih (hi.data hs hm hg)
    rw [(getDataD_data hg).2, (eStepD_step hs).2.1] at this
    exact this
  | dataError => intro r hr; cases hr
  | dataCrash => intro r hr; cases hr

theorem EIn.start (t : Tree) (w : Want) : EIn (eStartD t w) :=
  EIn.of_state (EDir.mk' (n := freshNode t) (rest := []) rfl (fun h => (by cases h)) (fun m hm => (by cases hm))) (by simp [eStartD, eStart]) (by simp [eStartD, eStart])

end Casync.Archive
