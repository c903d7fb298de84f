import Verif.Lemmas.DigestEnc
/-!
The order in which an encoder leaves the objects of a tree.
-/
namespace Casync.Archive
open Casync Flags

variable {H : Bytes → Bytes} {q : List Goodbye.NameItem → List Goodbye.NameItem}

mutual
def post : Tree → List Tree
  | .dir e a false k => postKids k ++ [.dir e a false k]
  | .dir e a true k => [.dir e a true k]
  | .file e a api c => [.file e a api c]
  | .symlink e a t => [.symlink e a t]
  | .device e a x y => [.device e a x y]
  | .special e a => [.special e a]
def postKids : Kids → List Tree
  | .nil => []
  | .cons false _ _ r => postKids r
  | .cons true _ t r => post t ++ postKids r
end

mutual
theorem postorder_post : ∀ (t : Tree) (path : List Bytes), (postorder path t).map Prod.snd = post t
  | .file .., path => by rw [postorder, post]; rfl
  | .symlink .., path => by rw [postorder, post]; rfl
  | .device .., path => by rw [postorder, post]; rfl
  | .special .., path => by rw [postorder, post]; rfl
  | .dir _ _ true _, path => by rw [postorder, post]; rfl
  | .dir _ _ false k, path => by rw [postorder, post, List.map_append, kidsPost_post k]; rfl
theorem kidsPost_post : ∀ (k : Kids) (path : List Bytes), (kidsPost path k).map Prod.snd = postKids k
  | .nil, path => by rw [kidsPost, postKids]; rfl
  | .cons false _ _ r, path => by rw [kidsPost, postKids, kidsPost_post r]
  | .cons true _ t r, path => by rw [kidsPost, postKids, List.map_append, postorder_post t, kidsPost_post r]
end

theorem postKids_skip : ∀ k, postKids (skipKids k) = postKids k
  | .nil => rfl
  | .cons true n t r => by rw [skipKids]
  | .cons false n t r => by rw [skipKids, postKids, postKids_skip r]

/-- What is left of the directories above. -/
def above : List ENode → List Tree
  | [] => []
  | p :: r => postKids p.kids.tail ++ p.tree :: above r

/-- The objects that are still to be left, by the state of the object on top. -/
def pendTop : EState → ENode → List ENode → List Tree
  | .init, n, rest => post n.tree ++ above rest
  | .entered, n, rest => post n.tree ++ above rest
  | .entry, n, rest => post n.tree ++ above rest
  | .inPayload, n, rest => [n.tree] ++ above rest
  | .firstDirent, n, rest => (postKids n.kids ++ [n.tree]) ++ above rest
  | .nextDirent, n, rest => (postKids n.kids.tail ++ [n.tree]) ++ above rest
  | .filename, n, rest => (postKids n.kids ++ [n.tree]) ++ above rest
  | .goodbye, n, rest => [n.tree] ++ above rest
  | .finalize, _, rest => [] ++ above rest
  | .eof, _, _ => []

/-- The objects that are still to be left. -/
def pending (e : Enc) : List Tree :=
  match e.nodes with
  | [] => []
  | n :: rest => pendTop e.state n rest

def kidsOf : Tree → Kids
  | .dir _ _ _ k => k
  | _ => .nil

structure EPend (e : Enc) : Prop where
  fresh : ∀ n rest, e.nodes = n :: rest → (e.state = .init ∨ e.state = .entered ∨ e.state = .entry) → n.kids = kidsOf n.tree
  named : ∀ n rest, e.nodes = n :: rest → e.state = .filename → ∃ name t r, n.kids = .cons true name t r

theorem skipKids_true : ∀ {k : Kids} {b : Bool} {name : Bytes} {t : Tree} {r : Kids}, skipKids k = .cons b name t r → b = true
  | .nil, _, _, _, _, h => by cases h
  | .cons true _ _ _, _, _, _, _, h => by rw [skipKids] at h; injection h with h; exact h.symm
  | .cons false _ _ r, _, _, _, _, h => by rw [skipKids] at h; exact skipKids_true h

theorem stepDirents_pend {e e' : Enc} {n : ENode} {rest : List ENode} {ev : EEv} (h : stepDirents e n rest = (e', .ok ev)) :
    EPend e' ∧ ev = .data ∧ pending e' = postKids n.kids ++ n.tree :: above rest := by
  unfold stepDirents at h
  split at h
  · rename_i hk
    injection h with h1 h; injection h with h; subst h1 h
    refine ⟨⟨fun _ _ _ h => (by simp [eEnter] at h), fun _ _ _ h => (by simp [eEnter] at h)⟩, rfl, ?_⟩
    rw [hk]
    rfl
  · rename_i hk
    split at h
    · simp at h
    · split at h
      · rename_i hsk
        injection h with h1 h; injection h with h; subst h1 h
        refine ⟨⟨fun _ _ _ h => (by simp [eEnter] at h), fun _ _ _ h => (by simp [eEnter] at h)⟩, rfl, ?_⟩
        rw [← postKids_skip, hsk]
        rfl
      · rename_i k name t r hsk
        have hb := skipKids_true hsk
        injection h with h1 h; injection h with h; subst h1 h hb
        refine ⟨⟨fun _ _ _ h => (by simp [eEnter] at h), fun n' r' hn _ => ?_⟩, rfl, ?_⟩
        · injection hn with h1 h2; subst h1; exact ⟨name, t, r, rfl⟩
        · rw [← postKids_skip n.kids, hsk]
          show (postKids (.cons true name t r) ++ [n.tree]) ++ above rest = _
          rw [List.append_assoc]; rfl

theorem stepEntered_pend {e e' : Enc} {n : ENode} {rest : List ENode} {ev : EEv} (hn : e.nodes = n :: rest) (hk : n.kids = kidsOf n.tree) (h : stepEntered e = (e', .ok ev)) :
    EPend e' ∧ ev ≠ .doneFile ∧ pending e' = post n.tree ++ above rest := by
  unfold stepEntered at h
  rw [hn] at h
  simp only at h
  injection h with h1 h; injection h with h; subst h1 h
  have hkk : (enteredNode n e.archiveOff).kids = n.kids := by unfold enteredNode; split <;> rfl
  refine ⟨⟨fun n' r' hh _ => ?_, fun _ _ _ h => (by simp [eEnter] at h)⟩, by simp, ?_⟩
  · injection hh with h1 h2; subst h1; rw [hkk, entered_tree]; exact hk
  · show post (enteredNode n e.archiveOff).tree ++ above rest = _
    rw [entered_tree]

theorem stepEPayload_pend {e e' : Enc} {ev : EEv} (hs : e.state = .inPayload) (h : stepEPayload e = (e', .ok ev)) :
    EPend e' ∧ (ev = .doneFile → ∃ n rest, e'.nodes = n :: rest ∧ pending e = n.tree :: pending e') ∧ (ev = .payload → pending e' = pending e) ∧
    (ev = .finished → ∃ n, e.nodes = [n] ∧ isDirectory n.tree = false) ∧ ev ≠ .nextFile ∧ ev ≠ .data := by
  unfold stepEPayload at h
  split at h
  · simp at h
  · rename_i n rest hn
    split at h
    · rename_i en a api c ht
      split at h
      · split at h
        · rename_i hnk
          injection h with h1 h; injection h with h; subst h1 h
          refine ⟨⟨fun _ _ _ h => (by simp [eEnter] at h), fun _ _ _ h => (by simp [eEnter] at h)⟩, fun h => (by cases h), fun h => (by cases h), fun _ => ⟨n, ?_, by rw [ht]; rfl⟩, by simp, by simp⟩
          unfold eNaked at hnk
          rw [hn] at hnk ⊢
          cases rest with
          | nil => rfl
          | cons y ys => simp at hnk
        · injection h with h1 h; injection h with h; subst h1 h
          refine ⟨⟨fun _ _ _ h => (by simp [eEnter] at h), fun _ _ _ h => (by simp [eEnter] at h)⟩, fun _ => ⟨n, rest, hn, ?_⟩, fun h => (by cases h), fun h => (by cases h), by simp, by simp⟩
          unfold pending
          rw [show (eEnter e .finalize).nodes = n :: rest from hn, hn, hs]
          rfl
      · injection h with h1 h; injection h with h; subst h1 h
        exact ⟨⟨fun _ _ _ h => (by rw [hs] at h; simp at h), fun _ _ _ h => (by rw [hs] at h; simp at h)⟩, fun h => (by cases h), fun _ => rfl, fun h => (by cases h), by simp, by simp⟩
    · simp at h

/-- A step. -/
theorem eStepNode_pend {e e' : Enc} {ev : EEv} (hp : EPend e) (h : eStepNode e = (e', .ok ev)) :
    EPend e' ∧ (ev = .doneFile → ∃ n rest, e'.nodes = n :: rest ∧ pending e = n.tree :: pending e') ∧
    (ev ∈ [EEv.nextFile, .payload, .data] → pending e' = pending e) ∧
    (ev = .finished → pending e = [] ∨ ∃ n, e.nodes = [n] ∧ isDirectory n.tree = false) := by
  have pay : ∀ {g : Enc}, g.state = .inPayload → g.nodes = e.nodes → pending g = pending e → stepEPayload g = (e', .ok ev) →
      EPend e' ∧ (ev = .doneFile → ∃ n rest, e'.nodes = n :: rest ∧ pending e = n.tree :: pending e') ∧
      (ev ∈ [EEv.nextFile, .payload, .data] → pending e' = pending e) ∧
      (ev = .finished → pending e = [] ∨ ∃ n, e.nodes = [n] ∧ isDirectory n.tree = false) := by
    intro g a1 a2 a3 a4
    obtain ⟨b1, b2, b3, b4, b5, b6⟩ := stepEPayload_pend a1 a4
    refine ⟨b1, fun h => by rw [← a3]; exact b2 h, fun h => ?_, fun h => .inr (by rw [← a2]; exact b4 h)⟩
    simp only [List.mem_cons, List.mem_nil_iff, or_false] at h
    rcases h with h | h | h
    · exact absurd h b5
    · rw [← a3]; exact b3 h
    · exact absurd h b6
  have dirs : ∀ {g : Enc} {n : ENode} {rest : List ENode}, postKids n.kids ++ n.tree :: above rest = pending e → stepDirents g n rest = (e', .ok ev) →
      EPend e' ∧ (ev = .doneFile → ∃ n rest, e'.nodes = n :: rest ∧ pending e = n.tree :: pending e') ∧
      (ev ∈ [EEv.nextFile, .payload, .data] → pending e' = pending e) ∧
      (ev = .finished → pending e = [] ∨ ∃ n, e.nodes = [n] ∧ isDirectory n.tree = false) := by
    intro g n rest a1 a2
    obtain ⟨b1, b2, b3⟩ := stepDirents_pend a2
    subst b2
    exact ⟨b1, fun h => (by cases h), fun _ => b3.trans a1, fun h => (by cases h)⟩
  have ent : ∀ {g : Enc} {n : ENode} {rest : List ENode}, g.nodes = n :: rest → n.kids = kidsOf n.tree → post n.tree ++ above rest = pending e → stepEntered g = (e', .ok ev) →
      EPend e' ∧ (ev = .doneFile → ∃ n rest, e'.nodes = n :: rest ∧ pending e = n.tree :: pending e') ∧
      (ev ∈ [EEv.nextFile, .payload, .data] → pending e' = pending e) ∧
      (ev = .finished → pending e = [] ∨ ∃ n, e.nodes = [n] ∧ isDirectory n.tree = false) := by
    intro g n rest a1 a2 a3 a4
    obtain ⟨b1, b2, b3⟩ := stepEntered_pend a1 a2 a4
    have b4 := (stepEntered_ev a4).1
    exact ⟨b1, fun h => absurd h b2, fun _ => b3.trans a3, fun h => (by rw [b4] at h; cases h)⟩
  have plain : ∀ (n : ENode) (rest : List ENode), e.nodes = n :: rest → pending e = n.tree :: above rest →
      EPend (eEnter e .finalize) ∧ (EEv.doneFile = .doneFile → ∃ n rest, (eEnter e .finalize).nodes = n :: rest ∧ pending e = n.tree :: pending (eEnter e .finalize)) ∧
      (EEv.doneFile ∈ [EEv.nextFile, .payload, .data] → pending (eEnter e .finalize) = pending e) ∧
      (EEv.doneFile = .finished → pending e = [] ∨ ∃ n, e.nodes = [n] ∧ isDirectory n.tree = false) := by
    intro n rest hn hpe
    refine ⟨⟨fun _ _ _ h => (by simp [eEnter] at h), fun _ _ _ h => (by simp [eEnter] at h)⟩, fun _ => ⟨n, rest, hn, ?_⟩, fun h => (by simp at h), fun h => (by cases h)⟩
    rw [hpe]
    unfold pending
    rw [show (eEnter e .finalize).nodes = n :: rest from hn]
    rfl
  unfold eStepNode at h
  split at h
  · simp at h
  · rename_i n rest hn
    have hpe : pending e = pendTop e.state n rest := by unfold pending; rw [hn]
    cases hs : e.state with
    | init =>
      rw [hs] at h hpe
      simp only [pendTop] at hpe
      simp only at h
      split at h
      · rename_i hnk
        refine pay (g := eEnter e .inPayload) rfl rfl ?_ h
        rw [hpe]
        unfold eNaked at hnk
        rw [hn] at hnk
        cases rest with
        | cons y ys => simp at hnk
        | nil =>
          unfold pending
          rw [show (eEnter e .inPayload).nodes = [n] from hn]
          simp only at hnk ⊢
          cases ht : n.tree with
          | file en a api c =>
            rw [post]
            show [n.tree] ++ above [] = _
            rw [ht]
          | symlink => rw [ht] at hnk; cases hnk
          | device => rw [ht] at hnk; cases hnk
          | special => rw [ht] at hnk; cases hnk
          | dir => rw [ht] at hnk; cases hnk
      · exact ent (g := eEnter e .entered) hn (hp.fresh n rest hn (.inl hs)) hpe.symm h
    | entered => rw [hs] at h hpe; simp only [pendTop] at hpe; exact ent hn (hp.fresh n rest hn (.inr (.inl hs))) hpe.symm h
    | entry =>
      rw [hs] at h hpe
      simp only [pendTop] at hpe
      have hk := hp.fresh n rest hn (.inr (.inr hs))
      cases ht : n.tree with
      | file en a api c =>
        cases api with
        | false =>
          rw [ht] at h
          refine pay (g := eEnter e .inPayload) rfl rfl ?_ h
          rw [hpe]
          unfold pending
          rw [show (eEnter e .inPayload).nodes = n :: rest from hn]
          show [n.tree] ++ above rest = _
          rw [ht, post]
        | true =>
          rw [ht] at h
          injection h with h1 h; injection h with h; subst h1 h
          exact plain n rest hn (by rw [hpe, ht, post]; rfl)
      | symlink en a tg =>
        rw [ht] at h
        injection h with h1 h; injection h with h; subst h1 h
        exact plain n rest hn (by rw [hpe, ht, post]; rfl)
      | device en a x y =>
        rw [ht] at h
        injection h with h1 h; injection h with h; subst h1 h
        exact plain n rest hn (by rw [hpe, ht, post]; rfl)
      | special en a =>
        rw [ht] at h
        injection h with h1 h; injection h with h; subst h1 h
        exact plain n rest hn (by rw [hpe, ht, post]; rfl)
      | dir en a api k =>
        cases api with
        | false =>
          rw [ht] at h
          refine dirs ?_ h
          rw [hpe, hk, ht, kidsOf, post, List.append_assoc]
          rfl
        | true =>
          rw [ht] at h
          injection h with h1 h; injection h with h; subst h1 h
          refine ⟨⟨fun _ _ _ h => (by simp [eEnter] at h), fun _ _ _ h => (by simp [eEnter] at h)⟩, fun h => (by cases h), fun _ => ?_, fun h => (by cases h)⟩
          rw [hpe]
          unfold pending
          rw [show (eEnter e .goodbye).nodes = n :: rest from hn]
          show [n.tree] ++ above rest = _
          rw [ht, post]
    | inPayload => rw [hs] at h; exact pay hs rfl rfl h
    | nextDirent =>
      rw [hs] at h hpe
      simp only [pendTop] at hpe
      refine dirs ?_ h
      rw [hpe, List.append_assoc]
      rfl
    | firstDirent =>
      rw [hs] at h hpe
      simp only [pendTop] at hpe
      refine dirs ?_ h
      rw [hpe, List.append_assoc]
      rfl
    | filename =>
      rw [hs] at h hpe
      simp only [pendTop] at hpe
      obtain ⟨name, t, r, hk⟩ := hp.named n rest hn hs
      simp only [hk] at h
      refine ent (g := eEnter (setTop e (freshNode t) (n :: rest)) .entered) (n := freshNode t) (rest := n :: rest) rfl (by cases t <;> rfl) ?_ h
      rw [hpe]
      show post t ++ (postKids n.kids.tail ++ n.tree :: above rest) = _
      rw [hk, postKids]
      show post t ++ (postKids r ++ n.tree :: above rest) = _
      simp only [List.append_assoc]
      rfl
    | goodbye =>
      rw [hs] at h hpe
      simp only [pendTop] at hpe
      injection h with h1 h; injection h with h; subst h1 h
      exact plain n rest hn (by rw [hpe]; rfl)
    | finalize =>
      rw [hs] at h hpe
      simp only [pendTop] at hpe
      cases rest with
      | nil =>
        injection h with h1 h; injection h with h; subst h1 h
        refine ⟨⟨fun _ _ _ h => (by simp [eEnter] at h), fun _ _ _ h => (by simp [eEnter] at h)⟩, fun h => (by cases h), fun h => (by simp at h), fun _ => .inl ?_⟩
        rw [hpe]; rfl
      | cons p up =>
        refine dirs ?_ h
        rw [hpe]
        rfl
    | eof =>
      rw [hs] at h hpe
      simp only [pendTop] at hpe
      injection h with h1 h; injection h with h; subst h1 h
      refine ⟨hp, fun h => (by cases h), fun h => (by simp at h), fun _ => .inl ?_⟩
      rw [hpe]

/-! ### The root stays -/

def rootTree : List ENode → Option Tree
  | [] => none
  | [n] => some n.tree
  | _ :: n :: r => rootTree (n :: r)

theorem root_top {n n' : ENode} (rest : List ENode) (h : n'.tree = n.tree) : rootTree (n' :: rest) = rootTree (n :: rest) := by
  cases rest with
  | nil => rw [rootTree, rootTree, h]
  | cons y ys => rw [rootTree, rootTree]

theorem stepDirents_root {e : Enc} {n : ENode} {rest : List ENode} (he : e.nodes = n :: rest ∨ rootTree e.nodes = rootTree (n :: rest)) :
    rootTree (stepDirents e n rest).1.nodes = rootTree (n :: rest) := by
  have he : rootTree e.nodes = rootTree (n :: rest) := by
    rcases he with h | h
    · rw [h]
    · exact h
  unfold stepDirents
  split
  · exact root_top rest rfl
  · split
    · exact he
    · split
      · exact root_top rest rfl
      · exact root_top rest rfl

theorem stepEntered_root (e : Enc) : rootTree (stepEntered e).1.nodes = rootTree e.nodes := by
  unfold stepEntered
  split
  · rfl
  · rename_i n rest hn
    rw [hn]
    exact root_top rest (entered_tree n _)

theorem stepEPayload_root (e : Enc) : rootTree (stepEPayload e).1.nodes = rootTree e.nodes := by
  unfold stepEPayload
  split
  · rfl
  · split
    · split
      · split <;> rfl
      · rfl
    · rfl

theorem eStepNode_root (e : Enc) : rootTree (eStepNode e).1.nodes = rootTree e.nodes := by
  unfold eStepNode
  split
  · rfl
  · rename_i n rest hn
    split
    · split
      · exact stepEPayload_root _
      · exact stepEntered_root _
    · exact stepEntered_root _
    · split
      · exact stepEPayload_root _
      · rw [hn]; exact stepDirents_root (.inl hn)
      · rfl
      · rfl
    · exact stepEPayload_root _
    · rw [hn]
      exact (stepDirents_root (.inr (by rw [hn]; exact root_top rest rfl))).trans (root_top rest rfl)
    · rw [hn]
      exact stepDirents_root (.inl hn)
    · split
      · rw [stepEntered_root, hn]
        rfl
      · rfl
    · rfl
    · split
      · rfl
      · rename_i p up
        rw [hn]
        refine (stepDirents_root (.inr ?_)).trans (root_top (n := p) up rfl)
        exact root_top (n := { p with kids := p.kids.tail, items := closeItem e.archiveOff p.items }) (n' := p) up rfl
    · rfl

/-- The objects a session is asked for, in their order. -/
theorem EDRun.objects {sz : Nat → Option Nat} {x : DEnc} {b : Bytes} {as : List EAsked} {o : EOutcome} {a : Res Bytes} (h : EDRun H q sz x b as o a)
    (hp : EPend x.enc) (hd : ∀ t, rootTree x.enc.nodes = some t → isDirectory t = true) : o = .finished → as.map (·.object) = (pending x.enc).map some := by
  have adv : ∀ {e : Enc}, EPend e → EPend (eAdvance e) ∧ pending (eAdvance e) = pending e := fun h => ⟨⟨h.fresh, h.named⟩, rfl⟩
  induction h with
  | @finished sz x x' hs =>
    intro _
    have h1 := (eStepD_step hs).1
    unfold eStep at h1
    split at h1
    · rename_i hst
      unfold pending
      split
      · rfl
      · rw [hst]; rfl
    · obtain ⟨_, _, _, h4⟩ := eStepNode_pend (adv hp).1 h1
      rcases h4 rfl with h4 | ⟨n, h4, h5⟩
      · rw [← (adv hp).2, h4]; rfl
      · have := hd n.tree (by rw [show x.enc.nodes = [n] from h4]; rfl)
        rw [this] at h5
        cases h5
  | error => intro h; cases h
  | crash => intro h; cases h
  | @done sz x x' b as o a hs _ ih =>
    intro ho
    have h1 := (eStep_buf (eStepD_step hs).1 (by simp)).2
    have hroot := eStepNode_root (eAdvance x.enc)
    rw [h1] at hroot
    obtain ⟨p1, p2, _, _⟩ := eStepNode_pend (adv hp).1 h1
    obtain ⟨n, rest, p3, p4⟩ := p2 rfl
    rw [List.map_cons, ih p1 (by rw [hroot]; exact hd) ho, ← (adv hp).2, p4]
    show eObject x'.enc :: _ = some n.tree :: _
    unfold eObject
    rw [p3]
    rfl
  | @data sz x x' x'' ev y b as o a hs hm hg _ ih =>
    intro ho
    obtain ⟨hb, h1⟩ := eStep_buf (eStepD_step hs).1 (by intro h; injection h with h; subst h; simp at hm)
    have hroot := eStepNode_root (eAdvance x.enc)
    rw [h1] at hroot
    obtain ⟨p1, _, p2, _⟩ := eStepNode_pend (adv hp).1 h1
    have he := (getDataD_ok hb hg).2.1
    rw [ih (by rw [he]; exact ⟨p1.fresh, p1.named⟩) (by rw [he]; show ∀ t, rootTree x'.enc.nodes = some t → _; rw [hroot]; exact hd) ho, he]
    show (pending x'.enc).map some = _
    rw [p2 hm, (adv hp).2]
  | dataError => intro h; cases h
  | dataCrash => intro h; cases h

theorem EPend.start (t : Tree) (w : Want) : EPend (eStartD t w).enc := by
  refine ⟨fun n rest h _ => ?_, fun n rest _ h => (by simp [eStartD, eStart] at h)⟩
  injection h with h1 h2
  subst h1
  cases t <;> rfl

end Casync.Archive
