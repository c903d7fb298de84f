import Verif.Spec.Encoder
import Verif.Spec.Archive
import Verif.Lemmas.ArchiveTree
import Verif.Props.Goodbye
/-!
The state machine of the encoder writes the archive of the tree.
-/
namespace Casync.Archive
open Casync Flags

variable {q : List Goodbye.NameItem → List Goodbye.NameItem}

theorem ERun.det {sz : Nat → Option Nat} {e : Enc} {b : Bytes} {o : EOutcome} (h : ERun q sz e b o) : ∀ {b' o'}, ERun q sz e b' o' → b = b' ∧ o = o' := by
  induction h with
  | finished a => intro b' o' h2; cases h2 <;> simp_all
  | error a => intro b' o' h2; cases h2 <;> simp_all
  | crash a => intro b' o' h2; cases h2 <;> simp_all
  | done a _ ih =>
    intro b' o' h2
    cases h2 with
    | done c d => rw [a] at c; injection c with c _; subst c; exact ih d
    | finished c => rw [a] at c; simp at c
    | error c => rw [a] at c; simp at c
    | crash c => rw [a] at c; simp at c
    | data c d => rw [a] at c; injection c with _ c; injection c with c; subst c; simp at d
    | dataError c d => rw [a] at c; injection c with _ c; injection c with c; subst c; simp at d
    | dataCrash c d => rw [a] at c; injection c with _ c; injection c with c; subst c; simp at d
  | @data sz e e1 e2 ev x b o a m g _ ih =>
    intro b' o' h2
    cases h2 with
    | done c d => rw [a] at c; injection c with _ c; injection c with c; subst c; simp at m
    | finished c => rw [a] at c; injection c with _ c; injection c with c; subst c; simp at m
    | error c => rw [a] at c; simp at c
    | crash c => rw [a] at c; simp at c
    | data c d g2 r =>
      rw [a] at c; injection c with c1 c; subst c1
      rw [g] at g2; injection g2 with g1 g2; subst g1; injection g2 with g2; subst g2
      obtain ⟨h1, h2⟩ := ih r
      exact ⟨by rw [h1], h2⟩
    | dataError c d g2 => rw [a] at c; injection c with c1 c; subst c1; rw [g] at g2; simp at g2
    | dataCrash c d g2 => rw [a] at c; injection c with c1 c; subst c1; rw [g] at g2; simp at g2
  | @dataError sz e e1 e2 ev x a m g =>
    intro b' o' h2
    cases h2 with
    | done c d => rw [a] at c; injection c with _ c; injection c with c; subst c; simp at m
    | finished c => rw [a] at c; injection c with _ c; injection c with c; subst c; simp at m
    | error c => rw [a] at c; simp at c
    | crash c => rw [a] at c; simp at c
    | data c d g2 r => rw [a] at c; injection c with c1 c; subst c1; rw [g] at g2; simp at g2
    | dataError c d g2 => rw [a] at c; injection c with c1 c; subst c1; rw [g] at g2; simp_all
    | dataCrash c d g2 => rw [a] at c; injection c with c1 c; subst c1; rw [g] at g2; simp at g2
  | @dataCrash sz e e1 e2 ev a m g =>
    intro b' o' h2
    cases h2 with
    | done c d => rw [a] at c; injection c with _ c; injection c with c; subst c; simp at m
    | finished c => rw [a] at c; injection c with _ c; injection c with c; subst c; simp at m
    | error c => rw [a] at c; simp at c
    | crash c => rw [a] at c; simp at c
    | data c d g2 r => rw [a] at c; injection c with c1 c; subst c1; rw [g] at g2; simp at g2
    | dataError c d g2 => rw [a] at c; injection c with c1 c; subst c1; rw [g] at g2; simp at g2
    | dataCrash c d g2 => exact ⟨rfl, rfl⟩

/-- An encoder between two pieces of data. -/
def eat (s : EState) (nodes : List ENode) (off : Nat) (pay : Nat := 0) : Enc :=
  { state := s, nodes := nodes, buf := [], archiveOff := off, payloadOff := pay }

theorem ERun.congr {sz : Nat → Option Nat} {e1 e2 : Enc} {b : Bytes} {o : EOutcome} (h : eStep e1 = eStep e2) (hr : ERun q sz e2 b o) : ERun q sz e1 b o := by
  cases hr with
  | finished a => exact .finished (h.trans a)
  | error a => exact .error (h.trans a)
  | crash a => exact .crash (h.trans a)
  | done a r => exact .done (h.trans a) r
  | data a m g r => exact .data (h.trans a) m g r
  | dataError a m g => exact .dataError (h.trans a) m g
  | dataCrash a m g => exact .dataCrash (h.trans a) m g

/-- A part of every session that begins in `e`: these bytes, and then as from `e'`. -/
def EReach (q : List Goodbye.NameItem → List Goodbye.NameItem) (e : Enc) (bs : Bytes) (e' : Enc) : Prop :=
  ∀ sz, Positive sz → ∃ sz', Positive sz' ∧ ∀ b o, ERun q sz' e' b o → ERun q sz e (bs ++ b) o

theorem EReach.refl (e : Enc) : EReach q e [] e := fun sz h => ⟨sz, h, fun _ _ r => r⟩

theorem EReach.trans {a b c : Enc} {x y : Bytes} (h1 : EReach q a x b) (h2 : EReach q b y c) : EReach q a (x ++ y) c := by
  intro sz hp
  obtain ⟨s1, p1, r1⟩ := h1 sz hp
  obtain ⟨s2, p2, r2⟩ := h2 s1 p1
  exact ⟨s2, p2, fun b o r => by rw [List.append_assoc]; exact r1 _ _ (r2 _ _ r)⟩

theorem EReach.congr {a b c : Enc} {x : Bytes} (h : eStep a = eStep b) (h1 : EReach q b x c) : EReach q a x c := by
  intro sz hp
  obtain ⟨s1, p1, r1⟩ := h1 sz hp
  exact ⟨s1, p1, fun b o r => .congr h (r1 _ _ r)⟩

theorem Positive.tail {sz : Nat → Option Nat} (h : Positive sz) : Positive (fun n => sz (n + 1)) := fun n k hk => h (n + 1) k hk

theorem EReach.done {a b : Enc} (h : eStep a = (b, .ok .doneFile)) : EReach q a [] b := fun sz hp => ⟨sz, hp, fun _ _ r => .done h r⟩

theorem eStep_advance {e : Enc} {off pay : Nat} {s : EState} {nodes : List ENode} {x : Bytes} (hs : s ≠ .eof) 
    (he : e = { state := s, nodes := nodes, buf := x, archiveOff := off, payloadOff := pay }) :
    eStep e = eStep (eat s nodes (off + x.length) (pay + x.length)) := by
  subst he
  unfold eStep
  rw [if_neg hs, if_neg (show (eat s nodes (off + x.length) (pay + x.length)).state ≠ .eof from hs)]
  congr 1

theorem getData_make {e : Enc} {k : Option Nat} {x : Bytes} (hb : e.buf = []) (h : makeData q e k = .ok x) : getData q e k = (setBuf e x, .ok x) := by
  unfold getData
  rw [if_neg (by rw [hb]; simp), h]

/-- A piece of data that does not depend on the suggested size. -/
theorem EReach.data {a : Enc} {ev : EEv} {s : EState} {nodes : List ENode} {off : Nat} {x : Bytes} (h : eStep a = (eat s nodes off, .ok ev))
    (hm : ev = .nextFile ∨ ev = .data) (hs : s ≠ .eof)
    (hg : ∀ k, makeData q (eat s nodes off) k = .ok x) :
    EReach q a x (eat s nodes (off + x.length) x.length) := by
  intro sz hp
  refine ⟨fun n => sz (n + 1), hp.tail, fun b o r => ?_⟩
  refine .data h (by rcases hm with rfl | rfl <;> simp) (getData_make rfl (hg _)) (.congr (eStep_advance hs rfl) ?_)
  show ERun q _ (eat s nodes (off + x.length) (0 + x.length)) b o
  rw [Nat.zero_add]
  exact r

theorem eStep_node {e : Enc} (hs : e.state ≠ .eof) (hb : e.buf = []) : eStep e = eStepNode e := by
  unfold eStep eAdvance
  rw [if_neg hs, hb]
  cases e; simp only at hb; subst hb; rfl

/-- The state in which an object has just been entered. -/
theorem reach_entry {t : Tree} {rest : List ENode} {off : Nat} :
    EReach q (eat .entered (freshNode t :: rest) off) (headBytes t)
      (eat .entry (enteredNode (freshNode t) off :: rest) (off + (headBytes t).length) (headBytes t).length) := by
  refine EReach.data (ev := .nextFile) ?_ (.inl rfl) (by simp) ?_
  · rw [eStep_node (by simp [eat]) rfl]; rfl
  · intro k
    unfold makeData
    cases t <;> simp only [eat, List.drop_zero, freshNode, enteredNode]

/-- The content of a file. -/
theorem reach_content {e : Entry} {a : Attrs} {c : Bytes} {n : ENode} {rest : List ENode} (hn : n.tree = .file e a false c) (hr : rest ≠ []) :
    ∀ (m off pay : Nat), c.length - pay = m → pay ≤ c.length →
    EReach q (eat .inPayload (n :: rest) off pay) (c.drop pay) (eat .finalize (n :: rest) (off + (c.length - pay))) := by
  intro m
  induction m using Nat.strongRecOn with
  | ind m ih =>
    intro off pay hm hp
    have hstep : ∀ p, eStepNode (eat .inPayload (n :: rest) off p) = stepEPayload (eat .inPayload (n :: rest) off p) := fun _ => rfl
    by_cases hz : pay = c.length
    · subst hz
      rw [List.drop_length, Nat.sub_self, Nat.add_zero]
      refine EReach.done ?_
      rw [eStep_node (by simp [eat]) rfl, hstep]
      unfold stepEPayload
      have hnk : eNaked (eat .inPayload (n :: rest) off c.length) = false := by
        unfold eNaked eat
        cases rest with
        | nil => exact absurd rfl hr
        | cons _ _ => rfl
      simp only [eat, hn] at hnk ⊢
      refine (if_pos (Nat.le_refl _)).trans ((if_neg ?_).trans rfl)
      rw [hnk]; simp
    · intro sz hpos
      have hk : ∃ k, 0 < k ∧ pay + k ≤ c.length ∧ getPayloadData c pay (sz 0) = (c.drop pay).take k := by
        unfold getPayloadData
        have hb : bufferSize = 65536 := rfl
        cases hs : sz 0 with
        | none => exact ⟨min bufferSize (c.length - pay), by omega, by omega, rfl⟩
        | some s =>
          have := hpos 0 s hs
          exact ⟨min (min bufferSize (c.length - pay)) s, by omega, by omega, rfl⟩
      obtain ⟨k, k0, k1, k2⟩ := hk
      have hlen : ((c.drop pay).take k).length = k := by rw [List.length_take, List.length_drop]; omega
      obtain ⟨s2, p2, r2⟩ := ih (c.length - (pay + k)) (by omega) (off + k) (pay + k) rfl k1 (fun n => sz (n + 1)) hpos.tail
      refine ⟨s2, p2, fun b o r => ?_⟩
      have := r2 b o (by
        rw [show off + k + (c.length - (pay + k)) = off + (c.length - pay) by omega]; exact r)
      have hsplit : c.drop pay = (c.drop pay).take k ++ c.drop (pay + k) := by
        rw [← List.drop_drop, List.take_append_drop]
      rw [hsplit, List.append_assoc]
      refine .data (e' := eat .inPayload (n :: rest) off pay)
        (e'' := setBuf (eat .inPayload (n :: rest) off pay) ((c.drop pay).take k)) (ev := .payload) ?_ (by simp) (getData_make rfl ?_) ?_
      · rw [eStep_node (by simp [eat]) rfl, hstep]
        unfold stepEPayload
        simp only [eat, hn]
        exact if_neg (show ¬ pay ≥ c.length by omega)
      · unfold makeData
        simp only [eat, hn]
        exact (if_neg (show ¬ pay ≥ c.length by omega)).trans (by rw [k2])
      · have hadv : eStep (setBuf (eat .inPayload (n :: rest) off pay) ((c.drop pay).take k)) = eStep (eat .inPayload (n :: rest) (off + k) (pay + k)) := by
          have := eStep_advance (e := setBuf (eat .inPayload (n :: rest) off pay) ((c.drop pay).take k)) (off := off) (pay := pay) (s := .inPayload)
            (nodes := n :: rest) (x := (c.drop pay).take k) (by decide) rfl
          rwa [hlen] at this
        exact .congr hadv this

theorem step_entry_file {n : ENode} {rest : List ENode} {off pay : Nat} {e : Entry} {a : Attrs} {c : Bytes} (hn : n.tree = .file e a false c) :
    eStep (eat .entry (n :: rest) off pay) = eStep (eat .inPayload (n :: rest) off) := by
  rw [eStep_node (by simp [eat]) rfl, eStep_node (by simp [eat]) rfl]
  obtain ⟨t, k, i, o⟩ := n
  simp only at hn
  subst hn
  rfl

theorem step_entry_dir {n : ENode} {rest : List ENode} {off pay : Nat} {e : Entry} {a : Attrs} {c : Kids} (hn : n.tree = .dir e a false c) :
    eStep (eat .entry (n :: rest) off pay) = eStep (eat .firstDirent (n :: rest) off) := by
  rw [eStep_node (by simp [eat]) rfl, eStep_node (by simp [eat]) rfl]
  obtain ⟨t, k, i, o⟩ := n
  simp only at hn
  subst hn
  rfl

theorem step_entry_api {n : ENode} {rest : List ENode} {off pay : Nat} {e : Entry} {a : Attrs} {c : Kids} (hn : n.tree = .dir e a true c) :
    eStep (eat .entry (n :: rest) off pay) = (eat .goodbye (n :: rest) off, .ok .data) := by
  rw [eStep_node (by simp [eat]) rfl]
  obtain ⟨t, k, i, o⟩ := n
  simp only at hn
  subst hn
  rfl

theorem step_goodbye {n : ENode} {rest : List ENode} {off pay : Nat} :
    eStep (eat .goodbye (n :: rest) off pay) = (eat .finalize (n :: rest) off, .ok .doneFile) := by
  rw [eStep_node (by simp [eat]) rfl]; rfl

theorem step_filename {n : ENode} {rest : List ENode} {off pay : Nat} {k : Bool} {name : Bytes} {t : Tree} {r : Kids} (hn : n.kids = .cons k name t r) :
    eStep (eat .filename (n :: rest) off pay) = eStep (eat .entered (freshNode t :: n :: rest) off) := by
  rw [eStep_node (by simp [eat]) rfl, eStep_node (by simp [eat]) rfl]
  obtain ⟨t', k', i, o⟩ := n
  simp only at hn
  subst hn
  rfl

theorem step_finalize {c n : ENode} {rest : List ENode} {off : Nat} :
    eStep (eat .finalize (c :: n :: rest) off) =
      stepDirents (eat .nextDirent (n :: rest) off) { n with items := closeItem off n.items, kids := n.kids.tail } rest := by
  rw [eStep_node (by simp [eat]) rfl]; rfl

theorem step_first {n : ENode} {rest : List ENode} {off : Nat} :
    eStep (eat .firstDirent (n :: rest) off) = stepDirents (eat .firstDirent (n :: rest) off) n rest := by
  rw [eStep_node (by simp [eat]) rfl]; rfl

/-- The end of an object without content. -/
theorem step_entry_plain {n : ENode} {rest : List ENode} {off pay : Nat}
    (hn : match n.tree with | .file _ _ false _ => False | .dir .. => False | _ => True) :
    eStep (eat .entry (n :: rest) off pay) = (eat .finalize (n :: rest) off, .ok .doneFile) := by
  rw [eStep_node (by simp [eat]) rfl]
  unfold eStepNode
  obtain ⟨t, k, i, o⟩ := n
  cases t with
  | file e a api c => cases api with
    | true => rfl
    | false => exact hn.elim
  | dir e a api k => exact hn.elim
  | symlink e a t => rfl
  | device e a x y => rfl
  | special e a => rfl

theorem rowsOf_ok (hq : Goodbye.Sorts q) {items : List Goodbye.NameItem} {start : Nat}
    (h : ∀ x ∈ items, x.startOffset < x.endOffset ∧ x.endOffset ≤ start) : Goodbye.goodbyeTable q items start = .ok (rowsOf q items start) := by
  obtain ⟨tb, h1, _⟩ := Goodbye.C21_lookup q hq items 0 start (fun x hx => ⟨Nat.zero_le _, h x hx⟩)
  unfold rowsOf
  rw [h1]

/-- The GOODBYE record of a directory and what follows. -/
theorem reach_table (hq : Goodbye.Sorts q) {n : ENode} {rest : List ENode} {off : Nat} (ha : Enc) 
    (hst : eStep ha = (eat .goodbye (n :: rest) off, .ok .data))
    (hi : ∀ x ∈ n.items, x.startOffset < x.endOffset ∧ x.endOffset ≤ off) (ho : n.entryOff < off) :
    EReach q ha (goodbyeBytes (rowsOf q n.items off) (off - n.entryOff))
      (eat .finalize (n :: rest) (off + (goodbyeBytes (rowsOf q n.items off) (off - n.entryOff)).length)) := by
  have h1 : EReach q ha (goodbyeBytes (rowsOf q n.items off) (off - n.entryOff)) _ :=
    EReach.data (ev := .data) hst (.inr rfl) (by simp) (by
      intro k
      unfold makeData
      simp only [eat, Nat.sub_zero, rowsOf_ok hq hi, List.drop_zero]
      refine (if_neg (show ¬ off < 0 by omega)).trans ?_
      simp [ho])
  have h2 : EReach q (eat .goodbye (n :: rest) (off + (goodbyeBytes (rowsOf q n.items off) (off - n.entryOff)).length)
      (goodbyeBytes (rowsOf q n.items off) (off - n.entryOff)).length) [] 
      (eat .finalize (n :: rest) (off + (goodbyeBytes (rowsOf q n.items off) (off - n.entryOff)).length)) :=
    EReach.done step_goodbye
  have := h1.trans h2
  rwa [List.append_nil] at this

theorem closeItem_append (off : Nat) (i : Goodbye.NameItem) : ∀ l, closeItem off (l ++ [i]) = l ++ [{ i with endOffset := off }]
  | [] => rfl
  | [a] => rfl
  | a :: b :: l => by
    have := closeItem_append off i (b :: l)
    simp only [List.cons_append, closeItem] at this ⊢
    rw [this]

/-- The first step of a directory, given by what is left of it. -/
theorem stepDirents_skip {e : Enc} {n : ENode} {rest : List ENode} {name : Bytes} {t : Tree} {r : Kids} (he : e.nodes.length < 64) :
    stepDirents e { n with kids := .cons false name t r } rest = stepDirents e { n with kids := r } rest := by
  unfold stepDirents
  simp only [skipKids]
  rw [if_neg (by omega)]
  cases r with
  | nil => rfl
  | cons k n' t' r' => simp only

/-- The result does not depend on the state left. -/
theorem stepDirents_from {e e' : Enc} {n : ENode} {rest : List ENode} (he : e.nodes.length < 64 ∨ n.kids = .nil) (he' : e'.nodes.length < 64 ∨ n.kids = .nil) (hb : e.buf = e'.buf)
    (ho : e.archiveOff = e'.archiveOff) : stepDirents e n rest = stepDirents e' n rest := by
  obtain ⟨s, ns, b, a, p⟩ := e
  obtain ⟨s', ns', b', a', p'⟩ := e'
  simp only at hb ho
  subst hb ho
  unfold stepDirents
  cases hk : n.kids with
  | nil => rfl
  | cons k name t r =>
    simp only
    rw [hk] at he he'
    rw [if_neg (by rcases he with h | h <;> simp at h; omega), if_neg (by rcases he' with h | h <;> simp at h; omega)]
    cases skipKids (Kids.cons k name t r) <;> rfl

theorem step_first_nil {n : ENode} {rest : List ENode} {off : Nat} (hk : n.kids = .nil) : eStep (eat .firstDirent (n :: rest) off) = (eat .goodbye (n :: rest) off, .ok .data) := by
      rw [step_first]
      unfold stepDirents
      rw [hk]
      simp only [setTop, eEnter, eat]

theorem EReach.cast {a b b' : Enc} {x x' : Bytes} (h : EReach q a x b) (hx : x' = x) (hb : b' = b) : EReach q a x' b' := by
  rw [hx, hb]; exact h

theorem nil_aux (F : List Goodbye.NameItem → Nat → Nat → Bytes) (items : List Goodbye.NameItem) (off ent : Nat) (p : Bytes × List Goodbye.NameItem) (hp : p = ([], [])) :
    p.1 ++ F (items ++ p.2) (off + p.1.length) (off + p.1.length - ent) = F items off (off - ent) ∧
    off + p.1.length + (F (items ++ p.2) (off + p.1.length) (off + p.1.length - ent)).length = off + (F items off (off - ent)).length := by
  subst hp
  simp

theorem enc_nil (hq : Goodbye.Sorts q) (n : ENode) (rest : List ENode) (off : Nat) (hk : n.kids = .nil) 
  (hi : ∀ x ∈ n.items, x.startOffset < x.endOffset ∧ x.endOffset ≤ off) (ho: n.entryOff < off) (p : Bytes × List Goodbye.NameItem) (hp : p = ([], [])) :
    EReach q (eat .firstDirent (n :: rest) off)
      (p.1 ++ goodbyeBytes (rowsOf q (n.items ++ p.2) (off + p.1.length)) (off + p.1.length - n.entryOff))
      (eat .finalize (n :: rest) (off + p.1.length +
        (goodbyeBytes (rowsOf q (n.items ++ p.2) (off + p.1.length)) (off + p.1.length - n.entryOff)).length)) := by
  have h := reach_table hq _ (step_first_nil (rest := rest) hk) hi ho
  have e := nil_aux (fun i o d => goodbyeBytes (rowsOf q i o) d) n.items off n.entryOff p hp
  exact EReach.cast h e.1 (congrArg (eat .finalize (n :: rest)) e.2)

mutual
theorem enc_tree (hq : Goodbye.Sorts q) : ∀ (t : Tree) (rest : List ENode) (off : Nat), (rest ≠ [] ∨ t.isDir = true) → rest.length + t.height ≤ 64 →
    ∃ n, EReach q (eat .entered (freshNode t :: rest) off) (encTree q off t) (eat .finalize (n :: rest) (off + (encTree q off t).length))
  | .file e a api c, rest, off, hr, hh => by
    have hr' : rest ≠ [] := hr.resolve_right (by simp [Tree.isDir])
    refine ⟨freshNode (.file e a api c), ?_⟩
    unfold encTree
    rw [List.length_append, ← Nat.add_assoc]
    refine EReach.trans reach_entry ?_
    cases api with
    | true =>
      simp only [stored, if_true, List.length_nil, Nat.add_zero]
      exact EReach.done (step_entry_plain trivial)
    | false =>
      simp only [stored, Bool.false_eq_true, if_false]
      have h := reach_content (q := q) (e := e) (a := a) (c := c) (n := freshNode (.file e a false c)) (rest := rest) rfl hr' c.length
        (off + (headBytes (.file e a false c)).length) 0 (by omega) (by omega)
      rw [List.drop_zero, Nat.sub_zero] at h
      exact EReach.congr (step_entry_file rfl) h
  | .symlink e a tg, rest, off, hr, hh => by
    refine ⟨freshNode (.symlink e a tg), ?_⟩
    unfold encTree
    have := EReach.trans (q := q) (reach_entry (t := .symlink e a tg) (rest := rest) (off := off)) (EReach.done (step_entry_plain trivial))
    rw [List.append_nil] at this
    exact this
  | .device e a x y, rest, off, hr, hh => by
    refine ⟨freshNode (.device e a x y), ?_⟩
    unfold encTree
    have := EReach.trans (q := q) (reach_entry (t := .device e a x y) (rest := rest) (off := off)) (EReach.done (step_entry_plain trivial))
    rw [List.append_nil] at this
    exact this
  | .special e a, rest, off, hr, hh => by
    refine ⟨freshNode (.special e a), ?_⟩
    unfold encTree
    have := EReach.trans (q := q) (reach_entry (t := .special e a) (rest := rest) (off := off)) (EReach.done (step_entry_plain trivial))
    rw [List.append_nil] at this
    exact this
  | .dir e a true kids, rest, off, hr, hh => by
    refine ⟨{ freshNode (.dir e a true kids) with entryOff := off }, ?_⟩
    have hl := headBytes_length (.dir e a true kids)
    have h2 := reach_table (q := q) hq (n := { freshNode (.dir e a true kids) with entryOff := off }) (rest := rest) (off := off + (headBytes (.dir e a true kids)).length)
      (eat .entry ({ freshNode (.dir e a true kids) with entryOff := off } :: rest) (off + (headBytes (.dir e a true kids)).length) (headBytes (.dir e a true kids)).length)
      (step_entry_api rfl) (by simp [freshNode]) (by simp only; omega)
    have := EReach.trans (reach_entry (t := .dir e a true kids) (rest := rest) (off := off)) h2
    unfold encTree
    rw [List.length_append, ← Nat.add_assoc]
    have e1 : off + (headBytes (.dir e a true kids)).length - off = (headBytes (.dir e a true kids)).length := by omega
    simp only [freshNode, e1] at this ⊢
    exact this
  | .dir e a false kids, rest, off, hr, hh => by
    have hl := headBytes_length (.dir e a false kids)
    rw [Tree.height] at hh
    obtain ⟨n', h⟩ := enc_kids hq kids { freshNode (.dir e a false kids) with entryOff := off } rest (off + (headBytes (.dir e a false kids)).length)
      rfl (by simp [freshNode]) (by simp only; omega) (by omega)
    refine ⟨n', ?_⟩
    have hc : eStep (eat .entry ({ freshNode (.dir e a false kids) with entryOff := off } :: rest) (off + (headBytes (.dir e a false kids)).length) (headBytes (.dir e a false kids)).length) =
        eStep (eat .firstDirent ({ freshNode (.dir e a false kids) with entryOff := off } :: rest) (off + (headBytes (.dir e a false kids)).length)) := step_entry_dir rfl
    have := EReach.trans (reach_entry (t := .dir e a false kids) (rest := rest) (off := off)) (EReach.congr hc h)
    unfold encTree
    simp only [List.length_append]
    have e1 : ∀ x, off + (headBytes (.dir e a false kids)).length + x - off = (headBytes (.dir e a false kids)).length + x := by intro x; omega
    simp only [freshNode, List.nil_append, e1] at this
    simp only [← Nat.add_assoc] at this ⊢
    exact this
theorem enc_kids (hq : Goodbye.Sorts q) : ∀ (k : Kids) (n : ENode) (rest : List ENode) (off : Nat), n.kids = k →
    (∀ x ∈ n.items, x.startOffset < x.endOffset ∧ x.endOffset ≤ off) → n.entryOff < off → rest.length + 1 + k.height ≤ 64 →
    ∃ n', EReach q (eat .firstDirent (n :: rest) off)
      ((encKids q off k).1 ++ goodbyeBytes (rowsOf q (n.items ++ (encKids q off k).2) (off + (encKids q off k).1.length)) (off + (encKids q off k).1.length - n.entryOff))
      (eat .finalize (n' :: rest) (off + (encKids q off k).1.length +
        (goodbyeBytes (rowsOf q (n.items ++ (encKids q off k).2) (off + (encKids q off k).1.length)) (off + (encKids q off k).1.length - n.entryOff)).length))
  | .nil, n, rest, off, hk, hi, ho, hh => by
    exact ⟨n, enc_nil hq n rest off hk hi ho _ (by rw [encKids])⟩
  | .cons false name t r, n, rest, off, hk, hi, ho, hh => by
    rw [Kids.height] at hh
    obtain ⟨n', h⟩ := enc_kids hq r { n with kids := r } rest off rfl hi ho (by omega)
    refine ⟨n', ?_⟩
    unfold encKids
    refine EReach.congr ?_ h
    rw [step_first, step_first]
    have hn : n = { n with kids := .cons false name t r } := by cases n; simp only at hk; subst hk; rfl
    conv => lhs; arg 2; rw [hn]
    rw [stepDirents_skip (by simp [eat]; omega)]
    exact stepDirents_from (.inl (by simp [eat]; omega)) (.inl (by simp [eat]; omega)) rfl rfl
  | .cons true name t r, n, rest, off, hk, hi, ho, hh => by
    rw [Kids.height] at hh
    have hth := t.height_pos
    let n1 : ENode := { n with items := addItem n.items name off }
    have hd : EReach q (eat .firstDirent (n :: rest) off) (strRecord .filename name) _ :=
      EReach.data (ev := .data) (s := .filename) (nodes := n1 :: rest) (off := off) (x := strRecord .filename name) (by
        rw [step_first]
        unfold stepDirents
        rw [hk]
        simp only [skipKids]
        rw [if_neg (by simp [eat]; omega)]
        simp only [n1, ← hk]
        rfl) (.inr rfl) (by simp) (by
        intro k
        unfold makeData
        simp only [eat, n1, hk, List.drop_zero])
    obtain ⟨c, ht⟩ := enc_tree hq t (n1 :: rest) (off + (strRecord .filename name).length) (.inl (by simp)) (by rw [List.length_cons]; omega)
    have hc1 : eStep (eat .filename (n1 :: rest) (off + (strRecord .filename name).length) (strRecord .filename name).length) =
        eStep (eat .entered (freshNode t :: n1 :: rest) (off + (strRecord .filename name).length)) := step_filename (n := n1) hk
    generalize hL : (encTree q (off + (strRecord .filename name).length) t) = tb at ht
    have htl : 64 ≤ tb.length := by
      rw [← hL]
      exact Nat.le_trans (headBytes_length t) (encTree_length _ _ _)
    let n2 : ENode := { n with items := n.items ++ [⟨nameHash name, off, off + (strRecord .filename name).length + tb.length⟩], kids := r }
    obtain ⟨n', h⟩ := enc_kids hq r n2 rest (off + (strRecord .filename name).length + tb.length) rfl (by
      intro x hx
      rcases List.mem_append.1 hx with hx | hx
      · have := hi x hx; omega
      · rw [List.mem_singleton] at hx; subst hx; simp only; omega) (by simp only [n2]; omega) (by omega)
    refine ⟨n', ?_⟩
    have hc2 : eStep (eat .finalize (c :: n1 :: rest) (off + (strRecord .filename name).length + tb.length)) =
        eStep (eat .firstDirent (n2 :: rest) (off + (strRecord .filename name).length + tb.length)) := by
      rw [step_finalize, step_first]
      have e1 : closeItem (off + (strRecord .filename name).length + tb.length) n1.items = n2.items := closeItem_append _ _ _
      have e2 : ({ n1 with items := closeItem (off + (strRecord .filename name).length + tb.length) n1.items, kids := n1.kids.tail } : ENode) = n2 := by
        rw [e1]
        simp only [n1, n2, hk, Kids.tail]
      rw [e2]
      have hlen : (n2 :: rest).length < 64 := by rw [List.length_cons]; omega
      exact stepDirents_from (.inl (by simp [eat]; omega)) (.inl hlen) rfl rfl
    have := EReach.trans hd (EReach.trans (EReach.congr hc1 ht) (EReach.congr hc2 h))
    unfold encKids
    simp only [hL, List.length_append, n2] at this ⊢
    simp only [List.append_assoc, List.cons_append, List.nil_append, ← Nat.add_assoc] at this ⊢
    exact this
end

/-- A tree with a directory at its root. -/
theorem enc_session (hq : Goodbye.Sorts q) {t : Tree} (hd : t.isDir = true) (hh : t.height ≤ 64) {sz : Nat → Option Nat} (hs : Positive sz) :
    ERun q sz (eStart t) (encTree q 0 t) .finished := by
  obtain ⟨n, h⟩ := enc_tree hq t [] 0 (.inr hd) (by simpa using hh)
  obtain ⟨s', _, r⟩ := h sz hs
  have := r [] .finished (.finished (e' := eEnter (eat .finalize [n] (0 + (encTree q 0 t).length)) .eof) (by rw [eStep_node (by simp [eat]) rfl]; rfl))
  rw [List.append_nil] at this
  refine .congr ?_ this
  unfold eStart
  rw [eStep_node (by simp) rfl, eStep_node (by simp [eat]) rfl]
  cases t with
  | dir e a api k => rfl
  | file e a api c => cases hd
  | symlink e a t => cases hd
  | device e a x y => cases hd
  | special e a => cases hd

end Casync.Archive
