import Verif.Lemmas.SeekPlain
/-!
Seeks in the archive of a tree: what holds while one is under way, and what `ca_decoder_do_seek()` does.
-/
namespace Casync.Archive
open Casync Flags

variable {q : List Goodbye.NameItem → List Goodbye.NameItem} {A : Bytes} {t : Tree} {ff : Word} {f' : FF}

/-! ### Looking up a name -/

theorem locate_ok {s : Tree} {off : Nat} {y : Bytes} (hp : Placed q A s off y) (hd : s.isDir = true) (hq : Goodbye.Sorts q) (c : Bytes) (idx : Nat) :
    ∃ r, Goodbye.locate (grows q off s) (gst q off s) off (nameHash c) idx = .ok r := by
  obtain ⟨P, h, _⟩ := hp.lookup hd hq c
  exact ⟨_, h idx⟩

theorem locate_some {s : Tree} {off : Nat} {y : Bytes} (hp : Placed q A s off y) (hd : s.isDir = true) (hq : Goodbye.Sorts q) {c : Bytes} {idx o e : Nat}
    (h : Goodbye.locate (grows q off s) (gst q off s) off (nameHash c) idx = .ok (some (o, e))) :
    ∃ nm s' r, Suf (.cons true nm s' r) s.kids ∧ KidsAt q A o (.cons true nm s' r) (gbytes q off s ++ y) ∧
      e = o + (17 + nm.length) + (encTree q (o + (17 + nm.length)) s').length := by
  obtain ⟨P, h1, h2⟩ := hp.lookup hd hq c
  rw [h1 idx] at h
  injection h with h
  cases hi : P[idx]? with
  | none => rw [hi] at h; cases h
  | some it =>
    rw [hi] at h
    injection h with h
    injection h with e1 e2
    obtain ⟨⟨nm, s', r, hit⟩, _⟩ := (kids_items _ _ (hp.kids hd)).1 it ((h2 it).1 (List.mem_of_getElem? hi)).1
    subst e1 e2
    exact ⟨nm, s', r, hit.suf, hit.at_, hit.fin⟩

/-- The entries with the hash of `c` that have been tried are not named `c`. -/
def NoMatch (q : List Goodbye.NameItem → List Goodbye.NameItem) (A : Bytes) (off : Nat) (s : Tree) (y : Bytes) (c : Bytes) (idx : Nat) : Prop :=
  ∀ j, j < idx → ∀ o e nm s' r, Goodbye.locate (grows q off s) (gst q off s) off (nameHash c) j = .ok (some (o, e)) →
    Suf (.cons true nm s' r) s.kids → KidsAt q A o (.cons true nm s' r) (gbytes q off s ++ y) → nm ≠ c

theorem locate_none {s : Tree} {off : Nat} {y : Bytes} (hp : Placed q A s off y) (hd : s.isDir = true) (hq : Goodbye.Sorts q) {c : Bytes} {idx : Nat}
    (h : Goodbye.locate (grows q off s) (gst q off s) off (nameHash c) idx = .ok none) (hn : NoMatch q A off s y c idx) : ∀ x ∈ s.kids.listed, x.1 ≠ c := by
  obtain ⟨P, h1, h2⟩ := hp.lookup hd hq c
  rw [h1 idx] at h
  injection h with h
  have hlen : P.length ≤ idx := by
    cases hi : P[idx]? with
    | none => exact List.getElem?_eq_none_iff.1 hi
    | some it => rw [hi] at h; cases h
  intro x hx hxc
  obtain ⟨nm, s'⟩ := x
  simp only at hxc
  subst hxc
  obtain ⟨it, a, r, hit⟩ := (kids_items _ _ (hp.kids hd)).2 nm s' hx
  obtain ⟨j, hj⟩ := List.mem_iff_getElem?.1 ((h2 it).2 ⟨a, hit.hash⟩)
  have hjl : j < P.length := (List.getElem?_eq_some_iff.1 hj).1
  refine hn j (by omega) it.startOffset it.endOffset nm s' r ?_ hit.suf hit.at_ rfl
  rw [h1 j, hj]
  rfl

/-! ### A seek under way -/

def Goal.sibling : Goal → Bool
  | .next => true
  | _ => false

def Goal.pay : Goal → Option Nat
  | .content k => some k
  | _ => none

/-- On the way to `goal`. -/
structure Hunt (q : List Goodbye.NameItem → List Goodbye.NameItem) (A : Bytes) (t : Tree) (ff : Word) (f' : FF) (d : SDec) (g : Goal) (goal : List Bytes)
    (n : DNode) (ns : List DNode) (x : NX) (xs : List NX) (s : Tree) (path : List Bytes) (y : Bytes) (p : Bytes) : Prop where
  base : Base q A t ff f' d
  cur : Cur q A t d n ns x xs s path y
  below : d.below = []
  sub : d.path = some p
  way : path ++ components p = goal
  sibling : d.sibling = g.sibling
  pay : d.pay = g.pay
  fin : x.endOff.isSome = true
  tried : ∀ c rest, components p = c :: rest → NoMatch q A n.entryOff s y c d.idx

/-- Where a seek goes to: it leads to `o`. -/
inductive TargetOK (q : List Goodbye.NameItem → List Goodbye.NameItem) (A : Bytes) (t : Tree) (ff : Word) (f' : FF) (d : SDec) (g : Goal) (goal : List Bytes) : Target → Nat → Prop
  | entry {n ns x xs s path y p} : Hunt q A t ff f' d g goal n ns x xs s path y p → g = .object → components p = [] → TargetOK q A t ff f' d g goal .entry n.entryOff
  | payload {n ns x xs s path y p e a api b k} : Hunt q A t ff f' d g goal n ns x xs s path y p → g = .content k → components p = [] → s = .file e a api b →
      n.parsed.isSome = true → k ≤ (stored api b).length → TargetOK q A t ff f' d g goal .payload (n.entryOff + (headBytes s).length + k)
  | filename {n ns x xs s path y p c rest o e} : Hunt q A t ff f' d g goal n ns x xs s path y p → components p = c :: rest → s.isDir = true →
      (sMode n x).isSome = true → x.goodbye.isSome = true → x.goodbyeOff.isSome = true →
      Goodbye.locate (grows q n.entryOff s) (gst q n.entryOff s) n.entryOff (nameHash c) d.idx = .ok (some (o, e)) → d.endOff = some e → TargetOK q A t ff f' d g goal .filename o
  | goodbye {n ns x xs s path y p c rest o} : Hunt q A t ff f' d g goal n ns x xs s path y p → components p = c :: rest → s.isDir = true →
      (sMode n x).isSome = true → x.goodbyeOff = some o → TargetOK q A t ff f' d g goal .goodbye o
  | goodbyeTail {n ns x xs s path y p c rest} : Hunt q A t ff f' d g goal n ns x xs s path y p → components p = c :: rest → s.isDir = true →
      (sMode n x).isSome = true → x.goodbye = none → TargetOK q A t ff f' d g goal .goodbyeTail (n.entryOff + (encTree q n.entryOff s).length - 24)
  | nextSibling {n ns x xs s path y nm s' r o} : Base q A t ff f' d → Cur q A t d n ns x xs s path y → g = .next → path ++ [nm] = goal → s.isDir = true →
      (sMode n x).isSome = true → stopDepth d ≤ path.length → Suf (.cons true nm s' r) s.kids → KidsAt q A o r (gbytes q n.entryOff s ++ y) →
      TargetOK q A t ff f' d g goal .nextSibling o

/-- A state of a seek, and what is to come. -/
inductive SeekOK (q : List Goodbye.NameItem → List Goodbye.NameItem) (A : Bytes) (t : Tree) (ff : Word) (f' : FF) (d : SDec) : Answer → Prop
  | nowhere : Base q A t ff f' d → d.mode = some .nowhere → SeekOK q A t ff f' d .missing
  | prep {tg o g goal} : d.mode = some (.prep tg) → d.off = some o → TargetOK q A t ff f' d g goal tg o → SeekOK q A t ff f' d (t.answer (stopDepth d) goal g)
  | seeking {tg g goal} : d.mode = some (.seeking tg) → TargetOK q A t ff f' d g goal tg (d.core.archiveOff + d.core.stepSize) →
      SeekOK q A t ff f' d (t.answer (stopDepth d) goal g)
  | entered {g goal n ns x xs s path y p} : d.mode = some .entered → Hunt q A t ff f' d g goal n ns x xs s path y p → d.idx = 0 →
      d.core.archiveOff + d.core.stepSize = n.entryOff → x.goodbye = none → SeekOK q A t ff f' d (t.answer (stopDepth d) goal g)

theorem TargetOK.base {d : SDec} {g : Goal} {goal : List Bytes} {tg : Target} {o : Nat} (h : TargetOK q A t ff f' d g goal tg o) : Base q A t ff f' d := by
  cases h with
  | entry h => exact h.base
  | payload h => exact h.base
  | filename h => exact h.base
  | goodbye h => exact h.base
  | goodbyeTail h => exact h.base
  | nextSibling h => exact h

theorem SeekOK.base {d : SDec} {l : Answer} (h : SeekOK q A t ff f' d l) : Base q A t ff f' d := by
  cases h with
  | nowhere h => exact h
  | prep _ _ h => exact h.base
  | seeking _ h => exact h.base
  | entered _ h => exact h.base

/-- All states. -/
def OK (q : List Goodbye.NameItem → List Goodbye.NameItem) (A : Bytes) (t : Tree) (ff : Word) (f' : FF) (d : SDec) (l : Answer) : Prop :=
  POK q A t ff f' d l ∨ SeekOK q A t ff f' d l

/-- Fields that do not matter for a seek. -/
theorem Hunt.same {d e : SDec} {g : Goal} {goal : List Bytes} {n : DNode} {ns : List DNode} {x : NX} {xs : List NX} {s : Tree} {path : List Bytes} {y : Bytes} {p : Bytes}
    (h : Hunt q A t ff f' d g goal n ns x xs s path y p) (h1 : e.core.nodes = d.core.nodes) (h2 : e.exts = d.exts) (h3 : e.below = d.below)
    (h4 : e.core.cfg = d.core.cfg) (h6 : e.core.ff = d.core.ff) (h7 : BufOK A e.core) (h8 : e.path = d.path) (h9 : e.sibling = d.sibling) (h10 : e.pay = d.pay) (h11 : e.idx = d.idx) :
    Hunt q A t ff f' e g goal n ns x xs s path y p where
  base := h.base.same h1 h2 h3 (by rw [h4]) (by rw [h4]) h6 h7
  cur := ⟨h1.trans h.cur.nodes, h2.trans h.cur.exts, h.cur.stack⟩
  below := h3.trans h.below
  sub := h8.trans h.sub
  way := h.way
  sibling := h9.trans h.sibling
  pay := h10.trans h.pay
  fin := h.fin
  tried := by rw [h11]; exact h.tried

/-- A result of `ca_decoder_do_seek()`. -/
inductive SeekRes (q : List Goodbye.NameItem → List Goodbye.NameItem) (A : Bytes) (t : Tree) (ff : Word) (f' : FF) (l : Answer) (ready : Prop) (d : SDec) : SDec × Res Bool → Prop
  | go {d'} : SeekOK q A t ff f' d' l → SeekRes q A t ff f' l ready d (d', .ok true)
  | gone {d'} : l = .missing → SeekOK q A t ff f' d' l → SeekRes q A t ff f' l ready d (d', .ok false)
  | refused : l = .notFile → SeekRes q A t ff f' l ready d (d, .err .EUNATCH)
  | failed {e} : ¬ ready → SeekRes q A t ff f' l ready d (d, .err e)

/-- What has to be known of a node for a seek to go on from there. -/
def NodeReady (n : DNode) (x : NX) : Prop :=
  (sMode n x).isSome = true ∧ (x.goodbye.isSome = true → x.goodbyeOff.isSome = true)

theorem BufOK.stop {c : Dec} (h : BufOK A c) (s : DState) : BufOK A (enterState c s) := ⟨h.at_, Nat.zero_le _⟩

theorem answer_none {goal : List Bytes} (h : t.find goal = none) (b : Nat) (g : Goal) : t.answer b goal g = .missing := by
  unfold Tree.answer
  cases g with
  | object => simp only [h]
  | content k => simp only [h]
  | next =>
    simp only [h]
    split <;> rfl

/-- The part at the goal. -/
theorem seekHere_good (hc : Ctx q A t ff f') {d : SDec} {g : Goal} {goal : List Bytes} {n : DNode} {ns : List DNode} {x : NX} {xs : List NX} {s : Tree} {path : List Bytes} {y : Bytes} {p : Bytes}
    (h : Hunt q A t ff f' d g goal n ns x xs s path y p) (hcomp : components p = []) :
    SeekRes q A t ff f' (t.answer (stopDepth d) goal g) (NodeReady n x) d (seekHere d n ns x xs) := by
  obtain ⟨_, _, _, _, e1, e2, hno⟩ := h.cur.stack.head
  injection e1 with e1 _
  injection e2 with e2 _
  subst e1 e2
  have hf := h.cur.stack.facts hc
  have hgoal : path = goal := by have := h.way; rw [hcomp, List.append_nil] at this; exact this
  unfold seekHere
  cases g with
  | object =>
    rw [h.sibling, h.pay]
    simp only [Goal.sibling, Goal.pay, Bool.false_eq_true, if_false]
    refine .go (.prep (o := n.entryOff) (g := .object) (goal := goal) rfl rfl (.entry (p := p) (x := x) (xs := xs) (y := y) (s := s) (path := path) (ns := ns) ?_ rfl hcomp))
    exact h.same rfl rfl rfl rfl rfl (h.base.buf.stop _) rfl h.sibling.symm h.pay.symm rfl
  | content k =>
    rw [h.sibling, h.pay]
    simp only [Goal.sibling, Goal.pay, Bool.false_eq_true, if_false]
    have hfind := hf.find
    rw [hgoal] at hfind
    by_cases hfile : ∃ e a api b, s = .file e a api b
    · have hfile' := hfile
      obtain ⟨e, a, api, b, hs⟩ := hfile
      cases hpar : n.parsed with
      | none =>
        have hm : sMode n x = none := by
          cases hm : sMode n x with
          | none => rfl
          | some m =>
            have : x.mode = some m := by unfold sMode at hm; rw [hpar] at hm; exact hm
            have := (hno.mode m this).2
            rw [hs] at this
            cases this
        rw [hm]
        cases x.payloadOff <;> exact .failed (fun hr => by have := hr.1; rw [hm] at this; cases this)
      | some pp =>
        have hm : sMode n x = some pp.entry.mode := by unfold sMode; rw [hpar]
        have hof := hno.parsed pp hpar
        obtain ⟨po, hpo⟩ := Option.isSome_iff_exists.1 (hno.pay (by rw [hpar]; rfl) hfile')
        have hpo' := (hno.payloadOff po hpo).2
        have hreg : isType pp.entry.mode ifReg = true := by
          have hS := hf.storable
          rw [hof.entry]; rw [hs] at hS ⊢; rw [Storable] at hS; exact hS.2
        have hsz := nodeSize_file hpar (hs ▸ hof)
        rw [hpo, hm]
        simp only [hreg, Bool.not_true, Bool.false_eq_true, if_false]
        have hans : t.answer (stopDepth d) goal (.content k) = if (stored api b).length < k then .missing
            else .see ((((stored api b).drop k).map Atom.byte ++ Atom.doneFile goal :: t.after (stopDepth d) goal.reverse).map .seen) := by
          unfold Tree.answer
          simp only [hfind, hs]
        by_cases hk : (stored api b).length < k
        · have hsm : smaller n k = true := by unfold smaller; rw [hsz]; simpa using hk
          rw [hsm, if_pos rfl, hans, if_pos hk]
          exact .gone rfl (.nowhere (h.base.same rfl rfl rfl rfl rfl rfl (h.base.buf.stop _)) rfl)
        · have hsm : smaller n k = false := by unfold smaller; rw [hsz]; simpa using hk
          rw [hsm, if_neg (by simp), hpo']
          refine .go (.prep (g := .content k) (goal := goal) rfl rfl (.payload (p := p) (x := x) (xs := xs) (y := y) (s := s) (path := path) (ns := ns) ?_ rfl hcomp hs (by rw [hpar]; rfl) (by omega)))
          exact h.same rfl rfl rfl rfl rfl (h.base.buf.stop _) rfl h.sibling.symm h.pay.symm rfl
    · have hpo : x.payloadOff = none := by
        cases hpo : x.payloadOff with
        | none => rfl
        | some po => exact absurd (hno.payloadOff po hpo).1 hfile
      rw [hpo]
      simp only
      refine .refused ?_
      unfold Tree.answer
      simp only [hfind]
      cases s with
      | file e a api b => exact absurd ⟨e, a, api, b, rfl⟩ hfile
      | dir e a api k => rfl
      | symlink e a b => rfl
      | device e a u v => rfl
      | special e a => rfl
  | next =>
    rw [h.sibling]
    simp only [Goal.sibling, if_true]
    cases he : x.endOff with
    | none => exact absurd h.fin (by rw [he]; simp)
    | some e =>
      simp only
      have hlen := hf.len
      rw [List.length_cons] at hlen
      by_cases hb : ns.length ≤ d.core.cfg.boundary
      · rw [if_pos hb]
        have hans : t.answer (stopDepth d) goal .next = .missing := by
          unfold Tree.answer
          simp only
          rw [if_pos (by rw [← hgoal]; show _ ≤ d.core.cfg.boundary; omega)]
        rw [hans]
        exact .gone rfl (.nowhere (h.base.same rfl rfl rfl rfl rfl rfl (h.base.buf.stop _)) rfl)
      · rw [if_neg hb]
        have hst := h.cur.stack
        cases hst with
        | root => exact absurd (Nat.zero_le _) hb
        | @down pn pns x0 xs0 s0 path0 y0 _ _ nm _ r o a1 a2 a3 a4 a5 a6 a7 a8 =>
          have hl0 := (a1.facts hc).len
          have he' := hno.endOff e he
          refine .go (.prep (g := .next) (goal := goal) rfl rfl (.nextSibling (n := pn) (ns := pns) (x := x0) (xs := xs0) (r := r) (nm := nm) ?_ ⟨rfl, rfl, a1⟩ rfl hgoal a2 a3 ?_ a6 ?_))
          · exact {
              naked := h.base.naked, want := h.base.want, flags := h.base.flags, ne := List.cons_ne_nil _ _
              len := by
                have := h.base.len
                rw [h.cur.exts, h.cur.nodes] at this
                simp at this
                show xs0.length + 1 = pns.length + 1
                omega
              full := by
                have hex : ∃ yy, Stack q A t (n :: pn :: pns) (x :: x0 :: xs0) s (path0 ++ [nm]) yy := ⟨_, h.cur.stack⟩
                obtain ⟨yy, hst⟩ := hex
                refine ⟨s, path0 ++ [nm], yy, ?_⟩
                unfold fullN fullX
                simp only [setMode, h.below, enterState]
                exact hst
              buf := ⟨h.base.buf.at_, Nat.zero_le _⟩ }
          · show d.core.cfg.boundary ≤ _
            rw [hl0] at hb; omega
          · have := a7.here.2.2
            rw [← a8, ← he'] at this
            exact this

/-- The part on the way. -/
theorem seekDown_good (hc : Ctx q A t ff f') {d : SDec} {g : Goal} {goal : List Bytes} {n : DNode} {ns : List DNode} {x : NX} {xs : List NX} {s : Tree} {path : List Bytes} {y : Bytes} {p : Bytes}
    (h : Hunt q A t ff f' d g goal n ns x xs s path y p) {c : Bytes} {rest : List Bytes} (hcomp : components p = c :: rest) (hd : s.isDir = true) (hm : (sMode n x).isSome = true) :
    SeekRes q A t ff f' (t.answer (stopDepth d) goal g) (NodeReady n x) d (seekDown d n x c) := by
  obtain ⟨_, _, _, _, e1, e2, hno⟩ := h.cur.stack.head
  injection e1 with e1 _
  injection e2 with e2 _
  subst e1 e2
  have hf := h.cur.stack.facts hc
  have hpl := hf.placed n ns rfl
  have hsame : ∀ o e, Hunt q A t ff f' { d with off := o, endOff := e, mode := d.mode, core := enterState d.core .entered } g goal n ns x xs s path y p :=
    fun o e => h.same rfl rfl rfl rfl rfl (h.base.buf.stop _) rfl rfl rfl rfl
  unfold seekDown
  cases hg : x.goodbye with
  | some table =>
    have ht := (hno.goodbye table hg).2
    simp only
    cases hgo : x.goodbyeOff with
    | none => exact .failed (fun hr => by have := hr.2 (by rw [hg]; rfl); rw [hgo] at this; cases this)
    | some go =>
      have hgo' := (hno.goodbyeOff go hgo).2
      simp only
      obtain ⟨r, hr⟩ := locate_ok hpl hd hc.sorts c d.idx
      rw [ht, hgo', hr]
      cases r with
      | none =>
        simp only
        have hnone : t.find goal = none := by
          rw [← h.way, hcomp, find_append hf.find]
          exact find_none (locate_none hpl hd hc.sorts hr (h.tried c rest hcomp)) rest
        rw [answer_none hnone]
        exact .gone rfl (.nowhere (h.base.same rfl rfl rfl rfl rfl rfl (h.base.buf.stop _)) rfl)
      | some ab =>
        obtain ⟨a, b⟩ := ab
        simp only
        refine .go (.prep (g := g) (goal := goal) rfl rfl (.filename (p := p) (x := x) (xs := xs) (y := y) (s := s) (path := path) (ns := ns) (n := n) (e := b) ?_ hcomp hd hm (by rw [hg]; rfl) (by rw [hgo]; rfl) hr rfl))
        exact h.same rfl rfl rfl rfl rfl (h.base.buf.stop _) rfl rfl rfl rfl
  | none =>
    simp only
    cases hgo : x.goodbyeOff with
    | some go =>
      simp only
      refine .go (.prep (g := g) (goal := goal) rfl rfl (.goodbye (p := p) (x := x) (xs := xs) (y := y) (s := s) (path := path) (ns := ns) (n := n) ?_ hcomp hd hm hgo))
      exact h.same rfl rfl rfl rfl rfl (h.base.buf.stop _) rfl rfl rfl rfl
    | none =>
      simp only
      cases he : x.endOff with
      | none => exact absurd h.fin (by rw [he]; simp)
      | some e =>
        simp only
        have he' := hno.endOff e he
        have h24 := (hpl.tail hd).1
        rw [if_neg (by omega), he']
        refine .go (.prep (g := g) (goal := goal) rfl rfl (.goodbyeTail (p := p) (x := x) (xs := xs) (y := y) (s := s) (path := path) (ns := ns) (n := n) ?_ hcomp hd hm hg))
        exact h.same rfl rfl rfl rfl rfl (h.base.buf.stop _) rfl rfl rfl rfl

/-- `ca_decoder_do_seek()`. -/
theorem doSeek_good (hc : Ctx q A t ff f') {d : SDec} {g : Goal} {goal : List Bytes} {n : DNode} {ns : List DNode} {x : NX} {xs : List NX} {s : Tree} {path : List Bytes} {y : Bytes} {p : Bytes}
    (h : Hunt q A t ff f' d g goal n ns x xs s path y p) : SeekRes q A t ff f' (t.answer (stopDepth d) goal g) (NodeReady n x) d (doSeek d) := by
  obtain ⟨_, _, _, _, e1, e2, hno⟩ := h.cur.stack.head
  injection e1 with e1 _
  injection e2 with e2 _
  subst e1 e2
  have hf := h.cur.stack.facts hc
  unfold doSeek
  rw [h.sub, h.cur.nodes, h.cur.exts]
  simp only
  cases hg : getComponent p with
  | mk o r =>
    cases o with
    | none => exact seekHere_good hc h (getComponent_none hg)
    | some c =>
      simp only
      cases hm : sMode n x with
      | none => exact .failed (fun hr => by have := hr.1; rw [hm] at this; cases this)
      | some m =>
        simp only
        rw [sMode_dir hf.storable hno hm]
        cases hd : s.isDir with
        | true => exact seekDown_good hc h (getComponent_some hg) hd (by rw [hm]; rfl)
        | false =>
          simp only [Bool.not_false, if_true]
          have hnone : t.find goal = none := by
            rw [← h.way, getComponent_some hg, find_append hf.find]
            refine find_none ?_ _
            intro u hu
            have : s.kids.listed = [] := by
              cases s with
              | dir e a api k => cases hd
              | file e a api k => unfold Tree.kids; rw [Kids.listed]
              | symlink e a b => unfold Tree.kids; rw [Kids.listed]
              | device e a x y => unfold Tree.kids; rw [Kids.listed]
              | special e a => unfold Tree.kids; rw [Kids.listed]
            rw [this] at hu
            cases hu
          rw [answer_none hnone]
          exact .gone rfl (.nowhere (h.base.same rfl rfl rfl rfl rfl rfl (h.base.buf.stop _)) rfl)

end Casync.Archive
