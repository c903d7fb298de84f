import Verif.Lemmas.SeekBuf
/-!
What holds in all states of a seekable decoder that reads the archive of a tree, and the steps outside of seeks.
-/
namespace Casync.Archive
open Casync Flags

variable {q : List Goodbye.NameItem → List Goodbye.NameItem} {A : Bytes} {t : Tree} {ff : Word} {f' : FF}

/-! ### What is to be seen -/

/-- What the entries of a directory give. -/
def listedEvents (path : List Bytes) (l : List (Bytes × Tree)) : List Atom := l.flatMap fun x => events (path ++ [x.1]) x.2

theorem kidsEvents_listed (path : List Bytes) : ∀ k : Kids, kidsEvents path k = listedEvents path k.listed
  | .nil => by rw [kidsEvents, Kids.listed]; rfl
  | .cons true n t r => by rw [kidsEvents, Kids.listed, kidsEvents_listed path r]; rfl
  | .cons false n t r => by rw [kidsEvents, Kids.listed, kidsEvents_listed path r]

theorem events_dir {s : Tree} (h : s.isDir = true) (path : List Bytes) :
    events path s = .nextFile path s.entry s.attrs s.shown :: (listedEvents path s.kids.listed ++ [.doneFile path]) := by
  cases s with
  | dir e a api k =>
    cases api with
    | false => rw [events, kidsEvents_listed]; rfl
    | true =>
      have : (Tree.dir e a true k).kids.listed = [] := by unfold Tree.kids; rw [Kids.listed]
      rw [events, this]
      rfl
  | file e a api k => cases h
  | symlink e a b => cases h
  | device e a x y => cases h
  | special e a => cases h

theorem events_head (path : List Bytes) (s : Tree) : ∃ r, events path s = .nextFile path s.entry s.attrs s.shown :: r := by
  cases s with
  | dir e a api k => exact ⟨_, events_dir rfl path⟩
  | file e a api k => exact ⟨_, by rw [events]; rfl⟩
  | symlink e a b => exact ⟨_, by rw [events]; rfl⟩
  | device e a x y => exact ⟨_, by rw [events]; rfl⟩
  | special e a => exact ⟨_, by rw [events]; rfl⟩

theorem Suf.rest {nm : Bytes} {s : Tree} {r : Kids} {k : Kids} (h : Suf (.cons true nm s r) k) (hn : (k.listed.map Prod.fst).Nodup) :
    (k.listed.dropWhile (fun x => x.1 != nm)).tail = r.listed := by
  generalize hz : Kids.cons true nm s r = z at h
  induction h with
  | refl =>
    rw [← hz, Kids.listed, List.dropWhile_cons_of_neg (by simp)]
    rfl
  | @cons k' b n' t' hs ih =>
    subst hz
    cases b with
    | false => rw [Kids.listed] at hn ⊢; exact ih hn
    | true =>
      rw [Kids.listed] at hn ⊢
      rw [List.map_cons, List.nodup_cons] at hn
      have hne : n' ≠ nm := by
        intro e
        subst e
        exact hn.1 (List.mem_map.2 ⟨(n', s), hs.listed _ (by rw [Kids.listed]; exact List.mem_cons_self ..), rfl⟩)
      rw [List.dropWhile_cons_of_pos (by simpa using hne)]
      exact ih hn.2

/-- What comes after an entry. -/
theorem after_child {s s' : Tree} {path : List Bytes} {nm : Bytes} {r : Kids} {b : Nat} (hf : t.find path = some s) (hu : s.Unique)
    (hs : Suf (.cons true nm s' r) s.kids) (hb : b ≤ path.length) :
    t.after b (path ++ [nm]).reverse = listedEvents path r.listed ++ .doneFile path :: t.after b path.reverse := by
  rw [List.reverse_append, List.reverse_singleton, List.singleton_append, Tree.after, List.length_reverse, if_neg (by omega), List.reverse_reverse, hf]
  simp only
  rw [Tree.entries_eq, hs.rest (Tree.kids_unique hu).1]
  rfl

theorem after_stop {path : List Bytes} {b : Nat} (hb : path.length ≤ b) : t.after b path.reverse = [] := by
  cases h : path.reverse with
  | nil => rw [Tree.after]
  | cons nm up =>
    have : path.length = up.length + 1 := by rw [← List.length_reverse, h]; rfl
    rw [Tree.after, if_pos (by omega)]

/-! ### All states -/

/-- What holds in all states. -/
structure Base (q : List Goodbye.NameItem → List Goodbye.NameItem) (A : Bytes) (t : Tree) (ff : Word) (f' : FF) (d : SDec) : Prop where
  naked : d.core.cfg.naked = false
  want : d.core.cfg.wantPayload = true
  flags : validateFeatureFlags d.core.ff ff = some f'
  len : d.exts.length = d.core.nodes.length
  ne : d.core.nodes ≠ []
  full : ∃ s path y, Stack q A t (fullN d) (fullX d) s path y
  buf : BufOK A d.core

theorem Base.cur {d : SDec} (h : Base q A t ff f' d) : ∃ s path y, Stack q A t d.core.nodes d.exts s path y := by
  obtain ⟨s, path, y, h1⟩ := h.full
  exact h1.upper (by simp) h.ne

/-- The current node and its object. -/
structure Cur (q : List Goodbye.NameItem → List Goodbye.NameItem) (A : Bytes) (t : Tree) (d : SDec) (n : DNode) (ns : List DNode) (x : NX) (xs : List NX) (s : Tree) (path : List Bytes) (y : Bytes) : Prop where
  nodes : d.core.nodes = n :: ns
  exts : d.exts = x :: xs
  stack : Stack q A t (n :: ns) (x :: xs) s path y

theorem Base.here {d : SDec} (h : Base q A t ff f' d) : ∃ n ns x xs s path y, Cur q A t d n ns x xs s path y := by
  obtain ⟨s, path, y, h1⟩ := h.cur
  obtain ⟨n, ns, x, xs, e1, e2, _⟩ := h1.head
  rw [e1, e2] at h1
  exact ⟨n, ns, x, xs, s, path, y, e1, e2, h1⟩

/-- Other values of the fields that do not matter here. -/
theorem Base.same {d e : SDec} (h : Base q A t ff f' d) (h1 : e.core.nodes = d.core.nodes) (h2 : e.exts = d.exts) (h3 : e.below = d.below)
    (h4 : e.core.cfg.naked = d.core.cfg.naked) (h5 : e.core.cfg.wantPayload = d.core.cfg.wantPayload) (h6 : e.core.ff = d.core.ff) (h7 : BufOK A e.core) :
    Base q A t ff f' e where
  naked := h4.trans h.naked
  want := h5.trans h.want
  flags := by rw [h6]; exact h.flags
  len := by rw [h1, h2]; exact h.len
  ne := by rw [h1]; exact h.ne
  full := by unfold fullN fullX; rw [h1, h2, h3]; exact h.full
  buf := h7

/-- A new current node with nothing below. -/
theorem Base.only {d e : SDec} (h : Base q A t ff f' d) {n : DNode} {ns : List DNode} {x : NX} {xs : List NX} {s : Tree} {path : List Bytes} {y : Bytes}
    (hc : Cur q A t e n ns x xs s path y) (h3 : e.below = [])
    (h4 : e.core.cfg.naked = d.core.cfg.naked) (h5 : e.core.cfg.wantPayload = d.core.cfg.wantPayload) (h6 : validateFeatureFlags e.core.ff ff = some f') (h7 : BufOK A e.core) :
    Base q A t ff f' e where
  naked := h4.trans h.naked
  want := h5.trans h.want
  flags := h6
  len := by
    rw [hc.nodes, hc.exts]
    have : ∀ {a b c d e}, Stack q A t a b c d e → b.length = a.length := by
      intro a b c d e h
      induction h with
      | root => rfl
      | down _ _ _ _ _ _ _ _ ih => rw [List.length_cons, ih, List.length_cons (as := _ :: _)]
    exact this hc.stack
  ne := by rw [hc.nodes]; exact List.cons_ne_nil _ _
  full := ⟨s, path, y, by unfold fullN fullX; rw [hc.nodes, hc.exts, h3]; exact hc.stack⟩
  buf := h7

/-- Other knowledge about the current node. -/
theorem Base.know (hc : Ctx q A t ff f') {d e : SDec} (h : Base q A t ff f' d) {n n' : DNode} {ns : List DNode} {x x' : NX} {xs : List NX} {s : Tree} {path : List Bytes} {y : Bytes}
    (hcur : Cur q A t d n ns x xs s path y) (h1 : e.core.nodes = n' :: ns) (h2 : e.exts = x' :: xs) (h3 : e.below = d.below)
    (k1 : n'.name = n.name) (k2 : n'.entryOff = n.entryOff) (k3 : NodeOK q A s n' x') (k4 : (sMode n x).isSome = true → (sMode n' x').isSome = true)
    (h4 : e.core.cfg.naked = d.core.cfg.naked) (h5 : e.core.cfg.wantPayload = d.core.cfg.wantPayload) (h6 : e.core.ff = d.core.ff) (h7 : BufOK A e.core) :
    Base q A t ff f' e ∧ Cur q A t e n' ns x' xs s path y := by
  obtain ⟨s1, p1, y1, hfull⟩ := h.full
  unfold fullN fullX at hfull
  rw [hcur.nodes, hcur.exts] at hfull
  have hfull' := Stack.replaceUp hc k1 k2 k4 hcur.stack k3 hfull (by simp)
  exact ⟨{ naked := h4.trans h.naked, want := h5.trans h.want, flags := by rw [h6]; exact h.flags,
           len := by
             have := h.len
             rw [hcur.nodes, hcur.exts, List.length_cons, List.length_cons] at this
             rw [h1, h2, List.length_cons, List.length_cons, this]
           ne := by rw [h1]; exact List.cons_ne_nil _ _, full := ⟨s1, p1, y1, by unfold fullN fullX; rw [h1, h2, h3]; exact hfull'⟩, buf := h7 },
         ⟨h1, h2, hcur.stack.replace k1 k2 k3⟩⟩

/-- Where a decoder is outside of seeks, and what the rest of the current object gives. -/
inductive PosOK (q : List Goodbye.NameItem → List Goodbye.NameItem) (A : Bytes) (d : SDec) (n : DNode) (x : NX) (s : Tree) (path : List Bytes) (y : Bytes) : List Atom → Prop
  | enter : d.core.state = .init ∨ d.core.state = .entered → d.below = [] → stopDepth d ≤ path.length → d.core.archiveOff + d.core.stepSize = n.entryOff →
      PosOK q A d n x s path y (events path s)
  | entry : d.core.state = .entry → n.parsed.isSome = true → stopDepth d ≤ path.length →
      d.core.archiveOff + d.core.stepSize = n.entryOff + (headBytes s).length → PosOK q A d n x s path y (events path s).tail
  | payload {e a api c} : d.core.state = .inPayload → s = .file e a api c → n.parsed.isSome = true → d.core.payloadOff + d.core.stepSize ≤ (stored api c).length →
      d.core.archiveOff + d.core.stepSize = n.entryOff + (headBytes s).length + (d.core.payloadOff + d.core.stepSize) →
      PosOK q A d n x s path y (((stored api c).drop (d.core.payloadOff + d.core.stepSize)).map .byte ++ [.doneFile path])
  | dir {k} : d.core.state = .inDirectory → s.isDir = true → (sMode n x).isSome = true → stopDepth d ≤ path.length → Suf k s.kids →
      KidsAt q A (d.core.archiveOff + d.core.stepSize) k (gbytes q n.entryOff s ++ y) → PosOK q A d n x s path y (listedEvents path k.listed ++ [.doneFile path])
  | goodbye : d.core.state = .goodbye → s.isDir = true → d.core.archiveOff + d.core.stepSize = n.entryOff + (encTree q n.entryOff s).length →
      PosOK q A d n x s path y [.doneFile path]
  | finalize : d.core.state = .finalize → d.core.archiveOff + d.core.stepSize = n.entryOff + (encTree q n.entryOff s).length → PosOK q A d n x s path y []

/-- A state outside of seeks and what is still to be seen. -/
inductive PlainOK (q : List Goodbye.NameItem → List Goodbye.NameItem) (A : Bytes) (t : Tree) (ff : Word) (f' : FF) (d : SDec) : List Atom → Prop
  | at_ {n ns x xs s path y own} : Base q A t ff f' d → d.mode = none → Cur q A t d n ns x xs s path y → PosOK q A d n x s path y own →
      PlainOK q A t ff f' d (own ++ t.after (stopDepth d) path.reverse)
  | eof : Base q A t ff f' d → d.mode = none → d.core.state = .eof → PlainOK q A t ff f' d []

/-- A good result of a step, after which `OK` holds; `l` is what is to be seen. -/
inductive SGood (OK : SDec → Answer → Prop) (l : Answer) : SDec × Res SEv → Prop
  | request {d'} : d'.core.eof = false → OK d' l → SGood OK l (d', .ok (.plain .request))
  | step {d'} : OK d' l → SGood OK l (d', .ok (.plain .step))
  | seek {d'} : OK d' l → SGood OK l (d', .ok .seek)
  | see {d' ev l'} : ev ∈ [Ev.nextFile, .doneFile, .payload] → OK d' (.see l') →
      l = .see ((atoms (observe d'.core ev)).map .seen ++ l') → SGood OK l (d', .ok (.plain ev))
  | found {d' l'} : l = .see (.found (currentPath d'.core) :: l') → OK d' (.see l') → SGood OK l (d', .ok .found)
  | refused {d'} : l = .notFile → SGood OK l (d', .err .EUNATCH)
  | notFound {d'} : l = .missing → OK d' l → SGood OK l (d', .ok .notFound)
  | finished {d'} : l = .see [] → OK d' l → SGood OK l (d', .ok (.plain .finished))

theorem SGood.mono {OK OK' : SDec → Answer → Prop} (h : ∀ d l, OK d l → OK' d l) {l : Answer} {r : SDec × Res SEv} (hg : SGood OK l r) :
    SGood OK' l r := by
  cases hg with
  | request a b => exact .request a (h _ _ b)
  | step b => exact .step (h _ _ b)
  | seek b => exact .seek (h _ _ b)
  | see a b c => exact .see a (h _ _ b) c
  | found a b => exact .found a (h _ _ b)
  | refused a => exact .refused a
  | notFound a b => exact .notFound a (h _ _ b)
  | finished a b => exact .finished a (h _ _ b)

/-- The states outside of seeks. -/
def POK (q : List Goodbye.NameItem → List Goodbye.NameItem) (A : Bytes) (t : Tree) (ff : Word) (f' : FF) (d : SDec) (l : Answer) : Prop :=
  ∃ r, l = .see (r.map .seen) ∧ PlainOK q A t ff f' d r

/-! ### What a step outside of seeks does to the other fields -/

theorem noted_same {d : SDec} {c : Dec} (h1 : c.nodes.length = d.core.nodes.length) (h2 : parses d.core = false) (h3 : c.state ≠ .goodbye) :
    noted' d c = { d with core := c } := by
  unfold noted' moved
  simp only [h1, h2, Nat.lt_irrefl, if_false, Bool.false_eq_true, if_neg h3]

theorem noted_parse {d : SDec} {c : Dec} {x : NX} {xs : List NX} (h1 : c.nodes.length = d.core.nodes.length) (h2 : parses d.core = true) (h3 : c.state ≠ .goodbye)
    (hx : d.exts = x :: xs) : noted' d c = { d with core := c, exts := parsedExt (curParsed c) (c.archiveOff + c.stepSize) x :: xs } := by
  unfold noted' moved setExt
  simp only [h1, h2, Nat.lt_irrefl, if_false, if_neg h3, if_true, hx]

theorem noted_goodbye {d : SDec} {c : Dec} {x : NX} {xs : List NX} (h1 : c.nodes.length = d.core.nodes.length) (h2 : parses d.core = false) (h3 : c.state = .goodbye)
    (hx : d.exts = x :: xs) : noted' d c = { d with core := c, exts := { x with goodbye := bufRows c } :: xs } := by
  unfold noted' moved setExt
  simp only [h1, h2, Nat.lt_irrefl, if_false, Bool.false_eq_true, if_pos h3, hx]

theorem noted_enter {d : SDec} {c : Dec} (h1 : d.core.nodes.length < c.nodes.length) (h2 : parses d.core = false) (h3 : c.state ≠ .goodbye) :
    noted' d c = { d with core := c, exts := {} :: d.exts, below := [] } := by
  unfold noted' moved
  simp only [h1, h2, if_true, if_false, Bool.false_eq_true, if_neg h3]

theorem noted_pop {d : SDec} {c : Dec} {n : DNode} {ns : List DNode} {x : NX} {xs : List NX} (h1 : c.nodes.length < d.core.nodes.length) (h2 : parses d.core = false)
    (h3 : c.state ≠ .goodbye) (hn : d.core.nodes = n :: ns) (hx : d.exts = x :: xs) : noted' d c = { d with core := c, exts := xs, below := (n, x) :: d.below } := by
  unfold noted' moved
  have : ¬ d.core.nodes.length < c.nodes.length := by omega
  simp only [this, h1, h2, if_true, if_false, Bool.false_eq_true, if_neg h3]
  rw [hn, hx]

end Casync.Archive
