import Verif.Lemmas.SeekInv
/-!
The steps outside of seeks of a decoder that reads the archive of a tree.
-/
namespace Casync.Archive
open Casync Flags

variable {q : List Goodbye.NameItem → List Goodbye.NameItem} {A : Bytes} {t : Tree} {ff : Word} {f' : FF}

theorem nodeOK_none (s : Tree) (nm : Option Bytes) (o : Nat) (e : Option Nat) (h : ∀ e', e = some e' → e' = o + (encTree q o s).length) :
    NodeOK q A s { name := nm, entryOff := o } { endOff := e } where
  parsed := fun _ h => nomatch h
  mode := fun _ h => nomatch h
  endOff := h
  goodbyeOff := fun _ h => nomatch h
  goodbye := fun _ h => nomatch h
  payloadOff := fun _ h => nomatch h
  pay := fun h => nomatch h

/-- The type of the mode in the ENTRY record. -/
theorem Storable.dirMode {s : Tree} (h : Storable ff s) (hd : s.isDir = true) : isType s.entry.mode ifDir = true := by
  cases s with
  | dir e a api k => rw [Storable] at h; exact h.2.1
  | file e a api k => cases hd
  | symlink e a b => cases hd
  | device e a x y => cases hd
  | special e a => cases hd

theorem Storable.otherMode {s : Tree} (h : Storable ff s) (hd : s.isDir = false) : isType s.entry.mode ifDir = false := by
  cases s with
  | dir e a api k => cases hd
  | file e a api k => rw [Storable] at h; exact isType_excl h.2 (by decide)
  | symlink e a b => rw [Storable] at h; exact isType_excl h.2.1 (by decide)
  | device e a x y => rw [Storable] at h; rcases h.2.1 with h | h <;> exact isType_excl h (by decide)
  | special e a => rw [Storable] at h; rcases h.2 with h | h <;> exact isType_excl h.1 (by decide)

/-- A known mode says whether an object is a directory. -/
theorem sMode_dir {s : Tree} {n : DNode} {x : NX} (h : Storable ff s) (hn : NodeOK q A s n x) {m : Word} (hm : sMode n x = some m) : isType m ifDir = s.isDir := by
  unfold sMode at hm
  cases hp : n.parsed with
  | some p =>
    rw [hp] at hm
    simp only at hm
    injection hm with hm
    rw [← hm, (hn.parsed p hp).entry]
    cases hd : s.isDir with
    | true => exact h.dirMode hd
    | false => exact h.otherMode hd
  | none =>
    rw [hp] at hm
    simp only at hm
    rw [(hn.mode m hm).1, (hn.mode m hm).2]

theorem Storable.regFile {s : Tree} (h : Storable ff s) (hr : isType s.entry.mode ifReg = true) : ∃ e a api b, s = .file e a api b := by
  have no : ∀ {m b : Word}, isType m b = true → ifReg ≠ b → isType m ifReg = true → False := by
    intro m b h1 h2 h3
    rw [isType_excl h3 h2] at h1
    cases h1
  cases s with
  | dir e a api k => rw [Storable] at h; exact (no h.2.1 (by decide) hr).elim
  | file e a api k => exact ⟨_, _, _, _, rfl⟩
  | symlink e a b => rw [Storable] at h; exact (no h.2.1 (by decide) hr).elim
  | device e a x y => rw [Storable] at h; rcases h.2.1 with h | h <;> exact (no h (by decide) hr).elim
  | special e a => rw [Storable] at h; rcases h.2 with h | h <;> exact (no h.1 (by decide) hr).elim

theorem step_advance {c : Dec} (h : c.stepSize ≤ c.buf.length) (hs : c.state ≠ .eof) : step c = stepNode (advance c) := by
  unfold step
  rw [if_neg hs, if_neg (by omega)]

theorem nodeMode_parsed {c : Dec} {n : DNode} {p : Parsed} (h : n.parsed = some p) : nodeMode c n = some p.entry.mode := by unfold nodeMode; rw [h]

theorem stepDirectory_body {c : Dec} {n : DNode} {ns : List DNode} {m : Word} (hn : c.nodes = n :: ns) (hm : nodeMode c n = some m) (hd : isType m ifDir = true) :
    stepDirectory c = dirBody c := by
  unfold stepDirectory dirBody
  rw [hn]
  simp only [hm, hd, Bool.not_true, Bool.false_eq_true, if_false]
  cases parseDirRec c.buf with
  | request => rfl
  | err e => rfl
  | ok r => obtain ⟨r, l⟩ := r; cases r <;> rfl

/-- In a directory. -/
theorem plain_dir {d : SDec} (hb : Base q A t ff f' d) {n : DNode} {ns : List DNode} {x : NX} {xs : List NX} {s : Tree} {path : List Bytes} {y : Bytes} (hc : Ctx q A t ff f')
    (hcur : Cur q A t d n ns x xs s path y) (hst : d.core.state = .inDirectory) (hd : s.isDir = true) (hm : (sMode n x).isSome = true) :
    plainStep d = dirBody (advance d.core) := by
  obtain ⟨_, _, _, _, e1, e2, hno⟩ := hcur.stack.head
  injection e1 with e1 _
  injection e2 with e2 _
  subst e1 e2
  have hf := hcur.stack.facts hc
  unfold plainStep
  cases hp : n.parsed with
  | none =>
    obtain ⟨m, hm⟩ := Option.isSome_iff_exists.1 hm
    have hm' : x.mode = some m := by unfold sMode at hm; rw [hp] at hm; exact hm
    have hbd : baseDir d = true := by
      unfold baseDir curParsed
      rw [hst, hcur.nodes, hcur.exts]
      simp only [hp, hm']
      simp [(hno.mode m hm').1]
    rw [hbd, if_pos rfl, if_neg (by have := hb.buf.size; omega)]
  | some p =>
    have hbd : baseDir d = false := by
      unfold baseDir curParsed
      rw [hcur.nodes]
      simp [hp]
    rw [hbd, if_neg (by simp), step_advance hb.buf.size (by rw [hst]; simp)]
    unfold stepNode
    rw [show (advance d.core).state = d.core.state from rfl, hst]
    refine stepDirectory_body (n := n) (ns := ns) hcur.nodes (nodeMode_parsed hp) ?_
    rw [(hno.parsed p hp).entry]
    exact hf.storable.dirMode hd

/-- Elsewhere. -/
theorem plain_other {d : SDec} (hb : Base q A t ff f' d) (hst : d.core.state ≠ .inDirectory) (he : d.core.state ≠ .eof) : plainStep d = stepNode (advance d.core) := by
  have hbd : baseDir d = false := by
    unfold baseDir
    have : (d.core.state == .inDirectory) = false := by simpa using hst
    rw [this]; rfl
  unfold plainStep
  rw [hbd, if_neg (by simp), step_advance hb.buf.size he]

theorem sStep_plain {d : SDec} (h : d.mode = none) : sStep d = (noted' d (plainStep d).1, plainEv (plainStep d).2) := by
  unfold sStep; rw [h]

theorem POK.mk {d : SDec} {n : DNode} {ns : List DNode} {x : NX} {xs : List NX} {s : Tree} {path : List Bytes} {y : Bytes} {own : List Atom} {l : Answer}
    (h1 : Base q A t ff f' d) (h2 : d.mode = none) (h3 : Cur q A t d n ns x xs s path y) (h4 : PosOK q A d n x s path y own)
    (hl : l = .see ((own ++ t.after (stopDepth d) path.reverse).map SAtom.seen)) : POK q A t ff f' d l :=
  ⟨_, hl, .at_ h1 h2 h3 h4⟩

/-- Reading in a directory: `c` is the decoder, `d` what it was before. -/
theorem dir_good (hc : Ctx q A t ff f') {d : SDec} {c : Dec} (hb : Base q A t ff f' d) (hm : d.mode = none) {n : DNode} {ns : List DNode} {x : NX} {xs : List NX} {s : Tree} {path : List Bytes} {y : Bytes}
    (hcur : Cur q A t d n ns x xs s path y) (hd : s.isDir = true) (hmo : (sMode n x).isSome = true) (hsd : stopDepth d ≤ path.length) {k : Kids} (hsuf : Suf k s.kids)
    (hk : KidsAt q A c.archiveOff k (gbytes q n.entryOff s ++ y)) (hp : parses d.core = false) (hbuf : BufOK A c) (h0 : c.stepSize = 0) (hst : c.state = .inDirectory)
    (h1 : c.nodes = d.core.nodes) (h2 : c.cfg = d.core.cfg) (h3 : c.ff = d.core.ff) :
    SGood (POK q A t ff f') (.see ((listedEvents path k.listed ++ [Atom.doneFile path] ++ t.after (stopDepth d) path.reverse).map SAtom.seen))
      (noted' d (dirBody c).1, plainEv (dirBody c).2) := by
  have hn : c.nodes = n :: ns := h1.trans hcur.nodes
  obtain ⟨_, _, _, _, e1, e2, hno⟩ := hcur.stack.head
  injection e1 with e1 _
  injection e2 with e2 _
  subst e1 e2
  have hf := hcur.stack.facts hc
  have hsd' : stopDepth d = c.cfg.boundary := by rw [h2]; rfl
  rcases dirBody_spec hc hbuf hn hcur.stack hd hk hsuf with ⟨hr, he⟩ | ⟨nm, s', r, n', hn', g1, g2, g3, g4, hr⟩ | ⟨g1, g2, g3, g4, hr⟩
  · rw [hr]
    simp only [plainEv]
    rw [noted_same (by rw [h1]) hp (by rw [hst]; simp)]
    refine .request he (POK.mk (hb.same h1 rfl rfl (by rw [h2]) (by rw [h2]) h3 hbuf) hm ⟨hn, hcur.exts, hcur.stack⟩
      (.dir (k := k) hst hd hmo (by rw [hsd'] at hsd; exact hsd) hsuf (by show KidsAt q A (c.archiveOff + c.stepSize) _ _; rw [h0]; exact hk)) ?_)
    rw [hsd']; rfl
  · rw [hr]
    simp only [plainEv]
    have hc1 : Stack q A t (n' :: ns) (x :: xs) s path y := by
      rcases hn' with e | e
      · rw [e]; exact hcur.stack
      · rw [e]; exact hcur.stack.replace rfl rfl { hno with }
    have hmo' : (sMode n' x).isSome = true := by
      rcases hn' with e | e
      · rw [e]; exact hmo
      · rw [e]; exact hmo
    have heo : n'.entryOff = n.entryOff := by rcases hn' with e | e <;> rw [e]
    rw [noted_enter (by show d.core.nodes.length < (_ :: n' :: ns).length; rw [hcur.nodes]; simp) hp (by simp [setStep, enterState])]
    have hchild : Stack q A t ({ name := some nm, entryOff := c.archiveOff + (17 + nm.length) } :: n' :: ns) ({} :: x :: xs) s' (path ++ [nm]) _ :=
      .down (o := c.archiveOff) hc1 hd hmo' rfl (nodeOK_none s' _ _ none (fun _ h => nomatch h)) g1 (by rw [heo]; exact g2) rfl
    refine .step (POK.mk (hb.only ⟨rfl, by rw [hcur.exts], hchild⟩ rfl (by show c.cfg.naked = _; rw [h2]) (by show c.cfg.wantPayload = _; rw [h2])
      (by show validateFeatureFlags c.ff ff = _; rw [h3]; exact hb.flags) ⟨hbuf.at_, g4⟩) hm ⟨rfl, by rw [hcur.exts], hchild⟩
      (.enter (.inr rfl) rfl (by show c.cfg.boundary ≤ _; rw [List.length_append]; omega) rfl) ?_)
    show _ = Answer.see ((_ ++ t.after c.cfg.boundary _).map SAtom.seen)
    rw [hsd', g3, after_child hf.find hf.unique g1 (by omega)]
    unfold listedEvents
    simp only [List.flatMap_cons, List.append_assoc, List.singleton_append]
  · rw [hr]
    simp only [plainEv]
    rw [noted_goodbye (by show c.nodes.length = _; rw [h1]) hp rfl hcur.exts]
    have hb2 := hb.know hc (e := { d with core := setStep (enterState c .goodbye) (gbytes q n.entryOff s).length, exts := { x with goodbye := bufRows (setStep (enterState c .goodbye) (gbytes q n.entryOff s).length) } :: xs }) hcur (n' := n) hn rfl rfl rfl rfl
      { hno with goodbye := by
                    intro r hr
                    have : bufRows c = some r := hr
                    rw [g4] at this
                    injection this with this
                    exact ⟨hd, this.symm⟩ } (fun h => h)
      (by show c.cfg.naked = _; rw [h2]) (by show c.cfg.wantPayload = _; rw [h2]) h3 ⟨hbuf.at_, g3⟩
    refine .step (POK.mk hb2.1 hm hb2.2 (.goodbye rfl hd ?_) ?_)
    · show c.archiveOff + (gbytes q n.entryOff s).length = _
      rw [encTree_dir_length hd, g1]
    · show _ = Answer.see ((_ ++ t.after c.cfg.boundary _).map SAtom.seen)
      rw [hsd', g2]
      rfl

theorem atoms_one (a : Obs) : atoms [a] = a.atoms := by unfold atoms; simp

theorem nodeSize_file {n : DNode} {p : Parsed} {e : Entry} {a : Attrs} {api : Bool} {c : Bytes} (hp : n.parsed = some p) (h : p.Of (.file e a api c)) :
    nodeSize n = some (stored api c).length := by
  have h1 := h.shown
  unfold nodeSize
  rw [hp]
  simp only
  cases ht : p.term with
  | payload m =>
    rw [ht] at h1
    have h1 : Shown.file m = Shown.file (stored api c).length := h1
    injection h1 with h1
    simp only [h1]
  | symlink b => rw [ht] at h1; cases h1
  | device a b => rw [ht] at h1; cases h1
  | filename => rw [ht] at h1; cases h1
  | goodbye => rw [ht] at h1; cases h1

theorem encTree_file (e : Entry) (a : Attrs) (api : Bool) (c : Bytes) (off : Nat) : encTree q off (.file e a api c) = headBytes (.file e a api c) ++ stored api c := by
  rw [encTree]

/-- Reading the content of a file: `c` is the decoder, `d` what it was before. -/
theorem payload_good (hc : Ctx q A t ff f') {d : SDec} {c : Dec} (hb : Base q A t ff f' d) (hm : d.mode = none) {n : DNode} {ns : List DNode} {x : NX} {xs : List NX} {s : Tree} {path : List Bytes} {y : Bytes}
    (hcur : Cur q A t d n ns x xs s path y) {e : Entry} {a : Attrs} {api : Bool} {b : Bytes} (hs : s = .file e a api b) (hpar : n.parsed.isSome = true)
    (hle : c.payloadOff ≤ (stored api b).length) (ho : c.archiveOff = n.entryOff + (headBytes s).length + c.payloadOff) (hp : parses d.core = false) (hbuf : BufOK A c)
    (h0 : c.stepSize = 0) (hst : c.state = .inPayload) (h1 : c.nodes = d.core.nodes) (h2 : c.cfg = d.core.cfg) (h3 : c.ff = d.core.ff) :
    SGood (POK q A t ff f') (.see ((((stored api b).drop c.payloadOff).map Atom.byte ++ [Atom.doneFile path] ++ t.after (stopDepth d) path.reverse).map SAtom.seen))
      (noted' d (stepPayload c).1, plainEv (stepPayload c).2) := by
  have hn : c.nodes = n :: ns := h1.trans hcur.nodes
  obtain ⟨_, _, _, _, e1, e2, hno⟩ := hcur.stack.head
  injection e1 with e1 _
  injection e2 with e2 _
  subst e1 e2
  have hf := hcur.stack.facts hc
  have hsd' : stopDepth d = c.cfg.boundary := by rw [h2]; rfl
  obtain ⟨p, hp'⟩ := Option.isSome_iff_exists.1 hpar
  have hof := hno.parsed p hp'
  have hsz := nodeSize_file hp' (hs ▸ hof)
  have hreg : isType p.entry.mode ifReg = true := by
    rw [hof.entry]
    have := hf.storable
    rw [hs] at this ⊢
    rw [Storable] at this
    exact this.2
  have hlen : (encTree q n.entryOff s).length = (headBytes s).length + (stored api b).length := by rw [hs, encTree_file, List.length_append]
  have hat : A.drop c.archiveOff = (stored api b).drop c.payloadOff ++ y := by
    have h4 := hf.placed n ns rfl
    unfold Placed at h4
    rw [hs, encTree_file, List.append_assoc, ← hs] at h4
    have h5 := drop_of_append h4
    rw [ho, ← List.drop_drop, h5, List.drop_append_of_le_length hle]
  have hmode := nodeMode_parsed (c := c) hp'
  have hpast : pastEnd n c.payloadOff = false := by unfold pastEnd; rw [hsz]; simp; omega
  have hstep : stepPayload c = (if (stored api b).length = c.payloadOff then (enterState c .finalize, .ok .doneFile)
      else if c.buf ≠ [] then (setStep c (min c.buf.length ((stored api b).length - c.payloadOff)), .ok .payload)
      else if c.eof then (c, .err .EPIPE) else (c, .ok .request)) := by
    unfold stepPayload
    rw [hn]
    simp only [hmode, hreg, Bool.true_or, Bool.not_true, Bool.false_eq_true, if_false, hpast, hsz, Option.some.injEq, Option.isSome_some, if_true]
    rw [h2, hb.want]
    simp
  obtain ⟨z, hz1, hz2⟩ := hbuf.at_
  by_cases hend : (stored api b).length = c.payloadOff
  · rw [hstep, if_pos hend]
    simp only [plainEv]
    rw [noted_same (by show c.nodes.length = _; rw [h1]) hp (by simp [enterState])]
    refine .see (by simp) (POK.mk (own := []) (hb.same h1 rfl rfl (by show c.cfg.naked = _; rw [h2]) (by show c.cfg.wantPayload = _; rw [h2]) h3 ⟨hbuf.at_, Nat.zero_le _⟩) hm ⟨hn, hcur.exts, hcur.stack⟩
      (.finalize rfl (by show c.archiveOff + 0 = _; omega)) rfl) ?_
    show _ = Answer.see ((atoms [.doneFile (pathOf c.nodes)]).map SAtom.seen ++ (t.after c.cfg.boundary path.reverse).map SAtom.seen)
    rw [atoms_one, hn, hf.names, hsd', ← hend, List.drop_length]
    rfl
  · by_cases hbn : c.buf ≠ []
    · rw [hstep, if_neg hend, if_pos hbn]
      simp only [plainEv]
      rw [noted_same (by show c.nodes.length = _; rw [h1]) hp (by simp [setStep, hst])]
      have hk1 : min c.buf.length ((stored api b).length - c.payloadOff) ≤ c.buf.length := Nat.min_le_left ..
      have hk2 : min c.buf.length ((stored api b).length - c.payloadOff) ≤ (stored api b).length - c.payloadOff := Nat.min_le_right ..
      generalize min c.buf.length ((stored api b).length - c.payloadOff) = k at *
      refine .see (by simp) (POK.mk (own := ((stored api b).drop (c.payloadOff + k)).map Atom.byte ++ [Atom.doneFile path])
        (hb.same h1 rfl rfl (by show c.cfg.naked = _; rw [h2]) (by show c.cfg.wantPayload = _; rw [h2]) h3 ⟨hbuf.at_, hk1⟩) hm ⟨hn, hcur.exts, hcur.stack⟩
        (.payload (e := e) (a := a) (api := api) (c := b) hst hs hpar (by show c.payloadOff + k ≤ _; omega) (by show c.archiveOff + k = _ + (c.payloadOff + k); omega)) rfl) ?_
      show _ = Answer.see ((atoms [.payload (c.buf.take k)]).map SAtom.seen ++ ((_ ++ t.after c.cfg.boundary path.reverse).map SAtom.seen))
      have htake : c.buf.take k = ((stored api b).drop c.payloadOff).take k := by
        have h6 := congrArg (List.take k) (hz1.symm.trans hat)
        rw [List.take_append_of_le_length hk1, List.take_append_of_le_length (by rw [List.length_drop]; exact hk2)] at h6
        exact h6
      rw [atoms_one, hsd', htake, ← List.map_append]
      refine congrArg (fun l => Answer.see (List.map SAtom.seen l)) ?_
      show _ = (((stored api b).drop c.payloadOff).take k).map Atom.byte ++ _
      rw [← List.drop_drop, ← List.append_assoc, ← List.append_assoc, ← List.map_append, List.take_append_drop]
    · have hbn' : c.buf = [] := Decidable.not_not.1 hbn
      have hne : c.eof = false := by
        cases he : c.eof with
        | false => rfl
        | true =>
          rw [hz1, hbn', hz2 he] at hat
          have := congrArg List.length hat
          simp at this
          omega
      rw [hstep, if_neg hend, if_neg hbn, hne, if_neg (by simp)]
      simp only [plainEv]
      rw [noted_same (by rw [h1]) hp (by rw [hst]; simp)]
      have hz : c.payloadOff + c.stepSize = c.payloadOff := by rw [h0]; rfl
      refine .request hne (POK.mk (own := ((stored api b).drop (c.payloadOff + c.stepSize)).map Atom.byte ++ [Atom.doneFile path])
        (hb.same h1 rfl rfl (by show c.cfg.naked = _; rw [h2]) (by show c.cfg.wantPayload = _; rw [h2]) h3 hbuf) hm ⟨hn, hcur.exts, hcur.stack⟩
        (.payload (e := e) (a := a) (api := api) (c := b) hst hs hpar (by show c.payloadOff + c.stepSize ≤ _; omega) (by show c.archiveOff + c.stepSize = _ + (c.payloadOff + c.stepSize); omega)) ?_)
      rw [hz, hsd']
      rfl

/-- Reading the records of an object. -/
theorem entry_read (hc : Ctx q A t ff f') {c : Dec} {n : DNode} {ns : List DNode} {exts : List NX} {s : Tree} {path : List Bytes} {y : Bytes}
    (hs : Stack q A t (n :: ns) exts s path y) (hv : validateFeatureFlags c.ff ff = some f') (hbuf : BufOK A c) (ho : c.archiveOff = n.entryOff) :
    (∃ f2, parseEntry c.ff (ns == []) c.buf = (f2, .request) ∧ validateFeatureFlags f2 ff = some f' ∧ c.eof = false) ∨
    (∃ p, parseEntry c.ff (ns == []) c.buf = (f', .ok (p, (headBytes s).length)) ∧ p.Of s ∧ (headBytes s).length ≤ c.buf.length) := by
  have hf := hs.facts hc
  have hroot : s.isDir = true ∨ ((ns == []) = false ∧ DirNext y) := by
    rcases hf.follows with h | h
    · exact .inl h
    · by_cases hp : path = []
      · exact .inl (hf.root hp)
      · right
        refine ⟨?_, h⟩
        have := hf.len
        have hpos := List.length_pos_iff.2 hp
        cases ns with
        | nil => simp at this; exact absurd this hp
        | cons => rfl
  obtain ⟨p, hp, hof⟩ := parse_tree hc.known hv hf.storable (hf.placed n ns rfl) hc.small hroot
  rw [← ho] at hp
  rcases hbuf.entryRec hp with ⟨f2, h1, h2, h3⟩ | h1
  · refine .inl ⟨f2, h1, ?_, h3⟩
    rcases h2 with h2 | h2
    · rw [h2]; exact hv
    · rw [h2]; exact hc.again
  · exact .inr ⟨p, h1, hof, (parseEntry_off h1).2⟩

/-- The node after its records were, or were not, read. -/
theorem NodeOK.reset {s : Tree} {n : DNode} {x : NX} (h : NodeOK q A s n x) : NodeOK q A s { n with parsed := none } (parsedExt none 0 x) :=
  { h with parsed := (fun _ h => nomatch h), mode := (fun _ h => nomatch h), pay := (fun h => nomatch h) }

theorem NodeOK.read {s : Tree} {n : DNode} {x : NX} (hS : Storable ff s) (h : NodeOK q A s n x) {p : Parsed} (hp : p.Of s) :
    NodeOK q A s { n with parsed := some p } (parsedExt (some p) (n.entryOff + (headBytes s).length) x) :=
  { h with
    parsed := fun p' e => by injection e with e; rw [← e]; exact hp
    mode := (fun _ h => nomatch h)
    payloadOff := by
      intro o ho
      unfold parsedExt at ho
      simp only at ho
      by_cases hr : isType p.entry.mode ifReg = true
      · rw [if_pos hr] at ho; injection ho with ho; exact ⟨hS.regFile (hp.entry ▸ hr), ho.symm⟩
      · rw [if_neg hr] at ho; exact h.payloadOff o ho
    pay := by
      intro _ hfile
      obtain ⟨e, a, api, b, hs⟩ := hfile
      have hr : isType p.entry.mode ifReg = true := by rw [hp.entry]; rw [hs] at hS ⊢; rw [Storable] at hS; exact hS.2
      unfold parsedExt
      simp only
      rw [if_pos hr]
      rfl }

theorem parse_good (hc : Ctx q A t ff f') {d : SDec} (hb : Base q A t ff f' d) (hm : d.mode = none) {n : DNode} {ns : List DNode} {x : NX} {xs : List NX} {s : Tree} {path : List Bytes} {y : Bytes}
    (hcur : Cur q A t d n ns x xs s path y) (hst : d.core.state = .init ∨ d.core.state = .entered) (hbel : d.below = []) (hsd : stopDepth d ≤ path.length)
    (ho : d.core.archiveOff + d.core.stepSize = n.entryOff) :
    SGood (POK q A t ff f') (.see ((events path s ++ t.after (stopDepth d) path.reverse).map SAtom.seen))
      (noted' d (stepParse (advance d.core)).1, plainEv (stepParse (advance d.core)).2) := by
  obtain ⟨_, _, _, _, e1, e2, hno⟩ := hcur.stack.head
  injection e1 with e1 _
  injection e2 with e2 _
  subst e1 e2
  have hf := hcur.stack.facts hc
  have hp : parses d.core = true := by
    unfold parses isNaked
    rw [hb.naked]
    rcases hst with h | h <;> rw [h] <;> rfl
  have hbuf := hb.buf.advance
  have hn : (advance d.core).nodes = n :: ns := hcur.nodes
  rcases entry_read hc (c := advance d.core) hcur.stack hb.flags hbuf ho with ⟨f2, h1, h2, h3⟩ | ⟨p, h1, h2, h3⟩
  · have hstep : stepParse (advance d.core) = ({ advance d.core with ff := f2, nodes := { n with parsed := none } :: ns }, .ok .request) := by
      unfold stepParse
      rw [hn]
      simp only [h1]
    rw [hstep]
    simp only [plainEv]
    rw [noted_parse (by show ns.length + 1 = _; rw [hcur.nodes]; rfl) hp (by show d.core.state ≠ _; rcases hst with h | h <;> rw [h] <;> simp) hcur.exts]
    have hcur' : Stack q A t ({ n with parsed := none } :: ns) (parsedExt none 0 x :: xs) s path y := hcur.stack.replace rfl rfl hno.reset
    exact .request h3 (POK.mk (hb.only ⟨rfl, rfl, hcur'⟩ hbel rfl rfl h2 ⟨hbuf.at_, hbuf.size⟩) hm ⟨rfl, rfl, hcur'⟩ (.enter hst hbel hsd ho) rfl)
  · have hstep : stepParse (advance d.core) = (setStep (enterState { advance d.core with ff := f', nodes := { n with parsed := some p } :: ns } .entry) (headBytes s).length, .ok .nextFile) := by
      unfold stepParse
      rw [hn]
      simp only [h1]
    rw [hstep]
    simp only [plainEv]
    rw [noted_parse (by show ns.length + 1 = _; rw [hcur.nodes]; rfl) hp (by simp [setStep, enterState]) hcur.exts]
    have hpe : (advance d.core).archiveOff + (headBytes s).length = n.entryOff + (headBytes s).length := by rw [← ho]; rfl
    have hcur' : Stack q A t ({ n with parsed := some p } :: ns) (parsedExt (some p) ((advance d.core).archiveOff + (headBytes s).length) x :: xs) s path y := by
      rw [hpe]
      exact hcur.stack.replace rfl rfl (hno.read hf.storable h2)
    refine .see (by simp) (POK.mk (hb.only ⟨rfl, rfl, hcur'⟩ hbel rfl rfl hc.again ⟨hbuf.at_, h3⟩) hm ⟨rfl, rfl, hcur'⟩ (.entry rfl rfl hsd hpe) rfl) ?_
    obtain ⟨r, hr⟩ := events_head path s
    show _ = Answer.see ((atoms [.nextFile (pathOf ({ n with parsed := some p } :: ns)) p.entry p.attrs p.term.shown]).map SAtom.seen ++ _)
    have hnames : pathOf ({ n with parsed := some p } :: ns) = path := by
      rw [← hf.names, pathOf_cons, pathOf_cons]
    rw [atoms_one, hnames, h2.entry, h2.attrs, h2.shown, hr]
    rfl

/-- The end of an object. -/
theorem finalize_good (hc : Ctx q A t ff f') {d : SDec} (hb : Base q A t ff f' d) (hm : d.mode = none) {n : DNode} {ns : List DNode} {x : NX} {xs : List NX} {s : Tree} {path : List Bytes} {y : Bytes}
    (hcur : Cur q A t d n ns x xs s path y) (hst : d.core.state = .finalize) (ho : d.core.archiveOff + d.core.stepSize = n.entryOff + (encTree q n.entryOff s).length) :
    SGood (POK q A t ff f') (.see ((t.after (stopDepth d) path.reverse).map SAtom.seen))
      (noted' d (stepFinalize (advance d.core)).1, plainEv (stepFinalize (advance d.core)).2) := by
  have hf := hcur.stack.facts hc
  have hp : parses d.core = false := by unfold parses; rw [hst]; rfl
  have hbuf := hb.buf.advance
  have hn : (advance d.core).nodes = n :: ns := hcur.nodes
  have hlen := hf.len
  rw [List.length_cons] at hlen
  by_cases hb1 : ns.length ≤ d.core.cfg.boundary
  · have hstep : stepFinalize (advance d.core) = (enterState (advance d.core) .eof, .ok .finished) := by
      unfold stepFinalize
      rw [hn]
      simp only
      rw [if_pos (show ns.length ≤ (advance d.core).cfg.boundary from hb1)]
    rw [hstep]
    simp only [plainEv]
    rw [noted_same (c := enterState (advance d.core) .eof) rfl hp (by simp [enterState]), after_stop (by show _ ≤ d.core.cfg.boundary; omega)]
    exact .finished rfl ⟨[], rfl, .eof (hb.same rfl rfl rfl rfl rfl rfl ⟨hbuf.at_, Nat.zero_le _⟩) hm rfl⟩
  · have hstep : stepFinalize (advance d.core) = (enterState { advance d.core with nodes := ns } .inDirectory, .ok .step) := by
      unfold stepFinalize
      rw [hn]
      simp only
      rw [if_neg (show ¬ ns.length ≤ (advance d.core).cfg.boundary from hb1)]
    rw [hstep]
    simp only [plainEv]
    rw [noted_pop (by show ns.length < _; rw [hcur.nodes]; simp) hp (by simp [enterState]) hcur.nodes hcur.exts]
    have hst := hcur.stack
    cases hst with
    | root => exact absurd (Nat.zero_le _) hb1
    | @down pn pns x0 xs0 s0 path0 y0 _ _ nm _ r o a1 a2 a3 a4 a5 a6 a7 a8 =>
      have hf0 := a1.facts hc
      have hl0 := hf0.len
      have hbase : Base q A t ff f' { d with core := enterState { advance d.core with nodes := pn :: pns } .inDirectory, exts := x0 :: xs0, below := (n, x) :: d.below } :=
        { naked := hb.naked, want := hb.want, flags := hb.flags,
          len := by
            have := hb.len
            rw [hcur.exts, hcur.nodes] at this
            simp at this
            show xs0.length + 1 = pns.length + 1
            omega
          ne := List.cons_ne_nil _ _
          full := by
            obtain ⟨s1, p1, y1, h⟩ := hb.full
            refine ⟨s1, p1, y1, ?_⟩
            unfold fullN fullX at h ⊢
            rw [hcur.nodes, hcur.exts] at h
            simp only [List.map_cons, List.reverse_cons, List.append_assoc, List.singleton_append]
            exact h
          buf := ⟨hbuf.at_, Nat.zero_le _⟩ }
      refine .step (POK.mk (own := listedEvents path0 r.listed ++ [.doneFile path0]) hbase hm ⟨rfl, rfl, a1⟩ (.dir rfl a2 a3 (by show d.core.cfg.boundary ≤ _; rw [hl0] at hb1; omega) a6.tail ?_) ?_)
      · show KidsAt q A (d.core.archiveOff + d.core.stepSize + 0) r _
        have := a7.here.2.2
        rw [← a8, ← ho] at this
        exact this
      · show _ = Answer.see ((_ ++ t.after d.core.cfg.boundary path0.reverse).map SAtom.seen)
        rw [after_child hf0.find hf0.unique a6 (by show d.core.cfg.boundary ≤ _; rw [hl0] at hb1; omega), List.append_assoc]
        rfl

/-- All steps outside of seeks are good. -/
theorem plain_good (hc : Ctx q A t ff f') {d : SDec} {r : List Atom} (h : PlainOK q A t ff f' d r) : SGood (POK q A t ff f') (.see (r.map SAtom.seen)) (sStep d) := by
  cases h with
  | eof hb hm hst =>
    have hbd : baseDir d = false := by unfold baseDir; rw [hst]; rfl
    rw [sStep_plain hm]
    unfold plainStep
    rw [hbd, if_neg (by simp)]
    have hstep : step d.core = (d.core, .ok .finished) := by unfold step; rw [if_pos hst]
    rw [hstep]
    simp only [plainEv]
    rw [noted_same (c := d.core) rfl (by unfold parses; rw [hst]; rfl) (by rw [hst]; simp)]
    exact .finished rfl ⟨[], rfl, .eof hb hm hst⟩
  | @at_ n ns x xs s path y own hb hm hcur hpos =>
    have hf := hcur.stack.facts hc
    obtain ⟨_, _, _, _, e1, e2, hno⟩ := hcur.stack.head
    injection e1 with e1 _
    injection e2 with e2 _
    subst e1 e2
    have hbuf := hb.buf.advance
    rw [sStep_plain hm]
    cases hpos with
    | enter hst hbel hsd ho =>
      have hstep : stepNode (advance d.core) = stepParse (advance d.core) := by
        have : isNaked (advance d.core) = false := by unfold isNaked; rw [show (advance d.core).cfg = d.core.cfg from rfl, hb.naked]; rfl
        unfold stepNode
        rw [show (advance d.core).state = d.core.state from rfl]
        rcases hst with h | h
        · rw [h]; simp only [this]; rfl
        · rw [h]
      rw [plain_other hb (by rcases hst with h | h <;> rw [h] <;> simp) (by rcases hst with h | h <;> rw [h] <;> simp), hstep]
      exact parse_good hc hb hm hcur hst hbel hsd ho
    | goodbye hst hd ho =>
      have hstep : stepNode (advance d.core) = (enterState (advance d.core) .finalize, .ok .doneFile) := by
        unfold stepNode
        rw [show (advance d.core).state = d.core.state from rfl, hst]
      rw [plain_other hb (by rw [hst]; simp) (by rw [hst]; simp), hstep]
      simp only [plainEv]
      rw [noted_same (c := enterState (advance d.core) .finalize) rfl (by unfold parses; rw [hst]; rfl) (by simp [enterState])]
      refine .see (by simp) (POK.mk (own := []) (hb.same rfl rfl rfl rfl rfl rfl ⟨hbuf.at_, Nat.zero_le _⟩) hm ⟨hcur.nodes, hcur.exts, hcur.stack⟩ (.finalize rfl ho) rfl) ?_
      show _ = Answer.see ((atoms [.doneFile (pathOf d.core.nodes)]).map SAtom.seen ++ _)
      rw [atoms_one, hcur.nodes, hf.names]
      rfl
    | finalize hst ho =>
      have hstep : stepNode (advance d.core) = stepFinalize (advance d.core) := by
        unfold stepNode
        rw [show (advance d.core).state = d.core.state from rfl, hst]
      rw [plain_other hb (by rw [hst]; simp) (by rw [hst]; simp), hstep]
      exact finalize_good hc hb hm hcur hst ho
    | @dir k hst hd hmo hsd hsuf hk =>
      rw [plain_dir hb hc hcur hst hd hmo]
      exact dir_good hc hb hm hcur hd hmo hsd hsuf hk (by unfold parses; rw [hst]; rfl) hbuf rfl hst rfl rfl rfl
    | @payload e a api b hst hs hpar hle ho =>
      have hstep : stepNode (advance d.core) = stepPayload (advance d.core) := by
        unfold stepNode
        rw [show (advance d.core).state = d.core.state from rfl, hst]
      have hpo : (advance d.core).payloadOff = d.core.payloadOff + d.core.stepSize := by unfold advance; simp only [if_pos hst]
      rw [plain_other hb (by rw [hst]; simp) (by rw [hst]; simp), hstep, ← hpo]
      exact payload_good hc hb hm hcur hs hpar (by rw [hpo]; exact hle) (by rw [hpo]; exact ho) (by unfold parses; rw [hst]; rfl) hbuf rfl hst rfl rfl rfl
    | entry hst hpar hsd ho =>
      obtain ⟨p, hp⟩ := Option.isSome_iff_exists.1 hpar
      have hof := hno.parsed p hp
      have hps : parses d.core = false := by unfold parses; rw [hst]; rfl
      have hmode : (sMode n x).isSome = true := by unfold sMode; rw [hp]; rfl
      have hstep : stepNode (advance d.core) = (if isType p.entry.mode ifReg then stepPayload (enterState (advance d.core) .inPayload)
          else if isType p.entry.mode ifDir then stepDirectory (enterState (advance d.core) .inDirectory)
          else (enterState (advance d.core) .finalize, .ok .doneFile)) := by
        unfold stepNode
        rw [show (advance d.core).state = d.core.state from rfl, hst, show (advance d.core).nodes = n :: ns from hcur.nodes]
        simp only [nodeMode_parsed (c := advance d.core) hp]
      rw [plain_other hb (by rw [hst]; simp) (by rw [hst]; simp), hstep]
      have hS := hf.storable
      have hrest : s.isDir = false → (∀ e a api b, s ≠ .file e a api b) → isType p.entry.mode ifReg = false → encTree q n.entryOff s = headBytes s →
          (events path s).tail = [.doneFile path] →
          SGood (POK q A t ff f') (.see (((events path s).tail ++ t.after (stopDepth d) path.reverse).map SAtom.seen))
          (noted' d (if isType p.entry.mode ifReg then stepPayload (enterState (advance d.core) .inPayload)
          else if isType p.entry.mode ifDir then stepDirectory (enterState (advance d.core) .inDirectory)
          else (enterState (advance d.core) .finalize, .ok .doneFile)).1, plainEv (if isType p.entry.mode ifReg then stepPayload (enterState (advance d.core) .inPayload)
          else if isType p.entry.mode ifDir then stepDirectory (enterState (advance d.core) .inDirectory)
          else (enterState (advance d.core) .finalize, .ok .doneFile)).2) := by
        intro h1 _ h2 h3 h4
        rw [if_neg (by rw [h2]; simp), if_neg (by rw [hof.entry, hS.otherMode h1]; simp)]
        simp only [plainEv]
        rw [noted_same (c := enterState (advance d.core) .finalize) rfl hps (by simp [enterState]), h4]
        refine .see (by simp) (POK.mk (own := []) (hb.same rfl rfl rfl rfl rfl rfl ⟨hbuf.at_, Nat.zero_le _⟩) hm ⟨hcur.nodes, hcur.exts, hcur.stack⟩
          (.finalize rfl (by rw [h3]; exact ho)) rfl) ?_
        show _ = Answer.see ((atoms [.doneFile (pathOf d.core.nodes)]).map SAtom.seen ++ _)
        rw [atoms_one, hcur.nodes, hf.names]
        rfl
      cases s with
      | dir e a api k =>
        have hdm := hS.dirMode rfl
        rw [← hof.entry] at hdm
        rw [if_neg (by rw [isType_excl hdm (by decide)]; simp), if_pos hdm,
          stepDirectory_body (c := enterState (advance d.core) .inDirectory) (n := n) (ns := ns) hcur.nodes (nodeMode_parsed hp) hdm, events_dir rfl]
        refine dir_good hc hb hm hcur rfl hmode hsd .refl ?_ hps ⟨hbuf.at_, Nat.zero_le _⟩ rfl rfl rfl rfl rfl
        have := (hf.placed n ns rfl).kids rfl
        unfold kstart at this
        rw [← ho] at this
        exact this
      | file e a api b =>
        have hreg : isType p.entry.mode ifReg = true := by rw [hof.entry]; rw [Storable] at hS; exact hS.2
        rw [if_pos hreg, events]
        have := payload_good hc (c := enterState (advance d.core) .inPayload) hb hm hcur rfl hpar (Nat.zero_le _) ho hps ⟨hbuf.at_, Nat.zero_le _⟩ rfl rfl rfl rfl rfl
        rw [show (enterState (advance d.core) .inPayload).payloadOff = 0 from rfl, List.drop_zero] at this
        exact this
      | symlink e a b =>
        refine hrest rfl (fun _ _ _ _ h => nomatch h) ?_ (by rw [encTree]) (by rw [events]; rfl)
        rw [hof.entry]; rw [Storable] at hS; exact isType_excl hS.2.1 (by decide)
      | device e a u v =>
        refine hrest rfl (fun _ _ _ _ h => nomatch h) ?_ (by rw [encTree]) (by rw [events]; rfl)
        rw [hof.entry]; rw [Storable] at hS; rcases hS.2.1 with h | h <;> exact isType_excl h (by decide)
      | special e a =>
        refine hrest rfl (fun _ _ _ _ h => nomatch h) ?_ (by rw [encTree]) (by rw [events]; rfl)
        rw [hof.entry]; rw [Storable] at hS; rcases hS.2 with h | h <;> exact isType_excl h.1 (by decide)

end Casync.Archive
