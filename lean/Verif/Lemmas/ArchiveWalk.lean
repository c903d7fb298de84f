import Verif.Lemmas.ArchiveHead
/-!
The decoder walks over the archive of a tree.
-/
namespace Casync.Archive
open Casync Flags

/-- A decoder that has everything, between two objects. -/
def here (c : DCfg) (f : FF) (s : DState) (nodes : List DNode) (buf : Bytes) (off : Nat) : Dec :=
  { cfg := c, state := s, nodes := nodes, ff := f, buf := buf, eof := true, archiveOff := off, payloadOff := 0, stepSize := 0, skip := 0 }

/-- From one state to another with these observations. -/
def Reach (s : Dec) (evs : List Atom) (s' : Dec) : Prop := ∀ t o, BRun s' t o → BRun s (evs ++ t) o

theorem Reach.refl (s : Dec) : Reach s [] s := fun _ _ h => h

theorem Reach.trans {a b c : Dec} {e1 e2 : List Atom} (h1 : Reach a e1 b) (h2 : Reach b e2 c) : Reach a (e1 ++ e2) c := by
  intro t o h
  rw [List.append_assoc]
  exact h1 _ _ (h2 _ _ h)

theorem Reach.congr {a b c : Dec} {e : List Atom} (h : stepNode a = stepNode b) (h2 : Reach b e c) : Reach a e c :=
  fun t o hr => .congr h (h2 t o hr)

theorem Reach.one {s s' : Dec} {ev : Ev} {e : List Atom} {c : Dec} (h : stepNode s = (s', .ok ev)) (hm : ev = .step ∨ ev = .nextFile ∨ ev = .doneFile)
    (he : atoms (observe s' ev) = e) (h2 : advance s' = c) : Reach s e c := by
  intro t o hr
  subst he h2
  exact .go h (by simpa using hm) hr

/-- The names on the way to the current node. -/
def pathOf (nodes : List DNode) : List Bytes := nodes.reverse.filterMap (·.name)

theorem pathOf_cons (n : DNode) (rest : List DNode) : pathOf (n :: rest) = pathOf rest ++ n.name.toList := by
  unfold pathOf
  rw [List.reverse_cons, List.filterMap_append]
  cases n with | mk name a b c => cases name <;> rfl

/-- What follows is a proper record of a directory. -/
def DirNext (x : Bytes) : Prop := ∀ (d : FF) (st : PSt), st.entry.isSome = true → ∃ t, (t = .filename ∨ t = .goodbye) ∧ headRec d st x = .done t 0

/-- After the metadata of an object. -/
theorem reach_head {c : DCfg} {f f' : FF} {st : DState} {n : DNode} {rest : List DNode} {h x : Bytes} {off : Nat} {p : Parsed}
    (hst : (st = .init ∧ c.naked = false) ∨ st = .entered) (hp : parseEntry f (rest == []) (h ++ x) = (f', .ok (p, h.length))) :
    Reach (here c f st (n :: rest) (h ++ x) off) [.nextFile (pathOf (n :: rest)) p.entry p.attrs p.term.shown]
      (here c f' .entry ({ n with parsed := some p } :: rest) x (off + h.length)) := by
  have hs : stepNode (here c f st (n :: rest) (h ++ x) off) = stepParse (here c f st (n :: rest) (h ++ x) off) := by
    rcases hst with ⟨rfl, hn⟩ | rfl
    · have : isNaked (here c f .init (n :: rest) (h ++ x) off) = false := by unfold isNaked here; rw [hn]; rfl
      show (if isNaked (here c f .init (n :: rest) (h ++ x) off) = true then _ else _) = _
      rw [if_neg (by rw [this]; simp)]
    · rfl
  have hs2 : stepParse (here c f st (n :: rest) (h ++ x) off) =
      (setStep (here c f' .entry ({ n with parsed := some p } :: rest) (h ++ x) off) h.length, .ok .nextFile) := by
    unfold stepParse
    simp only [here, hp]
    rfl
  refine Reach.one (hs.trans hs2) (.inr (.inl rfl)) ?_ ?_
  · show [Atom.nextFile (pathOf ({ n with parsed := some p } :: rest)) _ _ _] = _
    rw [pathOf_cons, pathOf_cons]
  simp only [advance, setStep, here, List.drop_left]
  rfl

theorem reach_done {c : DCfg} {f : FF} {s : DState} {nodes : List DNode} {x : Bytes} {off : Nat}
    (h : stepNode (here c f s nodes x off) = (enterState (here c f s nodes x off) .finalize, .ok .doneFile)) :
    Reach (here c f s nodes x off) [.doneFile (pathOf nodes)] (here c f .finalize nodes x off) :=
  Reach.one h (.inr (.inr rfl)) rfl (advance_id rfl)

/-- The content of a file. -/
theorem reach_payload {c : DCfg} {f : FF} {n : DNode} {rest : List DNode} {e : Entry} {a : Attrs} (b x : Bytes) (off : Nat) (hreg : isType e.mode ifReg = true)
    (hn : n.parsed = some ⟨e, a, .payload b.length⟩) :
    Reach (here c f .entry (n :: rest) (b ++ x) off) (b.map .byte ++ [.doneFile (pathOf (n :: rest))]) (here c f .finalize (n :: rest) x (off + b.length)) := by
  have hm : ∀ q, nodeMode q n = some e.mode := by intro q; unfold nodeMode; rw [hn]
  have hz : nodeSize n = some b.length := by unfold nodeSize; rw [hn]
  have h1 : stepNode (here c f .entry (n :: rest) (b ++ x) off) = stepNode (here c f .inPayload (n :: rest) (b ++ x) off) := by
    show (match nodeMode _ n with | none => _ | some m => _) = _
    rw [hm]
    simp only [hreg, if_true]
    rfl
  refine Reach.congr h1 ?_
  intro t o hr
  rw [List.append_assoc]
  have hat : PayAt (here c f .inPayload (n :: rest) (b ++ x) off) b.length :=
    { state := rfl, size0 := rfl, len := by simp only [here, List.length_append]; omega,
      node := ⟨n, rest, e.mode, rfl, hm _, by rw [hreg]; rfl, by
        intro sz hsz
        rw [hz] at hsz
        injection hsz with hsz
        simp only [here]; omega⟩ }
  have := pay_many b.length (here c f .inPayload (n :: rest) (b ++ x) off) ([.doneFile (pathOf (n :: rest))] ++ t) o hat ?_
  · simpa [here] using this
  · have ha : advance (setStep (here c f .inPayload (n :: rest) (b ++ x) off) b.length) =
        { (here c f .inPayload (n :: rest) x (off + b.length)) with payloadOff := b.length } := by
      simp only [advance, setStep, here, if_true, Nat.zero_add, List.drop_left]
    rw [ha]
    refine Reach.one (ev := .doneFile) (s' := here c f .finalize (n :: rest) x (off + b.length)) (c := here c f .finalize (n :: rest) x (off + b.length))
      ?_ (.inr (.inr rfl)) rfl (advance_id rfl) _ _ hr
    have hs : ∀ q : Dec, q.state = .inPayload → stepNode q = stepPayload q := by intro q hq; unfold stepNode; rw [hq]
    rw [hs _ rfl]
    unfold stepPayload
    simp only [here, hm, hreg, hz, pastEnd]
    simp
    rfl

/-- Up from an entry of a directory. -/
theorem reach_up {c : DCfg} {f : FF} {n p : DNode} {rest : List DNode} {x : Bytes} {off : Nat} (hb : c.boundary ≤ rest.length) :
    Reach (here c f .finalize (n :: p :: rest) x off) [] (here c f .inDirectory (p :: rest) x off) :=
  Reach.one (ev := .step) (s' := here c f .inDirectory (p :: rest) x off) (if_neg (by show ¬ (rest.length + 1 ≤ c.boundary); omega)) (.inl rfl) rfl (advance_id rfl)

/-- The node of a directory after one more entry. -/
def noted (c : DCfg) (n : DNode) (name : Bytes) : DNode := if c.delete then { n with dirents := n.dirents ++ [name] } else n

/-- Down to an entry of a directory. -/
theorem reach_down {c : DCfg} {f : FF} {n : DNode} {rest : List DNode} {name x : Bytes} {off : Nat} {p : Parsed} (hn : n.parsed = some p)
    (hd : isType p.entry.mode ifDir = true) (hs : SafeName name) (hl : name.length < 2 ^ 62) (hr : rest.length + 1 < 64) :
    Reach (here c f .inDirectory (n :: rest) (strRecord .filename name ++ x) off) []
      (here c f .entered ({ name := some name, entryOff := off + (strRecord .filename name).length } :: noted c n name :: rest) x
        (off + (strRecord .filename name).length)) := by
  have h1 : stepNode (here c f .inDirectory (n :: rest) (strRecord .filename name ++ x) off) =
      (setStep (here c f .entered ({ name := some name, entryOff := off + (strRecord .filename name).length } :: noted c n name :: rest)
        (strRecord .filename name ++ x) off) (strRecord .filename name).length, .ok .step) := by
    have hm : ∀ q, nodeMode q n = some p.entry.mode := by intro q; unfold nodeMode; rw [hn]
    have hs2 : ∀ q : Dec, q.state = .inDirectory → stepNode q = stepDirectory q := by intro q hq; unfold stepNode; rw [hq]
    rw [hs2 _ rfl]
    unfold stepDirectory
    simp only [here, hm, hd, parseDirRec_filename hs hl x]
    rw [if_neg (by simp)]
    have hlen : ¬ (n :: rest).length ≥ nodesMax := by
      have : nodesMax = 64 := rfl
      rw [List.length_cons]; omega
    exact (if_neg hlen).trans rfl
  refine Reach.one h1 (.inl rfl) rfl ?_
  simp only [advance, setStep, here, List.drop_left]
  rfl

/-- The end of a directory. -/
theorem reach_goodbye {c : DCfg} {f : FF} {n : DNode} {rest : List DNode} {rows : List Goodbye.Item} {distance : Nat} {x : Bytes} {off : Nat} {p : Parsed}
    (hn : n.parsed = some p) (hd : isType p.entry.mode ifDir = true) (h1 : 40 + 24 * rows.length ≤ distance) (h2 : distance < u64max)
    (h3 : off = n.entryOff + distance) :
    Reach (here c f .inDirectory (n :: rest) (goodbyeBytes rows distance ++ x) off) [.doneFile (pathOf (n :: rest))]
      (here c f .finalize (n :: rest) x (off + (goodbyeBytes rows distance).length)) := by
  have hs : stepNode (here c f .inDirectory (n :: rest) (goodbyeBytes rows distance ++ x) off) =
      (setStep (here c f .goodbye (n :: rest) (goodbyeBytes rows distance ++ x) off) (goodbyeBytes rows distance).length, .ok .step) := by
    have hm : ∀ q, nodeMode q n = some p.entry.mode := by intro q; unfold nodeMode; rw [hn]
    have hs2 : ∀ q : Dec, q.state = .inDirectory → stepNode q = stepDirectory q := by intro q hq; unfold stepNode; rw [hq]
    rw [hs2 _ rfl]
    unfold stepDirectory
    simp only [here, hm, hd, parseDirRec_goodbye h1 h2 x]
    rw [if_neg (by simp)]
    have hlen : ¬ distance ≠ off - n.entryOff := by omega
    exact (if_neg hlen).trans rfl
  have ha : advance (setStep (here c f .goodbye (n :: rest) (goodbyeBytes rows distance ++ x) off) (goodbyeBytes rows distance).length) =
      here c f .goodbye (n :: rest) x (off + (goodbyeBytes rows distance).length) := by
    simp only [advance, setStep, here, List.drop_left]
    rfl
  exact Reach.trans (e1 := []) (Reach.one hs (.inl rfl) rfl ha) (reach_done rfl)

/-! ### Sizes -/

theorem makeBstInner_length {α : Type} : ∀ (e : Nat) (input : List α) (n : Nat) (out : List (Option α)) (i : Nat) (r : List (Option α)),
    Goodbye.makeBstInner e input n out i = .ok r → r.length = out.length := by
  intro e
  induction e with
  | zero =>
    intro input n out i r h
    unfold Goodbye.makeBstInner at h
    split at h
    · injection h with h; rw [h]
    · cases h
  | succ e ih =>
    intro input n out i r h
    unfold Goodbye.makeBstInner at h
    split at h
    · injection h with h; rw [h]
    · simp only at h
      split at h
      · cases h
      · split at h
        · rename_i hi
          cases h1 : Goodbye.makeBstInner e input (if 2 ^ e - 1 + 2 ^ e / 2 ≤ n then (2 ^ (e + 1) - 2) / 2 else (2 ^ (e + 1) - 2) / 2 - (2 ^ e - 1 + 2 ^ e / 2 - n)) (out.set i (some _)) (i * 2 + 1) with
          | ok o1 =>
            rw [h1] at h
            have := ih _ _ _ _ _ h
            rw [this, ih _ _ _ _ _ h1, List.length_set]
          | err _ => rw [h1] at h; cases h
          | ub => rw [h1] at h; cases h
        · cases h

theorem allSet_length {α : Type} : ∀ (l : List (Option α)) (r : List α), Goodbye.allSet l = .ok r → r.length = l.length := by
  intro l
  induction l with
  | nil => intro r h; injection h with h; rw [← h]; rfl
  | cons a l ih =>
    intro r h
    cases a with
    | none => cases h
    | some x =>
      unfold Goodbye.allSet at h
      cases h1 : Goodbye.allSet l with
      | ok q => rw [h1] at h; injection h with h; rw [← h, List.length_cons, List.length_cons, ih q h1]
      | err _ => rw [h1] at h; cases h
      | ub => rw [h1] at h; cases h

theorem goodbyeItems_length (start : Nat) : ∀ (l : List Goodbye.NameItem) (r : List Goodbye.Item), Goodbye.goodbyeItems start l = .ok r → r.length = l.length := by
  intro l
  induction l with
  | nil => intro r h; injection h with h; rw [← h]; rfl
  | cons a l ih =>
    intro r h
    unfold Goodbye.goodbyeItems at h
    cases h0 : Goodbye.goodbyeItem start a with
    | ok i =>
      rw [h0] at h
      cases h1 : Goodbye.goodbyeItems start l with
      | ok q => rw [h1] at h; injection h with h; rw [← h, List.length_cons, List.length_cons, ih q h1]
      | err _ => rw [h1] at h; cases h
      | ub => rw [h1] at h; cases h
    | err _ => rw [h0] at h; cases h
    | ub => rw [h0] at h; cases h

theorem rowsOf_length (q : List Goodbye.NameItem → List Goodbye.NameItem) (items : List Goodbye.NameItem) (start : Nat) :
    (rowsOf q items start).length ≤ items.length := by
  unfold rowsOf
  cases h : Goodbye.goodbyeTable q items start with
  | ok r =>
    simp only
    unfold Goodbye.goodbyeTable at h
    cases h1 : Goodbye.nameTableMakeBst q items with
    | ok b =>
      rw [h1] at h
      rw [goodbyeItems_length _ _ _ h]
      unfold Goodbye.nameTableMakeBst at h1
      split at h1
      · injection h1 with h1; rw [h1]; exact Nat.le_refl _
      · cases h2 : Goodbye.makeBst (q items) items.length (List.replicate items.length none) with
        | ok o =>
          rw [h2] at h1
          rw [allSet_length _ _ h1]
          unfold Goodbye.makeBst at h2
          split at h2
          · cases h2
          · rw [makeBstInner_length _ _ _ _ _ _ h2, List.length_replicate]; exact Nat.le_refl _
        | err _ => rw [h2] at h1; cases h1
        | ub => rw [h2] at h1; cases h1
    | err _ => rw [h1] at h; cases h
    | ub => rw [h1] at h; cases h
  | err _ => simp
  | ub => simp

theorem entryBytes_length (e : Entry) : (entryBytes e).length = 64 := by
  unfold entryBytes
  rw [record_length]
  simp only [List.length_append, le64_length]

theorem headBytes_length (t : Tree) : 64 ≤ (headBytes t).length := by
  unfold headBytes
  rw [List.length_append, List.length_append, entryBytes_length]
  omega

theorem encTree_length (q : List Goodbye.NameItem → List Goodbye.NameItem) (base : Nat) (t : Tree) : (headBytes t).length ≤ (encTree q base t).length := by
  cases t with
  | file e a api c => unfold encTree; rw [List.length_append]; omega
  | symlink e a t => unfold encTree; omega
  | device e a x y => unfold encTree; omega
  | special e a => unfold encTree; omega
  | dir e a api kids =>
    cases api with
    | true => unfold encTree; rw [List.length_append]; omega
    | false =>
      unfold encTree
      simp only
      rw [List.length_append]; omega

theorem strRecord_length (r : RType) (s : Bytes) : (strRecord r s).length = 17 + s.length := by
  unfold strRecord
  rw [record_length, List.length_append]
  simp; omega

theorem encKids_items (q : List Goodbye.NameItem → List Goodbye.NameItem) : ∀ (k : Kids) (base : Nat), 24 * (encKids q base k).2.length ≤ (encKids q base k).1.length
  | .nil, base => by unfold encKids; simp
  | .cons false n t r, base => by unfold encKids; exact encKids_items q r base
  | .cons true n t r, base => by
    unfold encKids
    simp only [List.length_cons, List.length_append]
    have h1 := encKids_items q r (base + ((strRecord .filename n).length + (encTree q (base + (strRecord .filename n).length) t).length))
    have h2 := encTree_length q (base + (strRecord .filename n).length) t
    have h3 := headBytes_length t
    omega

end Casync.Archive
