import Verif.Lemmas.ArchiveTree
import Verif.Lemmas.DecoderFeed
import Verif.Lemmas.DigestDec
/-!
The decoder walks over the archive of a tree: the bytes of the metadata, and which objects are left when.
-/
namespace Casync.Archive
open Casync Flags

/-- What matters for the digests: the metadata of an object, a byte of content, the end of an object. -/
inductive Mark
  | next (head : Bytes)
  | byte (b : UInt8)
  | done (path : List Bytes) (mode : Option Word)

def marks (d : Dec) : Ev → List Mark
  | .nextFile => [.next (getPayload d)]
  | .doneFile => [.done (currentPath d) (dMode d)]
  | _ => []

/-- As `BRun`. -/
inductive HRun : Dec → List Mark → Outcome × Bytes → Prop
  | finished {s s'} : stepNode s = (s', .ok .finished) → HRun s [] (.finished, s'.buf)
  | error {s s' e} : stepNode s = (s', .err e) → HRun s [] (.error e, s'.buf)
  | crash {s s'} : stepNode s = (s', .ub) → HRun s [] (.crash, s'.buf)
  | starved {s s'} : stepNode s = (s', .ok .request) → HRun s [] (.starved, s'.buf)
  | go {s s' ev t o} : stepNode s = (s', .ok ev) → ev ∈ [Ev.step, .nextFile, .doneFile] → HRun (advance s') t o →
      HRun s (marks s' ev ++ t) o
  | pay {s s' b r t o} : stepNode s = (s', .ok .payload) → s'.buf = b :: r → HRun (advance (setStep s' 1)) t o → HRun s (.byte b :: t) o

theorem HRun.congr {s1 s2 : Dec} {t : List Mark} {o : Outcome × Bytes} (h : stepNode s1 = stepNode s2) (hr : HRun s2 t o) : HRun s1 t o := by
  cases hr with
  | finished a => exact .finished (h.trans a)
  | error a => exact .error (h.trans a)
  | crash a => exact .crash (h.trans a)
  | starved a => exact .starved (h.trans a)
  | go a b c => exact .go (h.trans a) b c
  | pay a b c => exact .pay (h.trans a) b c

theorem HRun.det {s : Dec} {t : List Mark} {o : Outcome × Bytes} (h : HRun s t o) : ∀ {t' o'}, HRun s t' o' → t = t' ∧ o = o' := by
  induction h with
  | finished a =>
    intro t' o' h'
    cases h' with
    | finished b => rw [a] at b; injection b with b; subst b; exact ⟨rfl, rfl⟩
    | error b => rw [a] at b; cases b
    | crash b => rw [a] at b; cases b
    | starved b => rw [a] at b; cases b
    | go b c => rw [a] at b; injection b with _ b; injection b with b; subst b; simp at c
    | pay b c => rw [a] at b; cases b
  | error a =>
    intro t' o' h'
    cases h' with
    | finished b => rw [a] at b; cases b
    | error b => rw [a] at b; injection b with b' b; injection b with b; subst b' b; exact ⟨rfl, rfl⟩
    | crash b => rw [a] at b; cases b
    | starved b => rw [a] at b; cases b
    | go b c => rw [a] at b; cases b
    | pay b c => rw [a] at b; cases b
  | crash a =>
    intro t' o' h'
    cases h' with
    | finished b => rw [a] at b; cases b
    | error b => rw [a] at b; cases b
    | crash b => rw [a] at b; injection b with b; subst b; exact ⟨rfl, rfl⟩
    | starved b => rw [a] at b; cases b
    | go b c => rw [a] at b; cases b
    | pay b c => rw [a] at b; cases b
  | starved a =>
    intro t' o' h'
    cases h' with
    | finished b => rw [a] at b; cases b
    | error b => rw [a] at b; cases b
    | crash b => rw [a] at b; cases b
    | starved b => rw [a] at b; injection b with b; subst b; exact ⟨rfl, rfl⟩
    | go b c => rw [a] at b; injection b with _ b; injection b with b; subst b; simp at c
    | pay b c => rw [a] at b; cases b
  | go a hev _ ih =>
    intro t' o' h'
    cases h' with
    | finished b => rw [a] at b; injection b with _ b; injection b with b; subst b; simp at hev
    | error b => rw [a] at b; cases b
    | crash b => rw [a] at b; cases b
    | starved b => rw [a] at b; injection b with _ b; injection b with b; subst b; simp at hev
    | go b c d =>
      rw [a] at b
      injection b with b1 b2
      injection b2 with b2
      subst b1 b2
      obtain ⟨h1, h2⟩ := ih d
      exact ⟨by rw [h1], h2⟩
    | pay b c => rw [a] at b; injection b with _ b; injection b with b; subst b; simp at hev
  | pay a hb _ ih =>
    intro t' o' h'
    cases h' with
    | finished b => rw [a] at b; cases b
    | error b => rw [a] at b; cases b
    | crash b => rw [a] at b; cases b
    | starved b => rw [a] at b; cases b
    | go b c d => rw [a] at b; injection b with _ b; injection b with b; subst b; simp at c
    | pay b c d =>
      rw [a] at b
      injection b with b1 b2
      subst b1
      rw [hb] at c
      injection c with c1 c2
      subst c1
      obtain ⟨h1, h2⟩ := ih d
      exact ⟨by rw [h1], h2⟩

theorem pay_marks : ∀ (k : Nat) (q : Dec) (t : List Mark) (o : Outcome × Bytes), PayAt q k → HRun (advance (setStep q k)) t o →
    HRun q ((q.buf.take k).map .byte ++ t) o := by
  intro k
  induction k with
  | zero =>
    intro q t o h hr
    have : advance (setStep q 0) = q := by
      have : setStep q 0 = q := by
        have := h.size0
        cases q; simp only at this; subst this; rfl
      rw [this]
      exact advance_id h.size0
    rw [this] at hr
    simpa using hr
  | succ k ih =>
    intro q t o h hr
    obtain ⟨j, hj, hst⟩ := h.step
    have hl := h.len
    cases hb : q.buf with
    | nil => rw [hb] at hl; simp at hl
    | cons b r =>
      have hn := ih (advance (setStep q 1)) t o h.next ?_
      · have hbuf : (advance (setStep q 1)).buf = r := by show q.buf.drop 1 = r; rw [hb]; rfl
        rw [hbuf] at hn
        have := HRun.pay hst (show (setStep q j).buf = b :: r from hb) (by exact hn)
        simpa using this
      · have : advance (setStep (advance (setStep q 1)) k) = advance (setStep q (k + 1)) := by
          unfold advance setStep
          simp only [h.state, if_pos, List.drop_drop]
          congr 1 <;> first | omega | (rw [Nat.add_comm])
        rw [this]
        exact hr

/-- From one state to another with these observations. -/
def HReach (s : Dec) (evs : List Mark) (s' : Dec) : Prop := ∀ t o, HRun s' t o → HRun s (evs ++ t) o

theorem HReach.refl (s : Dec) : HReach s [] s := fun _ _ h => h

theorem HReach.trans {a b c : Dec} {e1 e2 : List Mark} (h1 : HReach a e1 b) (h2 : HReach b e2 c) : HReach a (e1 ++ e2) c := by
  intro t o h
  rw [List.append_assoc]
  exact h1 _ _ (h2 _ _ h)

theorem HReach.congr {a b c : Dec} {e : List Mark} (h : stepNode a = stepNode b) (h2 : HReach b e c) : HReach a e c :=
  fun t o hr => .congr h (h2 t o hr)

theorem HReach.one {s s' : Dec} {ev : Ev} {e : List Mark} {c : Dec} (h : stepNode s = (s', .ok ev)) (hm : ev = .step ∨ ev = .nextFile ∨ ev = .doneFile)
    (he : marks s' ev = e) (h2 : advance s' = c) : HReach s e c := by
  intro t o hr
  subst he h2
  exact .go h (by simpa using hm) hr

/-- After the metadata of an object. -/
theorem mark_head {c : DCfg} {f f' : FF} {st : DState} {n : DNode} {rest : List DNode} {h x : Bytes} {off : Nat} {p : Parsed}
    (hst : (st = .init ∧ c.naked = false) ∨ st = .entered) (hp : parseEntry f (rest == []) (h ++ x) = (f', .ok (p, h.length))) :
    HReach (here c f st (n :: rest) (h ++ x) off) [.next h]
      (here c f' .entry ({ n with parsed := some p } :: rest) x (off + h.length)) := by
  have hs : stepNode (here c f st (n :: rest) (h ++ x) off) = stepParse (here c f st (n :: rest) (h ++ x) off) := by
    rcases hst with ⟨rfl, hn⟩ | rfl
    · have : isNaked (here c f .init (n :: rest) (h ++ x) off) = false := by unfold isNaked here; rw [hn]; rfl
      show (if isNaked (here c f .init (n :: rest) (h ++ x) off) = true then _ else _) = _
      rw [if_neg (by rw [this]; simp)]
    · rfl
  have hs2 : stepParse (here c f st (n :: rest) (h ++ x) off) =
      (setStep (here c f' .entry ({ n with parsed := some p } :: rest) (h ++ x) off) h.length, .ok .nextFile) := by
    unfold stepParse
    simp only [here, hp]
    rfl
  refine HReach.one (hs.trans hs2) (.inr (.inl rfl)) ?_ ?_
  · show [Mark.next ((h ++ x).take h.length)] = _
    rw [List.take_left]
  simp only [advance, setStep, here, List.drop_left]
  rfl

theorem mark_done {c : DCfg} {f : FF} {s : DState} {n : DNode} {rest : List DNode} {x : Bytes} {off : Nat} {p : Parsed} (hp : n.parsed = some p)
    (h : stepNode (here c f s (n :: rest) x off) = (enterState (here c f s (n :: rest) x off) .finalize, .ok .doneFile)) :
    HReach (here c f s (n :: rest) x off) [.done (pathOf (n :: rest)) (some p.entry.mode)] (here c f .finalize (n :: rest) x off) :=
  HReach.one h (.inr (.inr rfl)) (by
    show [Mark.done _ (nodeMode _ n)] = _
    rw [nodeMode_parsed hp]
    rfl) (advance_id rfl)

/-- The content of a file. -/
theorem mark_payload {c : DCfg} {f : FF} {n : DNode} {rest : List DNode} {e : Entry} {a : Attrs} (b x : Bytes) (off : Nat) (hreg : isType e.mode ifReg = true)
    (hn : n.parsed = some ⟨e, a, .payload b.length⟩) :
    HReach (here c f .entry (n :: rest) (b ++ x) off) (b.map .byte ++ [.done (pathOf (n :: rest)) (some e.mode)]) (here c f .finalize (n :: rest) x (off + b.length)) := by
  have hm : ∀ q, nodeMode q n = some e.mode := by intro q; unfold nodeMode; rw [hn]
  have hz : nodeSize n = some b.length := by unfold nodeSize; rw [hn]
  have h1 : stepNode (here c f .entry (n :: rest) (b ++ x) off) = stepNode (here c f .inPayload (n :: rest) (b ++ x) off) := by
    show (match nodeMode _ n with | none => _ | some m => _) = _
    rw [hm]
    simp only [hreg, if_true]
    rfl
  refine HReach.congr h1 ?_
  intro t o hr
  rw [List.append_assoc]
  have hat : PayAt (here c f .inPayload (n :: rest) (b ++ x) off) b.length :=
    { state := rfl, size0 := rfl, len := by simp only [here, List.length_append]; omega,
      node := ⟨n, rest, e.mode, rfl, hm _, by rw [hreg]; rfl, by
        intro sz hsz
        rw [hz] at hsz
        injection hsz with hsz
        simp only [here]; omega⟩ }
  have := pay_marks b.length (here c f .inPayload (n :: rest) (b ++ x) off) ([.done (pathOf (n :: rest)) (some e.mode)] ++ t) o hat ?_
  · simpa [here] using this
  · have ha : advance (setStep (here c f .inPayload (n :: rest) (b ++ x) off) b.length) =
        { (here c f .inPayload (n :: rest) x (off + b.length)) with payloadOff := b.length } := by
      simp only [advance, setStep, here, if_true, Nat.zero_add, List.drop_left]
    rw [ha]
    refine HReach.one (ev := .doneFile) (s' := here c f .finalize (n :: rest) x (off + b.length)) (c := here c f .finalize (n :: rest) x (off + b.length))
      ?_ (.inr (.inr rfl)) (by show [Mark.done _ (nodeMode _ n)] = _; rw [hm]; rfl) (advance_id rfl) _ _ hr
    have hs : ∀ q : Dec, q.state = .inPayload → stepNode q = stepPayload q := by intro q hq; unfold stepNode; rw [hq]
    rw [hs _ rfl]
    unfold stepPayload
    simp only [here, hm, hreg, hz, pastEnd]
    simp
    rfl

/-- Up from an entry of a directory. -/
theorem mark_up {c : DCfg} {f : FF} {n p : DNode} {rest : List DNode} {x : Bytes} {off : Nat} (hb : c.boundary ≤ rest.length) :
    HReach (here c f .finalize (n :: p :: rest) x off) [] (here c f .inDirectory (p :: rest) x off) :=
  HReach.one (ev := .step) (s' := here c f .inDirectory (p :: rest) x off) (if_neg (by show ¬ (rest.length + 1 ≤ c.boundary); omega)) (.inl rfl) rfl (advance_id rfl)

/-- Down to an entry of a directory. -/
theorem mark_down {c : DCfg} {f : FF} {n : DNode} {rest : List DNode} {name x : Bytes} {off : Nat} {p : Parsed} (hn : n.parsed = some p)
    (hd : isType p.entry.mode ifDir = true) (hs : SafeName name) (hl : name.length < 2 ^ 62) (hr : rest.length + 1 < 64) :
    HReach (here c f .inDirectory (n :: rest) (strRecord .filename name ++ x) off) []
      (here c f .entered ({ name := some name, entryOff := off + (strRecord .filename name).length } :: noted c n name :: rest) x
        (off + (strRecord .filename name).length)) := by
  have h1 : stepNode (here c f .inDirectory (n :: rest) (strRecord .filename name ++ x) off) =
      (setStep (here c f .entered ({ name := some name, entryOff := off + (strRecord .filename name).length } :: noted c n name :: rest)
        (strRecord .filename name ++ x) off) (strRecord .filename name).length, .ok .step) := by
    have hm : ∀ q, nodeMode q n = some p.entry.mode := by intro q; unfold nodeMode; rw [hn]
    have hs2 : ∀ q : Dec, q.state = .inDirectory → stepNode q = stepDirectory q := by intro q hq; unfold stepNode; rw [hq]
    rw [hs2 _ rfl]
    unfold stepDirectory
    simp only [here, hm, hd, parseDirRec_filename hs hl x]
    rw [if_neg (by simp)]
    have hlen : ¬ (n :: rest).length ≥ nodesMax := by
      have : nodesMax = 64 := rfl
      rw [List.length_cons]; omega
    exact (if_neg hlen).trans rfl
  refine HReach.one h1 (.inl rfl) rfl ?_
  simp only [advance, setStep, here, List.drop_left]
  rfl

/-- The end of a directory. -/
theorem mark_goodbye {c : DCfg} {f : FF} {n : DNode} {rest : List DNode} {rows : List Goodbye.Item} {distance : Nat} {x : Bytes} {off : Nat} {p : Parsed}
    (hn : n.parsed = some p) (hd : isType p.entry.mode ifDir = true) (h1 : 40 + 24 * rows.length ≤ distance) (h2 : distance < u64max)
    (h3 : off = n.entryOff + distance) :
    HReach (here c f .inDirectory (n :: rest) (goodbyeBytes rows distance ++ x) off) [.done (pathOf (n :: rest)) (some p.entry.mode)]
      (here c f .finalize (n :: rest) x (off + (goodbyeBytes rows distance).length)) := by
  have hs : stepNode (here c f .inDirectory (n :: rest) (goodbyeBytes rows distance ++ x) off) =
      (setStep (here c f .goodbye (n :: rest) (goodbyeBytes rows distance ++ x) off) (goodbyeBytes rows distance).length, .ok .step) := by
    have hm : ∀ q, nodeMode q n = some p.entry.mode := by intro q; unfold nodeMode; rw [hn]
    have hs2 : ∀ q : Dec, q.state = .inDirectory → stepNode q = stepDirectory q := by intro q hq; unfold stepNode; rw [hq]
    rw [hs2 _ rfl]
    unfold stepDirectory
    simp only [here, hm, hd, parseDirRec_goodbye h1 h2 x]
    rw [if_neg (by simp)]
    have hlen : ¬ distance ≠ off - n.entryOff := by omega
    exact (if_neg hlen).trans rfl
  have ha : advance (setStep (here c f .goodbye (n :: rest) (goodbyeBytes rows distance ++ x) off) (goodbyeBytes rows distance).length) =
      here c f .goodbye (n :: rest) x (off + (goodbyeBytes rows distance).length) := by
    simp only [advance, setStep, here, List.drop_left]
    rfl
  exact HReach.trans (e1 := []) (HReach.one hs (.inl rfl) rfl ha) (mark_done hn rfl)


mutual
/-- The marks of a tree. -/
def marksOf (path : List Bytes) : Tree → List Mark
  | .dir e a true k => [.next (headBytes (.dir e a true k)), .done path (some e.mode)]
  | .dir e a false k => .next (headBytes (.dir e a false k)) :: (kidsMarks path k ++ [.done path (some e.mode)])
  | .file e a api c => .next (headBytes (.file e a api c)) :: ((stored api c).map .byte ++ [.done path (some e.mode)])
  | .symlink e a t => [.next (headBytes (.symlink e a t)), .done path (some e.mode)]
  | .device e a x y => [.next (headBytes (.device e a x y)), .done path (some e.mode)]
  | .special e a => [.next (headBytes (.special e a)), .done path (some e.mode)]
def kidsMarks (path : List Bytes) : Kids → List Mark
  | .nil => []
  | .cons false _ _ r => kidsMarks path r
  | .cons true name t r => marksOf (path ++ [name]) t ++ kidsMarks path r
end

/-- Objects without a content or with the content in the metadata. -/
theorem mark_leaf {c : DCfg} {f f' : FF} {st : DState} {n : DNode} {rest : List DNode} {ff : Word} {e : Entry} {a : Attrs} {h x : Bytes} {off : Nat} {t : Term}
    (ho : ObjOK ff e a) (hT : TypeOK ff e.mode) (hv : validateFeatureFlags f ff = some f') (hkn : ff &&& ~~~flagsMax = 0#64)
    (hst : (st = .init ∧ c.naked = false) ∨ st = .entered) (hf : TermFor (rest == []) e.mode t)
    (hr : isType e.mode ifReg = false) (hd : isType e.mode ifDir = false)
    (hh : headRec f' { entry := some e, attrs := a } (h ++ x) = .done t h.length) :
    HReach (here c f st (n :: rest) ((entryBytes e ++ attrsBytes a ++ h) ++ x) off)
      [.next (entryBytes e ++ attrsBytes a ++ h), .done (pathOf (n :: rest)) (some e.mode)]
      (here c f' .finalize ({ n with parsed := some ⟨e, a, t⟩ } :: rest) x (off + (entryBytes e ++ attrsBytes a ++ h).length)) := by
  have hp := parseEntry_head ho hT hv hkn hf hh
  have h1 := mark_head (c := c) (n := n) (off := off) (h := entryBytes e ++ attrsBytes a ++ h) (x := x) hst (by
    rw [List.length_append]
    simpa only [List.append_assoc] using hp)
  refine HReach.trans (e1 := [_]) h1 ?_
  have := mark_done (c := c) (f := f') (s := .entry) (n := { n with parsed := some ⟨e, a, t⟩ }) (rest := rest) (p := ⟨e, a, t⟩) (x := x)
    (off := off + (entryBytes e ++ attrsBytes a ++ h).length) rfl (entry_leaf rfl hr hd)
  rw [pathOf_cons] at this ⊢
  exact this

mutual
theorem tree_marks (c : DCfg) (q : List Goodbye.NameItem → List Goodbye.NameItem) (ff : Word) (hkn : ff &&& ~~~flagsMax = 0#64) :
    ∀ (t : Tree) (f f' : FF) (st : DState) (n : DNode) (rest : List DNode) (off : Nat) (x : Bytes),
    Storable ff t → validateFeatureFlags f ff = some f' → ((st = .init ∧ c.naked = false) ∨ st = .entered) → n.entryOff = off →
    ((rest ≠ [] ∧ DirNext x) ∨ t.isDir = true) → rest.length + t.height ≤ 64 ∧ c.boundary ≤ rest.length → (encTree q off t).length < 2 ^ 62 →
    ∃ n', n'.name = n.name ∧ HReach (here c f st (n :: rest) (encTree q off t ++ x) off) (marksOf (pathOf (n :: rest)) t)
      (here c f' .finalize (n' :: rest) x (off + (encTree q off t).length))
  | .file e a api b, f, f', st, n, rest, off, x, hS, hv, hst, hoff, hx, hh, hl => by
    obtain ⟨ho, hreg⟩ := hS
    have hmax : u64max = 2 ^ 64 - 1 := by decide
    obtain ⟨hr, _⟩ := hx.resolve_right (by simp [Tree.isDir])
    have hroot : (rest == []) = false := by simpa using hr
    unfold encTree at hl ⊢
    rw [List.length_append] at hl
    have hp := parseEntry_head ho (.inl hreg) hv hkn (TermFor.file (root := rest == []) (n := (stored api b).length) hreg hroot)
      (headRec_payload (stored api b ++ x) (by omega) hreg)
    refine ⟨{ n with parsed := some ⟨e, a, .payload (stored api b).length⟩ }, rfl, ?_⟩
    have h1 := mark_head (c := c) (n := n) (off := off) (h := headBytes (.file e a api b)) (x := stored api b ++ x) hst (by
      unfold headBytes tailBytes
      rw [List.length_append, show (header (16 + (stored api b).length) .payload).length = 16 by unfold header; simp only [List.length_append, le64_length]]
      simpa only [List.append_assoc, Tree.entry, Tree.attrs] using hp)
    rw [List.append_assoc]
    refine HReach.trans (e1 := [_]) h1 ?_
    have h2 := mark_payload (c := c) (f := f') (n := { n with parsed := some ⟨e, a, .payload (stored api b).length⟩ }) (rest := rest) (stored api b) x
      (off + (headBytes (.file e a api b)).length) hreg rfl
    rw [List.length_append, ← Nat.add_assoc]
    rw [pathOf_cons] at h2 ⊢
    exact h2
  | .symlink e a tg, f, f', st, n, rest, off, x, hS, hv, hst, hoff, hx, hh, hl => by
    obtain ⟨ho, hlnk, hw, hne, hz, hln⟩ := hS
    have hmax : u64max = 2 ^ 64 - 1 := by decide
    obtain ⟨hr, _⟩ := hx.resolve_right (by simp [Tree.isDir])
    have hroot : (rest == []) = false := by simpa using hr
    have hpos := List.length_pos_iff.2 hne
    have hvt : validateTarget (tg ++ [0]) = true := by
      unfold validateTarget
      have : (tg ++ [0]).length = tg.length + 1 := by simp
      rw [if_neg (by omega), if_neg (by rw [getLast_append]; simp), List.dropLast_concat, if_neg]
      · simp; omega
      · rw [any_false_iff.2]
        · simp
        · intro y hy
          have : y ≠ 0 := fun e => hz (e ▸ hy)
          simpa using this
    have hf' := (validateFeatureFlags_again hv).2.1
    have hsl := strRecord_length .symlink tg
    unfold encTree
    refine ⟨_, ?_, mark_leaf (t := .symlink tg) ho (.inr (.inr (.inr (.inr (.inr ⟨hlnk, hw⟩))))) hv hkn hst (.symlink hlnk hroot)
      (isType_excl hlnk (by decide)) (isType_excl hlnk (by decide)) ?_⟩
    · rfl
    · show headRec f' _ (strRecord .symlink tg ++ x) = .done _ (strRecord .symlink tg).length
      rw [hsl]
      have := headRec_end (d := f') (st := { entry := some e, attrs := a }) (r := .symlink) (body := tg ++ [0]) (t := .symlink tg) x
        (by rw [List.length_append]; simp; omega) rfl (by decide) (by simp [pre, hlnk]; omega)
        (by simp only [acceptEnd, hf', hw, hvt, List.dropLast_concat]; rfl)
      rw [show 17 + tg.length = termSize (.symlink tg) by simp only [termSize]; omega]
      exact this
  | .device e a ma mi, f, f', st, n, rest, off, x, hS, hv, hst, hoff, hx, hh, hl => by
    obtain ⟨ho, hdev, hw, h1, h2⟩ := hS
    have hmax : u64max = 2 ^ 64 - 1 := by decide
    obtain ⟨hr, _⟩ := hx.resolve_right (by simp [Tree.isDir])
    have hroot : (rest == []) = false := by simpa using hr
    have hf' := (validateFeatureFlags_again hv).2.1
    have hdl : (le64 ma ++ le64 mi).length = 16 := by simp only [List.length_append, le64_length]
    have w0 : word 0 (le64 ma ++ le64 mi) = ma := word_zero (by omega) _
    have w1 : word 1 (le64 ma ++ le64 mi) = mi := by
      have := word_one (a := ma) (show mi < 2 ^ 64 by omega) []
      rwa [List.append_nil] at this
    unfold encTree
    refine ⟨_, ?_, mark_leaf (t := .device ma mi) ho (.inr (.inr (.inr (.inr (.inl ⟨hdev.symm, hw⟩))))) hv hkn hst (.device hdev hroot)
      (by rcases hdev with h | h <;> exact isType_excl h (by decide)) (by rcases hdev with h | h <;> exact isType_excl h (by decide)) ?_⟩
    · rfl
    · show headRec f' _ (record .device (le64 ma ++ le64 mi) ++ x) = .done _ (record .device (le64 ma ++ le64 mi)).length
      rw [record_length, hdl]
      generalize le64 ma ++ le64 mi = body at *
      exact headRec_end (d := f') (st := { entry := some e, attrs := a }) (r := .device) (body := body) (t := .device ma mi) x
        (by omega) rfl (by decide) (by rcases hdev with h | h <;> simp [pre, h, hdl])
        (by simp [acceptEnd, validateDevice, hf', hw, w0, w1]; omega)
  | .special e a, f, f', st, n, rest, off, x, hS, hv, hst, hoff, hx, hh, hl => by
    obtain ⟨ho, hsp⟩ := hS
    obtain ⟨hr, hx⟩ := hx.resolve_right (by simp [Tree.isDir])
    have hroot : (rest == []) = false := by simpa using hr
    obtain ⟨t, ht, hrec⟩ := hx f' { entry := some e, attrs := a } rfl
    have hT : isType e.mode ifFifo = true ∨ isType e.mode ifSock = true := by
      rcases hsp with ⟨h, _⟩ | ⟨h, _⟩
      · exact .inl h
      · exact .inr h
    unfold encTree
    refine ⟨{ n with parsed := some ⟨e, a, t⟩ }, rfl, ?_⟩
    have := mark_leaf (c := c) (n := n) (h := []) (x := x) (off := off) ho (by
        rcases hsp with h | h
        · exact .inr (.inr (.inr (.inl h)))
        · exact .inr (.inr (.inl h))) hv hkn hst (TermFor.special hT hroot ht)
      (by rcases hT with h | h <;> exact isType_excl h (by decide)) (by rcases hT with h | h <;> exact isType_excl h (by decide)) hrec
    unfold marksOf
    unfold headBytes tailBytes
    exact this
  | .dir e a true kids, f, f', st, n, rest, off, x, hS, hv, hst, hoff, hx, hh, hl => by
    obtain ⟨ho, hdir, hK⟩ := hS
    have hmax : u64max = 2 ^ 64 - 1 := by decide
    have hf' := (validateFeatureFlags_again hv).1
    unfold encTree at hl ⊢
    have hhl := headBytes_length (.dir e a true kids)
    have hhe : headBytes (.dir e a true kids) = entryBytes e ++ attrsBytes a := by unfold headBytes tailBytes; rw [List.append_nil]; rfl
    rw [List.length_append] at hl
    have hrows := rowsOf_length q [] (off + (headBytes (.dir e a true kids)).length)
    rw [List.length_nil] at hrows
    generalize rowsOf q [] (off + (headBytes (.dir e a true kids)).length) = rows at *
    obtain ⟨t, ht, hrec⟩ := dirNext_goodbye (rows := rows) (distance := (headBytes (.dir e a true kids)).length) (by omega) (by omega) x f'
      { entry := some e, attrs := a } rfl
    have hp := parseEntry_head ho (.inr (.inl hdir)) hv hkn (TermFor.dir (root := rest == []) (t := t) hdir ht) (k := 0) hrec
    rw [← List.append_assoc, ← hhe, Nat.add_zero] at hp
    refine ⟨{ n with parsed := some ⟨e, a, t⟩ }, rfl, ?_⟩
    have h1 := mark_head (c := c) (n := n) (off := off) hst hp
    rw [List.append_assoc, List.length_append, ← Nat.add_assoc]
    refine HReach.trans (e1 := [_]) h1 ?_
    have h3 := mark_goodbye (c := c) (f := f') (n := { n with parsed := some ⟨e, a, t⟩ }) (rest := rest) (rows := rows)
        (distance := (headBytes (.dir e a true kids)).length) (x := x) (off := off + (headBytes (.dir e a true kids)).length) rfl hdir (by omega) (by omega)
        (by simp only [hoff])
    rw [pathOf_cons] at h3 ⊢
    exact HReach.congr (entry_dir rfl hdir) h3
  | .dir e a false kids, f, f', st, n, rest, off, x, hS, hv, hst, hoff, hx, hh, hl => by
    obtain ⟨ho, hdir, hK⟩ := hS
    have hmax : u64max = 2 ^ 64 - 1 := by decide
    have hf' := (validateFeatureFlags_again hv).1
    unfold encTree at hl ⊢
    simp only at hl ⊢
    have hhl := headBytes_length (.dir e a false kids)
    have hhe : headBytes (.dir e a false kids) = entryBytes e ++ attrsBytes a := by unfold headBytes tailBytes; rw [List.append_nil]; rfl
    have hitems := encKids_items q kids (off + (headBytes (.dir e a false kids)).length)
    have hrows := rowsOf_length q (encKids q (off + (headBytes (.dir e a false kids)).length) kids).2
      (off + ((headBytes (.dir e a false kids)).length + (encKids q (off + (headBytes (.dir e a false kids)).length) kids).1.length))
    generalize rowsOf q (encKids q (off + (headBytes (.dir e a false kids)).length) kids).2
      (off + ((headBytes (.dir e a false kids)).length + (encKids q (off + (headBytes (.dir e a false kids)).length) kids).1.length)) = rows at *
    simp only [List.length_append] at hl
    have hgn := dirNext_goodbye (rows := rows)
      (distance := (headBytes (.dir e a false kids)).length + (encKids q (off + (headBytes (.dir e a false kids)).length) kids).1.length) (by omega) (by omega) x
    obtain ⟨t, ht, hrec⟩ := dirNext_kids q kids (off + (headBytes (.dir e a false kids)).length) _ hK hgn (by omega) f' { entry := some e, attrs := a } rfl
    have hp := parseEntry_head ho (.inr (.inl hdir)) hv hkn (TermFor.dir (root := rest == []) (t := t) hdir ht) (k := 0) hrec
    rw [← List.append_assoc, ← hhe, Nat.add_zero] at hp
    have h1 := mark_head (c := c) (n := n) (off := off) hst hp
    have hheight : (Tree.dir e a false kids).height = 1 + kids.height := by rw [Tree.height]
    obtain ⟨n', hn1, hn2, hn3, h2⟩ := kids_marks c q ff hkn kids f' { n with parsed := some ⟨e, a, t⟩ } rest (off + (headBytes (.dir e a false kids)).length) _ ⟨e, a, t⟩
      hK hf' rfl hdir hgn (by omega) (by omega)
    refine ⟨n', hn1, ?_⟩
    have h3 := mark_goodbye (c := c) (f := f') (n := n') (rest := rest) (rows := rows)
        (distance := (headBytes (.dir e a false kids)).length + (encKids q (off + (headBytes (.dir e a false kids)).length) kids).1.length) (x := x)
        (off := off + (headBytes (.dir e a false kids)).length + (encKids q (off + (headBytes (.dir e a false kids)).length) kids).1.length)
        (p := ⟨e, a, t⟩) (by rw [hn3]) hdir (by omega) (by omega) (by rw [hn2]; simp only [hoff]; omega)
    simp only [List.append_assoc, List.length_append]
    simp only [← Nat.add_assoc] at h3 ⊢
    have hev : marksOf (pathOf (n :: rest)) (.dir e a false kids) = [Mark.next (headBytes (.dir e a false kids))] ++ (kidsMarks (pathOf (n :: rest)) kids ++ [.done (pathOf (n :: rest)) (some e.mode)]) := by
      rw [marksOf]; rfl
    rw [hev]
    rw [pathOf_cons, hn1] at h3
    rw [pathOf_cons] at h2 ⊢
    exact HReach.trans h1 (HReach.trans (HReach.congr (entry_dir rfl hdir) h2) h3)
theorem kids_marks (c : DCfg) (q : List Goodbye.NameItem → List Goodbye.NameItem) (ff : Word) (hkn : ff &&& ~~~flagsMax = 0#64) :
    ∀ (k : Kids) (f : FF) (n : DNode) (rest : List DNode) (off : Nat) (x : Bytes) (p : Parsed),
    StorableKids ff k → validateFeatureFlags f ff = some f → n.parsed = some p → isType p.entry.mode ifDir = true → DirNext x →
    rest.length + 1 + k.height ≤ 64 ∧ c.boundary ≤ rest.length → (encKids q off k).1.length < 2 ^ 62 →
    ∃ n', n'.name = n.name ∧ n'.entryOff = n.entryOff ∧ n'.parsed = some p ∧
      HReach (here c f .inDirectory (n :: rest) ((encKids q off k).1 ++ x) off) (kidsMarks (pathOf (n :: rest)) k)
        (here c f .inDirectory (n' :: rest) x (off + (encKids q off k).1.length))
  | .nil, f, n, rest, off, x, p, hK, hv, hn, hd, hx, hh, hl => by
    refine ⟨n, rfl, rfl, hn, ?_⟩
    unfold encKids kidsMarks
    simpa using HReach.refl _
  | .cons false name t r, f, n, rest, off, x, p, hK, hv, hn, hd, hx, hh, hl => by
    unfold StorableKids at hK
    unfold encKids at hl ⊢
    unfold kidsMarks
    rw [Kids.height] at hh
    exact kids_marks c q ff hkn r f n rest off x p hK hv hn hd hx (by omega) hl
  | .cons true name t r, f, n, rest, off, x, p, hK, hv, hn, hd, hx, hh, hl => by
    unfold StorableKids at hK
    obtain ⟨hs, hT, hK⟩ := hK
    unfold encKids at hl ⊢
    unfold kidsMarks
    rw [Kids.height] at hh
    simp only [List.length_append] at hl ⊢
    have hname := strRecord_length .filename name
    have hth := t.height_pos
    have hx2 := dirNext_kids q r (off + ((strRecord .filename name).length + (encTree q (off + (strRecord .filename name).length) t).length)) x hK hx (by omega)
    have h1 := mark_down (c := c) (f := f) (rest := rest) (x := encTree q (off + (strRecord .filename name).length) t ++
      ((encKids q (off + ((strRecord .filename name).length + (encTree q (off + (strRecord .filename name).length) t).length)) r).1 ++ x)) (off := off) hn hd hs (by omega) (by omega)
    have e1 : (noted c n name).name = n.name ∧ (noted c n name).entryOff = n.entryOff ∧ (noted c n name).parsed = n.parsed := by
      unfold noted; split <;> exact ⟨rfl, rfl, rfl⟩
    obtain ⟨n1, _, h2⟩ := tree_marks c q ff hkn t f f .entered { name := some name, entryOff := off + (strRecord .filename name).length } (noted c n name :: rest)
      (off + (strRecord .filename name).length) _ hT hv (.inr rfl) rfl (.inl ⟨by simp, hx2⟩) (by rw [List.length_cons]; omega) (by omega)
    obtain ⟨n2, a1, a2, a3, h3⟩ := kids_marks c q ff hkn r f (noted c n name) rest
      (off + ((strRecord .filename name).length + (encTree q (off + (strRecord .filename name).length) t).length)) x p hK hv (by rw [e1.2.2, hn]) hd hx (by omega) (by omega)
    refine ⟨n2, by rw [a1, e1.1], by rw [a2, e1.2.1], a3, ?_⟩
    have hp1 : pathOf (({ name := some name, entryOff := off + (strRecord .filename name).length } : DNode) :: noted c n name :: rest) = pathOf (n :: rest) ++ [name] := by
      rw [pathOf_cons, pathOf_cons, e1.1, pathOf_cons]; rfl
    have hp2 : pathOf (noted c n name :: rest) = pathOf (n :: rest) := by rw [pathOf_cons, e1.1, ← pathOf_cons]
    rw [hp1] at h2
    rw [hp2] at h3
    have h12 := HReach.trans h1 h2
    have h123 := HReach.trans h12 (HReach.trans (mark_up (by omega) (c := c) (f := f) (n := n1) (p := noted c n name) (rest := rest)) (by
      rw [show off + (strRecord .filename name).length + (encTree q (off + (strRecord .filename name).length) t).length =
        off + ((strRecord .filename name).length + (encTree q (off + (strRecord .filename name).length) t).length) by omega]
      exact h3))
    rw [List.nil_append, List.nil_append] at h123
    simp only [List.append_assoc]
    simp only [← Nat.add_assoc] at h123 ⊢
    exact h123
end

/-! ### Sessions with digests -/

/-- The answers for an object of this mode. -/
def answer (H : Bytes → Bytes) (m : Option Word) (pl hl : Bytes) : Res Bytes × Res Bytes :=
  match m with
  | none => (.err .ENODATA, .err .ENODATA)
  | some m => (if isType m ifReg || isType m ifBlk then .ok (H pl) else .err .ENOTTY, if isType m ifDir then .err .EISDIR else .ok (H hl))

/-- The answers in the order of the ends of the objects. -/
def told (H : Bytes → Bytes) (pl hl : Bytes) : List Mark → List (List Bytes × Option Word × Res Bytes × Res Bytes)
  | [] => []
  | .next h :: r => told H [] h r
  | .byte b :: r => told H (pl ++ [b]) (hl ++ [b]) r
  | .done p m :: r => (p, m, answer H m pl hl) :: told H pl hl r

theorem told_bytes (H : Bytes → Bytes) : ∀ (b pl hl : Bytes) (r : List Mark), told H pl hl (b.map .byte ++ r) = told H (pl ++ b) (hl ++ b) r
  | [], pl, hl, r => by simp
  | x :: b, pl, hl, r => by
    simp only [List.map_cons, List.cons_append]
    rw [told, told_bytes H b, List.append_assoc, List.append_assoc]
    rfl

variable {H : Bytes → Bytes}

def Asked.row (a : Asked) : List Bytes × Option Word × Res Bytes × Res Bytes := (a.path, a.mode, a.payload, a.hardlink)

theorem marks_full (d : Dec) (x : Bytes) (ev : Ev) (hsz : d.stepSize ≤ d.buf.length) : marks (Archive.full d x) ev = marks d ev := by
  cases ev with
  | nextFile =>
    show [Mark.next ((d.buf ++ x).take d.stepSize)] = [Mark.next (d.buf.take d.stepSize)]
    rw [List.take_append_of_le_length hsz]
  | _ => rfl

theorem ask_row {x : DDec} {h : Heard} (hs : x.dec.state = .finalize) (hn : x.dec.nodes ≠ []) (h1 : x.want.payload = true) (h2 : x.want.hardlink = true) :
    (ask H x h .doneFile).map Asked.row = [(currentPath x.dec, dMode x.dec, answer H (dMode x.dec) x.sum.payload x.sum.hardlink)] := by
  unfold ask
  simp only [List.map_cons, List.map_nil, Asked.row]
  cases hh : x.dec.nodes with
  | nil => exact absurd hh hn
  | cons n rest =>
    unfold dPayload dHardlink dMode
    rw [h1, h2, hs, hh]
    simp only [Bool.not_true, Bool.false_eq_true, if_false, ne_eq, not_true_eq_false]
    cases nodeMode x.dec n with
    | none => rfl
    | some m =>
      unfold answer
      simp only
      cases isType m ifReg <;> cases isType m ifBlk <;> rfl

theorem stepNode_done {s s' : Dec} (hi : DInv s) (h : stepNode s = (s', .ok .doneFile)) : s'.state = .finalize ∧ s'.nodes ≠ [] := by
  have hn : s.nodes ≠ [] := by obtain ⟨n, r, e⟩ := hi.nonempty; rw [e]; simp
  have pay : ∀ {q : Dec}, q.nodes = s.nodes → q.stepSize = 0 → q.state = .inPayload → stepPayload q = (s', .ok .doneFile) → s'.state = .finalize ∧ s'.nodes ≠ [] := by
    intro q a1 a2 a3 a4
    have hr := stepPayload_res q a3 a2
    rw [a4] at hr
    generalize hp : (s', (Res.ok Ev.doneFile : Res Ev)) = p at hr
    cases hr with
    | doneFile => injection hp with h1 _; subst h1; exact ⟨rfl, by show q.nodes ≠ []; rw [a1]; exact hn⟩
    | err => injection hp with _ h2; cases h2
    | crash => injection hp with _ h2; cases h2
    | finished => injection hp with _ h2; cases h2
    | payload => injection hp with _ h2; cases h2
    | request => injection hp with _ h2; cases h2
    | skip => injection hp with _ h2; cases h2
  unfold stepNode at h
  cases hs : s.state with
  | init =>
    rw [hs] at h
    simp only at h
    split at h
    · exact pay (q := enterState s .inPayload) rfl rfl rfl h
    · rcases stepParse_zero h with k | ⟨k, _⟩ <;> cases k
  | entered => rw [hs] at h; rcases stepParse_zero h with k | ⟨k, _⟩ <;> cases k
  | entry =>
    rw [hs] at h
    simp only at h
    split at h
    · simp at h
    · split at h
      · simp at h
      · split at h
        · exact pay (q := enterState s .inPayload) rfl rfl rfl h
        · split at h
          · rcases stepDirectory_zero h with k | ⟨k, _⟩ <;> cases k
          · injection h with h1 _; subst h1; exact ⟨rfl, hn⟩
  | inPayload =>
    rw [hs] at h
    simp only at h
    unfold stepPayload at h
    split at h
    · simp at h
    · split at h
      · simp at h
      · split at h
        · simp at h
        · split at h
          · simp at h
          · split at h
            · injection h with h1 _; subst h1; exact ⟨rfl, hn⟩
            · split at h
              · split at h <;> simp at h
              · split at h
                · split at h
                  · simp at h
                  · split at h
                    · simp at h
                    · split at h
                      · rcases stepFinalize_zero h with ⟨k, _⟩ | ⟨k, _⟩ <;> cases k
                      · injection h with h1 _; subst h1; exact ⟨rfl, hn⟩
                · split at h
                  · split at h <;> simp at h
                  · simp at h
  | skipping => rw [hs] at h; injection h with h1 _; subst h1; exact ⟨rfl, hn⟩
  | inDirectory => rw [hs] at h; rcases stepDirectory_zero h with k | ⟨k, _⟩ <;> cases k
  | goodbye => rw [hs] at h; injection h with h1 _; subst h1; exact ⟨rfl, hn⟩
  | finalize => rw [hs] at h; rcases stepFinalize_zero h with ⟨k, _⟩ | ⟨k, _⟩ <;> cases k
  | eof => rw [hs] at h; simp at h

/-- The answers of a session are those of the run with everything in the buffer. -/
theorem DRun.told {x : DDec} {h : Heard} {ps : List Bytes} {t : List Obs} {as : List Asked} {o : Outcome} {a : Res Bytes} (hd : DRun H x h ps t as o a)
    (hr : Ready x.dec ps) (hi : DInv x.dec) (w1 : x.want.payload = true) (w2 : x.want.hardlink = true) :
    ∃ ms r, HRun (Archive.full (advance x.dec) ps.flatten) ms (o, r) ∧ as.map Asked.row = Archive.told H x.sum.payload x.sum.hardlink ms := by
  induction hd with
  | @finished x x' h ps hst =>
    have hst1 := (dStep_step hst).1
    have hsim := stepNode_sim (advance x.dec) ps.flatten hr.done rfl hr.want hr.init.advance
    have h2 := (step_eq hr.size).1
    rw [hst1] at h2
    generalize stepNode (advance x.dec) = p at hsim h2
    cases hsim with
    | same a1 a2 a3 a4 a5 a6 a7 a8 a9 =>
      simp only at h2
      subst h2
      exact ⟨[], _, .finished a9, rfl⟩
    | request => cases h2
    | payload => cases h2
  | @error x x' h ps e hst =>
    have hst1 := (dStep_step hst).1
    have hsim := stepNode_sim (advance x.dec) ps.flatten hr.done rfl hr.want hr.init.advance
    have h2 := (step_eq hr.size).2 (by rw [hst1]; simp)
    rw [hst1] at h2
    rw [← h2] at hsim
    generalize hd' : x'.dec = d1 at hsim
    cases hsim with
    | same a1 a2 a3 a4 a5 a6 a7 a8 a9 => exact ⟨[], _, .error a9, rfl⟩
  | @crash x x' h ps hst =>
    have hst1 := (dStep_step hst).1
    have hsim := stepNode_sim (advance x.dec) ps.flatten hr.done rfl hr.want hr.init.advance
    have h2 := (step_eq hr.size).2 (by rw [hst1]; simp)
    rw [hst1] at h2
    rw [← h2] at hsim
    generalize hd' : x'.dec = d1 at hsim
    cases hsim with
    | same a1 a2 a3 a4 a5 a6 a7 a8 a9 => exact ⟨[], _, .crash a9, rfl⟩
  | @go x x' hh ps ev t as o a hst hev _ ih =>
    have hst1 := (dStep_step hst).1
    have hsum := (dStep_step hst).2.2
    have hwant := (dStep_step hst).2.1
    have hinv' : DInv x'.dec := by have := (step_good hi).inv; rw [hst1] at this; exact this
    have hsim := stepNode_sim (advance x.dec) ps.flatten hr.done rfl hr.want hr.init.advance
    have h2 := (step_eq hr.size).2 (by rw [hst1]; intro h; injection h with h; subst h; simp at hev)
    rw [hst1] at h2
    have hdone : ev = .doneFile → x'.dec.state = .finalize ∧ x'.dec.nodes ≠ [] := by
      intro he; subst he; exact stepNode_done hi.advance h2.symm
    rw [← h2] at hsim
    generalize hres : (Res.ok ev : Res Ev) = r at hsim hsum
    generalize hd' : x'.dec = d1 at hsim ih hinv'
    cases hsim with
    | same a1 a2 a3 a4 a5 a6 a7 a8 a9 =>
      subst hres hd'
      obtain ⟨ms, rr, hi, hc⟩ := ih ⟨a4, by rw [a3]; exact hr.want, a5, by rw [a2]; exact hr.done⟩ hinv' (by rw [hwant]; exact w1) (by rw [hwant]; exact w2)
      rw [← advance_full _ _ a4] at hi
      have hev' : ev ≠ .payload := fun h => a7 (by rw [h])
      refine ⟨marks x'.dec ev ++ ms, rr, ?_, ?_⟩
      · rw [← marks_full x'.dec ps.flatten ev a4]
        exact .go a9 (by simpa [hev'] using hev) hi
      · rw [List.map_append, hc]
        cases ev with
        | finished => simp at hev
        | request => simp at hev
        | skip => simp at hev
        | payload => exact absurd rfl hev'
        | step =>
          have e1 : x'.sum.payload = x.sum.payload ∧ x'.sum.hardlink = x.sum.hardlink := by
            rw [hsum]
            unfold dWrite
            simp only
            split
            · exact ⟨rfl, rfl⟩
            · split <;> exact ⟨rfl, rfl⟩
          rw [e1.1, e1.2]
          rfl
        | nextFile =>
          have e1 : x'.sum.payload = [] ∧ x'.sum.hardlink = getPayload x'.dec := by
            rw [hsum]
            unfold dWrite reset feed
            simp only [w1, w2, if_true, List.nil_append, and_self]
          rw [e1.1, e1.2]
          rfl
        | doneFile =>
          obtain ⟨s1, s2⟩ := hdone rfl
          rw [ask_row s1 s2 (by rw [hwant]; exact w1) (by rw [hwant]; exact w2)]
          have e1 : x'.sum = x.sum := by rw [hsum]; rfl
          rw [e1]
          rfl
    | request => injection hres with hres; subst hres; simp at hev
    | @payload q k a1 a2 a3 a4 a5 a6 =>
      injection hres with hres
      subst hres
      obtain ⟨ms, rr, hi, hc⟩ := ih ⟨a5.len, by show q.cfg.wantPayload = true; rw [a3]; exact hr.want, (fun h => by
        rw [show (setStep q k).state = .inPayload from a5.state] at h; cases h), by show q.eof = false ∨ _; rw [a2]; exact hr.done⟩ hinv'
        (by rw [hwant]; exact w1) (by rw [hwant]; exact w2)
      rw [← advance_full (setStep q k) _ a5.len] at hi
      have hp := pay_marks k (Archive.full q ps.flatten) ms (o, rr) (a5.full _) hi
      have hfe : stepNode (Archive.full (advance x.dec) ps.flatten) = stepNode (Archive.full q ps.flatten) := by
        rw [a6]
        conv => rhs; unfold stepNode
        rw [show (Archive.full q ps.flatten).state = .inPayload from a5.state]
      refine ⟨_, rr, hp.congr hfe, ?_⟩
      have hpay : (Archive.full q ps.flatten).buf.take k = getPayload x'.dec := by
        rw [hd', show (Archive.full q ps.flatten).buf = q.buf ++ ps.flatten from rfl, List.take_append_of_le_length a5.len]
        rfl
      rw [told_bytes, hpay, List.map_append, hc]
      have e1 : x'.sum.payload = x.sum.payload ++ getPayload x'.dec ∧ x'.sum.hardlink = x.sum.hardlink ++ getPayload x'.dec := by
        rw [hsum]
        unfold dWrite feed
        simp only [w1, w2, if_true, and_self]
      rw [e1.1, e1.2]
      rfl
  | @put x x' hh d p ps t as o a hst hput _ ih =>
    have hst1 := (dStep_step hst).1
    have hsame := write_same hst (fun ev h => by injection h with h; subst h; simp)
    have hwant := (dStep_step hst).2.1
    have hinv' : DInv x'.dec := by have := (step_good hi).inv; rw [hst1] at this; exact this
    have hsim := stepNode_sim (advance x.dec) (p :: ps).flatten hr.done rfl hr.want hr.init.advance
    have h2 := (step_eq hr.size).2 (by rw [hst1]; simp)
    rw [hst1] at h2
    rw [← h2] at hsim
    generalize hd' : x'.dec = d1 at hsim hput hinv'
    cases hsim with
    | same a1 a2 a3 a4 a5 a6 => exact absurd rfl a6
    | request a1 a2 a3 a4 a5 a6 =>
      subst hd'
      have hinv'' := hinv'.putData hput
      unfold putData at hput
      have hdd : d = { x'.dec with buf := x'.dec.buf ++ p } := by
        by_cases c : p = []
        · rw [if_pos c] at hput; injection hput with hput; rw [← hput, c, List.append_nil]
        · rw [if_neg c] at hput
          split at hput
          · cases hput
          · injection hput with hput; exact hput.symm
      obtain ⟨ms, rr, hi, hc⟩ := ih ⟨by show d.stepSize ≤ _; rw [hdd]; show x'.dec.stepSize ≤ _; rw [a4]; exact Nat.zero_le _, by show d.cfg.wantPayload = true; rw [hdd]; show x'.dec.cfg.wantPayload = true; rw [a3]; exact hr.want,
        by show InitOK d; rw [hdd]; exact a5, by
          show d.eof = false ∨ _
          rw [hdd]; show x'.dec.eof = false ∨ _; rw [a2]
          rcases hr.done with h | h
          · exact Or.inl h
          · right; rw [List.flatten_cons] at h; exact (List.append_eq_nil_iff.1 h).2⟩ hinv'' (by show x'.want.payload = true; rw [hwant]; exact w1) (by show x'.want.hardlink = true; rw [hwant]; exact w2)
      have hadv : advance d = d := advance_id (by rw [hdd]; exact a4)
      have : Archive.full d ps.flatten = Archive.full x'.dec (p :: ps).flatten := by
        rw [hdd]; unfold Archive.full; simp only [List.flatten_cons, List.append_assoc]
      simp only [hadv] at hi
      rw [this] at hi
      refine ⟨ms, rr, hi.congr a6.symm, ?_⟩
      rw [hc, hsame]
  | @putFails x x' h p ps e hst hp =>
    exfalso
    have hst1 := (dStep_step hst).1
    have h2 := (step_eq hr.size).2 (by rw [hst1]; simp)
    rw [hst1] at h2
    have hsim := stepNode_sim (advance x.dec) (p :: ps).flatten hr.done rfl hr.want hr.init.advance
    rw [← h2] at hsim
    generalize hd' : x'.dec = d1 at hsim hp
    cases hsim with
    | same a1 a2 a3 a4 a5 a6 => exact absurd rfl a6
    | request a1 a2 a3 a4 a5 a6 =>
      unfold putData at hp
      by_cases c : p = []
      · rw [if_pos c] at hp; cases hp
      · rw [if_neg c] at hp
        rcases hr.done with h | h
        · rw [if_neg (by rw [a2]; show ¬ (x.dec.eof = true); rw [h]; simp)] at hp; cases hp
        · rw [List.flatten_cons] at h; exact c (List.append_eq_nil_iff.1 h).1
  | @eof x x' hh t as o a hst he _ ih =>
    have hst1 := (dStep_step hst).1
    have hsame := write_same hst (fun ev h => by injection h with h; subst h; simp)
    have hwant := (dStep_step hst).2.1
    have hinv' : DInv x'.dec := by have := (step_good hi).inv; rw [hst1] at this; exact this
    have h2 := (step_eq hr.size).2 (by rw [hst1]; simp)
    rw [hst1] at h2
    have hsim := stepNode_sim (advance x.dec) ([] : List Bytes).flatten hr.done rfl hr.want hr.init.advance
    rw [← h2] at hsim
    generalize hd' : x'.dec = d1 at hsim hinv'
    cases hsim with
    | same a1 a2 a3 a4 a5 a6 => exact absurd rfl a6
    | request a1 a2 a3 a4 a5 a6 =>
      subst hd'
      obtain ⟨ms, rr, hi, hc⟩ := ih ⟨by show x'.dec.stepSize ≤ _; rw [a4]; exact Nat.zero_le _, by show x'.dec.cfg.wantPayload = true; rw [a3]; exact hr.want, a5, Or.inr rfl⟩
        hinv'.putEof (by show x'.want.payload = true; rw [hwant]; exact w1) (by show x'.want.hardlink = true; rw [hwant]; exact w2)
      have hadv : advance (putEof x'.dec) = putEof x'.dec := advance_id (show (putEof x'.dec).stepSize = 0 from a4)
      simp only [hadv] at hi
      refine ⟨ms, rr, hi.congr a6.symm, ?_⟩
      rw [hc, hsame]
  | @starved x x' h hst he =>
    have hst1 := (dStep_step hst).1
    have h2 := (step_eq hr.size).2 (by rw [hst1]; simp)
    rw [hst1] at h2
    have hsim := stepNode_sim (advance x.dec) ([] : List Bytes).flatten hr.done rfl hr.want hr.init.advance
    rw [← h2] at hsim
    generalize hd' : x'.dec = d1 at hsim
    cases hsim with
    | same a1 a2 a3 a4 a5 a6 => exact absurd rfl a6
    | request a1 a2 a3 a4 a5 a6 =>
      subst hd'
      have hed : (advance x.dec).eof = true := by rw [← a2]; exact he
      refine ⟨[], _, .starved (s' := x'.dec) ?_, rfl⟩
      rw [show ([] : List Bytes).flatten = [] from rfl, full_nil hed, ← h2]
  | @skip x x' hh ps t as o a hst _ _ =>
    exfalso
    have hst1 := (dStep_step hst).1
    have h2 := (step_eq hr.size).2 (by rw [hst1]; simp)
    rw [hst1] at h2
    have hsim := stepNode_sim (advance x.dec) ps.flatten hr.done rfl hr.want hr.init.advance
    rw [← h2] at hsim
    generalize hd' : x'.dec = d1 at hsim
    cases hsim with
    | same a1 a2 a3 a4 a5 a6 a7 a8 => exact absurd rfl a8

/-! ### The answers for a tree -/

/-- What should be answered for an object. -/
def rowDigests (H : Bytes → Bytes) (x : List Bytes × Tree) : List Bytes × Option Word × Res Bytes × Res Bytes := (x.1, some x.2.entry.mode, digestsOf H x.2)

theorem answer_dir {m : Word} (h : isType m ifDir = true) (pl hl : Bytes) : answer H (some m) pl hl = (.err .ENOTTY, .err .EISDIR) := by
  unfold answer
  simp only [h, isType_excl (b := ifReg) h (by decide), isType_excl (b := ifBlk) h (by decide)]
  rfl

mutual
theorem told_tree {ff : Word} : ∀ (t : Tree) (path : List Bytes) (pl hl : Bytes), Storable ff t →
    ∃ pl' hl', ∀ r, Archive.told H pl hl (marksOf path t ++ r) = (postorder path t).map (rowDigests H) ++ Archive.told H pl' hl' r
  | .file e a api c, path, pl, hl, hs => by
    obtain ⟨_, hreg⟩ := hs
    refine ⟨stored api c, headBytes (.file e a api c) ++ stored api c, fun r => ?_⟩
    rw [marksOf, postorder, List.cons_append, told, List.append_assoc, told_bytes, List.nil_append, List.cons_append, List.nil_append, told]
    have : answer H (some e.mode) (stored api c) (headBytes (.file e a api c) ++ stored api c) = digestsOf H (.file e a api c) := by
      unfold answer digestsOf
      simp only [hreg, isType_excl (b := ifDir) hreg (by decide), hasPayload, isDirectory, content]
      rfl
    rw [this]
    rfl
  | .symlink e a tg, path, pl, hl, hs => by
    obtain ⟨_, hl', _⟩ := hs
    refine ⟨[], headBytes (.symlink e a tg), fun r => ?_⟩
    rw [marksOf, postorder, List.cons_append, told, List.cons_append, List.nil_append, told]
    have : answer H (some e.mode) [] (headBytes (.symlink e a tg)) = digestsOf H (.symlink e a tg) := by
      unfold answer digestsOf
      simp only [isType_excl (b := ifReg) hl' (by decide), isType_excl (b := ifBlk) hl' (by decide), isType_excl (b := ifDir) hl' (by decide), hasPayload, isDirectory, content,
        List.append_nil]
      rfl
    rw [this]
    rfl
  | .device e a x y, path, pl, hl, hs => by
    obtain ⟨_, hdev, _⟩ := hs
    refine ⟨[], headBytes (.device e a x y), fun r => ?_⟩
    rw [marksOf, postorder, List.cons_append, told, List.cons_append, List.nil_append, told]
    have h1 : isType e.mode ifReg = false := by rcases hdev with h | h <;> exact isType_excl h (by decide)
    have h2 : isType e.mode ifDir = false := by rcases hdev with h | h <;> exact isType_excl h (by decide)
    have : answer H (some e.mode) [] (headBytes (.device e a x y)) = digestsOf H (.device e a x y) := by
      unfold answer digestsOf
      simp only [h1, h2, hasPayload, isDirectory, content, List.append_nil, Bool.false_or]
      rfl
    rw [this]
    rfl
  | .special e a, path, pl, hl, hs => by
    obtain ⟨_, hsp⟩ := hs
    refine ⟨[], headBytes (.special e a), fun r => ?_⟩
    rw [marksOf, postorder, List.cons_append, told, List.cons_append, List.nil_append, told]
    have h1 : isType e.mode ifReg = false := by rcases hsp with ⟨h, _⟩ | ⟨h, _⟩ <;> exact isType_excl h (by decide)
    have h2 : isType e.mode ifDir = false := by rcases hsp with ⟨h, _⟩ | ⟨h, _⟩ <;> exact isType_excl h (by decide)
    have h3 : isType e.mode ifBlk = false := by rcases hsp with ⟨h, _⟩ | ⟨h, _⟩ <;> exact isType_excl h (by decide)
    have : answer H (some e.mode) [] (headBytes (.special e a)) = digestsOf H (.special e a) := by
      unfold answer digestsOf
      simp only [h1, h2, h3, hasPayload, isDirectory, content, List.append_nil]
      rfl
    rw [this]
    rfl
  | .dir e a true k, path, pl, hl, hs => by
    obtain ⟨_, hd, _⟩ := hs
    refine ⟨[], headBytes (.dir e a true k), fun r => ?_⟩
    rw [marksOf, postorder, List.cons_append, told, List.cons_append, List.nil_append, told, answer_dir hd]
    rfl
  | .dir e a false k, path, pl, hl, hs => by
    obtain ⟨_, hd, hk⟩ := hs
    obtain ⟨pl', hl', h⟩ := told_kids k path [] (headBytes (.dir e a false k)) hk
    refine ⟨pl', hl', fun r => ?_⟩
    rw [marksOf, postorder, List.cons_append, told, List.append_assoc, h, List.cons_append, List.nil_append, told, answer_dir hd, List.map_append, List.append_assoc]
    rfl
theorem told_kids {ff : Word} : ∀ (k : Kids) (path : List Bytes) (pl hl : Bytes), StorableKids ff k →
    ∃ pl' hl', ∀ r, Archive.told H pl hl (kidsMarks path k ++ r) = (kidsPost path k).map (rowDigests H) ++ Archive.told H pl' hl' r
  | .nil, path, pl, hl, _ => ⟨pl, hl, fun r => by rw [kidsMarks, kidsPost]; rfl⟩
  | .cons false n t r, path, pl, hl, hs => by
    unfold StorableKids at hs
    obtain ⟨pl', hl', h⟩ := told_kids r path pl hl hs
    exact ⟨pl', hl', fun r => by rw [kidsMarks, kidsPost]; exact h r⟩
  | .cons true n t r, path, pl, hl, hs => by
    unfold StorableKids at hs
    obtain ⟨_, ht, hr⟩ := hs
    obtain ⟨p1, h1, e1⟩ := told_tree t (path ++ [n]) pl hl ht
    obtain ⟨p2, h2, e2⟩ := told_kids r path p1 h1 hr
    exact ⟨p2, h2, fun r => by rw [kidsMarks, kidsPost, List.append_assoc, e1, e2, List.map_append, List.append_assoc]⟩
end

end Casync.Archive
