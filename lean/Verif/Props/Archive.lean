import Verif.Lemmas.EncoderRun
import Verif.Props.Decoder
import Verif.Props.Flags
/-!
C25: what the encoder writes, the decoder reads as the same tree.
-/
namespace Casync.Archive
open Casync Flags

variable {q : List Goodbye.NameItem → List Goodbye.NameItem}

/-- The flags in the first ENTRY record are accepted. -/
theorem validate_first {ff e m : Word} (hff : areNormalized ff = .ok true) (he : e = none64 ∨ e = ff) :
    ∃ f', validateFeatureFlags { expected := e, mask := m } ff = some f' := by
  have hk := ((C17_areNormalized_iff ff).1 hff).1
  have hne := known_ne_max hk
  have hm := (C17_mask_least ff hne).1
  have hkm : Known (normalizeMask ff &&& m) := by
    intro i hi
    rw [BitVec.getLsbD_and, Bool.and_eq_true] at hi
    exact hm i hi.1
  obtain ⟨r, hr⟩ := (C17_succeeds_iff _).2 hkm
  unfold validateFeatureFlags
  rw [if_neg (by simpa using hne), if_neg, if_neg, if_pos (by rfl), hr]
  · exact ⟨_, rfl⟩
  · unfold notNormalized; rw [hff]; simp
  · rcases he with h | h
    · rw [h]; simp
    · rw [h]; simp

/-- The decoder reads the archive of a tree as this tree. -/
theorem decode_tree {cfg : DCfg} (hn : cfg.naked = false) (hw : cfg.wantPayload = true) {ff e m : Word} (hff : areNormalized ff = .ok true)
    (he : e = none64 ∨ e = ff) {t : Tree} (ht : Storable ff t) (hd : t.isDir = true) (hh : t.height ≤ 64) (hl : (encTree q 0 t).length < 2 ^ 62)
    {ps : List Bytes} {x : Bytes} (hps : ps.flatten = encTree q 0 t ++ x) {obs : List Obs} {o : Outcome} (hr : Run (start cfg e m) ps obs o) :
    atoms obs = events [] t ∧ o = .finished := by
  obtain ⟨f', hv⟩ := validate_first (m := m) hff he
  obtain ⟨r, hb⟩ := hr.full (ready_start cfg hw e m ps)
  rw [hps] at hb
  obtain ⟨n', _, h⟩ := tree_reach (fresh cfg) q ff ((known_iff' ff).2 ((C17_areNormalized_iff ff).1 hff).1) t { expected := e, mask := m } f' .init {} [] 0 x ht hv
    (.inl ⟨rfl, hn⟩) rfl (.inr hd) ⟨by simpa using hh, Nat.zero_le _⟩ hl
  have hfin := h [] (.finished, x) (.finished (s' := enterState (here (fresh cfg) f' .finalize [n'] x (0 + (encTree q 0 t).length)) .eof) rfl)
  rw [List.append_nil] at hfin
  obtain ⟨a, b⟩ := hb.det hfin
  exact ⟨a, congrArg Prod.fst b⟩

/-- **C25.** The archive of a directory tree.  The encoder is asked for its data with suggested sizes `sizes`, whatever they are; the bytes are
handed to a decoder in pieces `ps`, however they are cut.  Then the encoder comes to its end, the decoder comes to its end, and the decoder has
reported exactly the objects of the tree, in order, with their paths, their metadata and their content. -/
theorem C25_round_trip (hq : Goodbye.Sorts q) (ff : Word) (hff : areNormalized ff = .ok true) (t : Tree) (ht : Storable ff t) (hd : t.isDir = true)
    (hh : t.height ≤ 64) (sizes : Nat → Option Nat) (hs : Positive sizes) (bytes : Bytes) (eo : EOutcome) (hen : ERun q sizes (eStart t) bytes eo)
    (hl : bytes.length < 2 ^ 62) (cfg : DCfg) (hn : cfg.naked = false) (hw : cfg.wantPayload = true) (e m : Word) (he : e = none64 ∨ e = ff)
    (ps : List Bytes) (hps : ps.flatten = bytes) (obs : List Obs) (o : Outcome) (hr : Run (start cfg e m) ps obs o) :
    eo = .finished ∧ atoms obs = events [] t ∧ o = .finished := by
  obtain ⟨h1, h2⟩ := hen.det (enc_session hq hd hh hs)
  subst h1
  exact ⟨h2, decode_tree hn hw hff he ht hd hh hl (x := []) (by rw [hps, List.append_nil]) hr⟩

/-- **C25, C46.** What the encoder writes does not depend on the sizes in which the data is read: every session gives the archive of the tree. -/
theorem C46_sizes_do_not_matter (hq : Goodbye.Sorts q) (t : Tree) (hd : t.isDir = true) (hh : t.height ≤ 64) (s1 s2 : Nat → Option Nat) (h1 : Positive s1)
    (h2 : Positive s2) (b1 b2 : Bytes) (o1 o2 : EOutcome) (r1 : ERun q s1 (eStart t) b1 o1) (r2 : ERun q s2 (eStart t) b2 o2) :
    b1 = b2 ∧ o1 = .finished ∧ o2 = .finished := by
  obtain ⟨a1, a2⟩ := r1.det (enc_session hq hd hh h1)
  obtain ⟨c1, c2⟩ := r2.det (enc_session hq hd hh h2)
  exact ⟨a1.trans c1.symm, a2, c2⟩

/-- Every session with the encoder comes to its end. -/
theorem C25_session_exists (hq : Goodbye.Sorts q) (t : Tree) (hd : t.isDir = true) (hh : t.height ≤ 64) (sizes : Nat → Option Nat) (hs : Positive sizes) :
    ERun q sizes (eStart t) (encTree q 0 t) .finished := enc_session hq hd hh hs

/-! ### A single file as the root: the archive is its content -/

theorem naked_content {e : Entry} {a : Attrs} {api : Bool} {c : Bytes} {n : ENode} (hn : n.tree = .file e a api c) :
    ∀ (m : Nat) (sz : Nat → Option Nat) (off pay : Nat), c.length - pay = m → pay ≤ c.length → Positive sz →
    ERun q sz (eat .inPayload [n] off pay) (c.drop pay) .finished := by
  intro m
  induction m using Nat.strongRecOn with
  | ind m ih =>
    intro sz off pay hm hp hpos
    have hstep : ∀ p, eStepNode (eat .inPayload [n] off p) = stepEPayload (eat .inPayload [n] off p) := fun _ => rfl
    by_cases hz : pay = c.length
    · subst hz
      rw [List.drop_length]
      refine .finished (e' := eEnter (eEnter (eat .inPayload [n] off c.length) .finalize) .eof) ?_
      rw [eStep_node (by simp [eat]) rfl, hstep]
      unfold stepEPayload
      have hnk : eNaked (eat .inPayload [n] off c.length) = true := by
        unfold eNaked eat
        simp only [hn]
      simp only [eat, hn] at hnk ⊢
      exact (if_pos (Nat.le_refl _)).trans (if_pos hnk)
    · have hk : ∃ k, 0 < k ∧ pay + k ≤ c.length ∧ getPayloadData c pay (sz 0) = (c.drop pay).take k := by
        unfold getPayloadData
        have hb : bufferSize = 65536 := rfl
        cases hs : sz 0 with
        | none => exact ⟨min bufferSize (c.length - pay), by omega, by omega, rfl⟩
        | some s =>
          have := hpos 0 s hs
          exact ⟨min (min bufferSize (c.length - pay)) s, by omega, by omega, rfl⟩
      obtain ⟨k, k0, k1, k2⟩ := hk
      have hlen : ((c.drop pay).take k).length = k := by rw [List.length_take, List.length_drop]; omega
      have r2 := ih (c.length - (pay + k)) (by omega) (fun n => sz (n + 1)) (off + k) (pay + k) rfl k1 hpos.tail
      have hsplit : c.drop pay = (c.drop pay).take k ++ c.drop (pay + k) := by
        rw [← List.drop_drop, List.take_append_drop]
      rw [hsplit]
      refine .data (e' := eat .inPayload [n] off pay)
        (e'' := setBuf (eat .inPayload [n] off pay) ((c.drop pay).take k)) (ev := .payload) ?_ (by simp) (getData_make rfl ?_) ?_
      · rw [eStep_node (by simp [eat]) rfl, hstep]
        unfold stepEPayload
        simp only [eat, hn]
        exact if_neg (show ¬ pay ≥ c.length by omega)
      · unfold makeData
        simp only [eat, hn]
        exact (if_neg (show ¬ pay ≥ c.length by omega)).trans (by rw [k2])
      · have hadv : eStep (setBuf (eat .inPayload [n] off pay) ((c.drop pay).take k)) = eStep (eat .inPayload [n] (off + k) (pay + k)) := by
          have := eStep_advance (e := setBuf (eat .inPayload [n] off pay) ((c.drop pay).take k)) (off := off) (pay := pay) (s := .inPayload)
            (nodes := [n]) (x := (c.drop pay).take k) (by decide) rfl
          rwa [hlen] at this
        exact .congr hadv r2

/-- **C25.** If a single file is encoded, what the encoder gives is the content of the file. -/
theorem C25_blob_encode (e : Entry) (a : Attrs) (api : Bool) (c : Bytes) (sizes : Nat → Option Nat) (hs : Positive sizes) (bytes : Bytes) (o : EOutcome)
    (h : ERun q sizes (eStart (.file e a api c)) bytes o) : bytes = c ∧ o = .finished := by
  have h1 : ERun q sizes (eStart (.file e a api c)) (c.drop 0) .finished :=
    .congr (e2 := eat .inPayload [freshNode (.file e a api c)] 0) rfl (naked_content rfl c.length sizes 0 0 (by omega) (by omega) hs)
  exact h.det h1

/-- **C25.** A decoder for a single file gives the bytes it is fed with, and ends with them. -/
theorem C25_blob_decode (cfg : DCfg) (hn : cfg.naked = true) (hw : cfg.wantPayload = true) (e m : Word) (ps : List Bytes) (obs : List Obs) (o : Outcome)
    (hr : Run (start cfg e m) ps obs o) : atoms obs = ps.flatten.map .byte ∧ o = .finished := by
  obtain ⟨rr, hb⟩ := hr.full (ready_start cfg hw e m ps)
  generalize ps.flatten = b at hb
  have hnk : ∀ (s : DState) (x : Bytes) (o p z k : Nat), isNaked { cfg := fresh cfg, state := s, nodes := [{}], ff := { expected := e, mask := m }, buf := x, eof := true, archiveOff := o, payloadOff := p, stepSize := z, skip := k } = true := by
    intro s x o p z k; unfold isNaked; simp [hn]
  have hmode : ∀ (s : DState) (x : Bytes) (o p z k : Nat), nodeMode { cfg := fresh cfg, state := s, nodes := [{}], ff := { expected := e, mask := m }, buf := x, eof := true, archiveOff := o, payloadOff := p, stepSize := z, skip := k } {} = some ifReg := by
    intro s x o p z k; unfold nodeMode; rw [hnk]; rfl
  have hc : stepNode (full (advance (start cfg e m)) b) = stepNode (here (fresh cfg) { expected := e, mask := m } .inPayload [{}] b 0) :=
    if_pos (hnk .init b 0 0 0 0)
  have hat : PayAt (here (fresh cfg) { expected := e, mask := m } .inPayload [{}] b 0) b.length :=
    { state := rfl, size0 := rfl, len := Nat.le_refl _,
      node := ⟨{}, [], ifReg, rfl, hmode _ _ _ _ _ _, by decide, by intro s hs; cases hs⟩ }
  have hend : BRun (advance (setStep (here (fresh cfg) { expected := e, mask := m } .inPayload [{}] b 0) b.length)) [] (.finished, []) := by
    have ha : advance (setStep (here (fresh cfg) { expected := e, mask := m } .inPayload [{}] b 0) b.length) =
        { (here (fresh cfg) { expected := e, mask := m } .inPayload [{}] [] b.length) with payloadOff := b.length } := by
      simp only [advance, setStep, here, if_true, Nat.zero_add, List.drop_length]
    rw [ha]
    refine .finished (s' := enterState (enterState { (here (fresh cfg) { expected := e, mask := m } .inPayload [{}] [] b.length) with payloadOff := b.length } .finalize) .eof) ?_
    have hs : ∀ q : Dec, q.state = .inPayload → stepNode q = stepPayload q := by intro q hq; unfold stepNode; rw [hq]
    rw [hs _ rfl]
    unfold stepPayload
    simp only [here, hmode, nodeSize, pastEnd]
    have h1 := hnk .inPayload [] b.length b.length 0 0
    simp [h1]
    rfl
  have := pay_many b.length _ [] _ hat hend
  obtain ⟨h2, h3⟩ := hb.det (.congr hc this)
  exact ⟨by simpa [here] using h2, congrArg Prod.fst h3⟩

/-! ### The observations determine the tree -/

mutual
/-- The tree without what is not archived. -/
def Tree.pruned : Tree → Tree
  | .file e a api c => .file e a false (stored api c)
  | .symlink e a t => .symlink e a t
  | .device e a x y => .device e a x y
  | .special e a => .special e a
  | .dir e a true _ => .dir e a false .nil
  | .dir e a false kids => .dir e a false kids.pruned
def Kids.pruned : Kids → Kids
  | .nil => .nil
  | .cons false _ _ r => r.pruned
  | .cons true name t r => .cons true name t.pruned r.pruned
end

/-- The observations after the first one. -/
def Tree.later (p : List Bytes) : Tree → List Atom
  | .file _ _ api c => (stored api c).map .byte ++ [.doneFile p]
  | .dir _ _ false kids => kidsEvents p kids ++ [.doneFile p]
  | _ => [.doneFile p]

theorem events_eq (p : List Bytes) (t : Tree) : events p t = .nextFile p t.entry t.attrs t.shown :: t.later p := by
  cases t with
  | dir e a api k => cases api <;> rfl
  | _ => rfl

theorem bytes_inj : ∀ (b c : Bytes) (x y : List Atom), b.length = c.length → b.map Atom.byte ++ x = c.map Atom.byte ++ y → b = c ∧ x = y
  | [], [], x, y, _, h => ⟨rfl, h⟩
  | [], _ :: _, _, _, h, _ => by cases h
  | _ :: _, [], _, _, h, _ => by cases h
  | a :: b, a' :: c, x, y, hl, h => by
    rw [List.map_cons, List.map_cons, List.cons_append, List.cons_append] at h
    injection h with h1 h2
    injection h1 with h1
    obtain ⟨r1, r2⟩ := bytes_inj b c x y (by simpa using hl) h2
    exact ⟨by rw [h1, r1], r2⟩

theorem special_not_dir {ff : Word} {e : Entry} {a : Attrs} (h : Storable ff (.special e a)) : isType e.mode ifDir = false := by
  obtain ⟨_, h | h⟩ := h
  · exact isType_excl h.1 (by decide)
  · exact isType_excl h.1 (by decide)

def EvInj (ff : Word) (n : Nat) : Prop :=
  (∀ (t t' : Tree), sizeOf t + sizeOf t' ≤ n → ∀ (p : List Bytes) (x y : List Atom), Storable ff t → Storable ff t' → events p t ++ x = events p t' ++ y →
    t.pruned = t'.pruned ∧ x = y) ∧
  (∀ (k k' : Kids), sizeOf k + sizeOf k' ≤ n → ∀ (p : List Bytes) (x y : List Atom), StorableKids ff k → StorableKids ff k' →
    kidsEvents p k ++ .doneFile p :: x = kidsEvents p k' ++ .doneFile p :: y → k.pruned = k'.pruned ∧ x = y)

theorem dir_later (p : List Bytes) (e : Entry) (a : Attrs) (api : Bool) (k : Kids) : ∃ k', (k' = .nil ∨ k' = k) ∧
    (Tree.dir e a api k).later p = kidsEvents p k' ++ [.doneFile p] ∧ (Tree.dir e a api k).pruned = .dir e a false k'.pruned := by
  cases api with
  | true => exact ⟨.nil, .inl rfl, rfl, rfl⟩
  | false => exact ⟨k, .inr rfl, rfl, rfl⟩

theorem tree_inj {ff : Word} {n : Nat} (ih : EvInj ff n) (t t' : Tree) (hn : sizeOf t + sizeOf t' ≤ n + 1) (p : List Bytes) (x y : List Atom)
    (ht : Storable ff t) (ht' : Storable ff t') (h : events p t ++ x = events p t' ++ y) : t.pruned = t'.pruned ∧ x = y := by
  rw [events_eq, events_eq, List.cons_append, List.cons_append] at h
  injection h with h1 h2
  injection h1 with _ he ha hs
  cases t with
  | file e a api c =>
    cases t' with
    | file e' a' api' c' =>
      simp only [Tree.entry, Tree.attrs] at he ha
      injection hs with hs
      simp only [Tree.later, List.append_assoc] at h2
      obtain ⟨r1, r2⟩ := bytes_inj _ _ _ _ hs h2
      exact ⟨by simp only [Tree.pruned, he, ha, r1], by injection r2⟩
    | _ => cases hs
  | symlink e a c =>
    cases t' with
    | symlink e' a' c' =>
      simp only [Tree.entry, Tree.attrs] at he ha
      injection hs with hs
      simp only [Tree.later, List.cons_append, List.nil_append] at h2
      exact ⟨by simp only [Tree.pruned, he, ha, hs], by injection h2⟩
    | _ => cases hs
  | device e a c d =>
    cases t' with
    | device e' a' c' d' =>
      simp only [Tree.entry, Tree.attrs] at he ha
      injection hs with hs hs'
      simp only [Tree.later, List.cons_append, List.nil_append] at h2
      exact ⟨by simp only [Tree.pruned, he, ha, hs, hs'], by injection h2⟩
    | _ => cases hs
  | special e a =>
    cases t' with
    | special e' a' =>
      simp only [Tree.entry, Tree.attrs] at he ha
      simp only [Tree.later, List.cons_append, List.nil_append] at h2
      exact ⟨by simp only [Tree.pruned, he, ha], by injection h2⟩
    | dir e' a' api k =>
      simp only [Tree.entry] at he
      have h1 := special_not_dir ht
      rw [he, ht'.2.1] at h1
      cases h1
    | _ => cases hs
  | dir e a api k =>
    cases t' with
    | special e' a' =>
      simp only [Tree.entry] at he
      have h1 := special_not_dir ht'
      rw [← he, ht.2.1] at h1
      cases h1
    | dir e' a' api' k' =>
      simp only [Tree.entry, Tree.attrs] at he ha
      obtain ⟨k1, o1, l1, q1⟩ := dir_later p e a api k
      obtain ⟨k2, o2, l2, q2⟩ := dir_later p e' a' api' k'
      rw [l1, l2, List.append_assoc, List.append_assoc] at h2
      rw [q1, q2]
      simp only [Tree.dir.sizeOf_spec] at hn
      have z1 : sizeOf k1 ≤ sizeOf k := by rcases o1 with h | h <;> subst h <;> simp; cases k <;> simp; omega
      have z2 : sizeOf k2 ≤ sizeOf k' := by rcases o2 with h | h <;> subst h <;> simp; cases k' <;> simp; omega
      obtain ⟨r1, r2⟩ := ih.2 k1 k2 (by omega) p x y (by rcases o1 with h | h <;> subst h; trivial; exact ht.2.2)
        (by rcases o2 with h | h <;> subst h; trivial; exact ht'.2.2) h2
      exact ⟨by rw [he, ha, r1], r2⟩
    | _ => cases hs

theorem kids_inj {ff : Word} {n : Nat} (ih : EvInj ff n) : ∀ (k k' : Kids), sizeOf k + sizeOf k' ≤ n + 1 → ∀ (p : List Bytes) (x y : List Atom),
    StorableKids ff k → StorableKids ff k' → kidsEvents p k ++ .doneFile p :: x = kidsEvents p k' ++ .doneFile p :: y → k.pruned = k'.pruned ∧ x = y
  | .cons false _ _ r, k', hn, p, x, y, h, h', e => ih.2 r k' (by simp only [Kids.cons.sizeOf_spec] at hn; omega) p x y h h' e
  | .nil, .cons false _ _ r, hn, p, x, y, h, h', e => ih.2 .nil r (by simp only [Kids.cons.sizeOf_spec] at hn; omega) p x y h h' e
  | .cons true n t s, .cons false _ _ r, hn, p, x, y, h, h', e =>
    ih.2 (.cons true n t s) r (by simp only [Kids.cons.sizeOf_spec] at hn ⊢; omega) p x y h h' e
  | .nil, .nil, hn, p, x, y, _, _, e => by injection e with _ e; exact ⟨rfl, e⟩
  | .nil, .cons true n t r, hn, p, x, y, _, _, e => by
    rw [kidsEvents, kidsEvents, events_eq] at e; injection e with e; cases e
  | .cons true n t r, .nil, hn, p, x, y, _, _, e => by
    rw [kidsEvents, kidsEvents, events_eq] at e; injection e with e; cases e
  | .cons true n t r, .cons true n' t' r', hn, p, x, y, h, h', e => by
    rw [kidsEvents, kidsEvents, List.append_assoc, List.append_assoc] at e
    have hn' : n = n' := by
      rw [events_eq, events_eq] at e
      injection e with e
      injection e with e
      have := List.append_cancel_left e
      injection this
    subst hn'
    simp only [Kids.cons.sizeOf_spec] at hn
    obtain ⟨r1, r2⟩ := ih.1 t t' (by omega) (p ++ [n]) _ _ h.2.1 h'.2.1 e
    obtain ⟨r3, r4⟩ := ih.2 r r' (by omega) p x y h.2.2 h'.2.2 r2
    exact ⟨by simp only [Kids.pruned, r1, r3], r4⟩

theorem ev_inj (ff : Word) : ∀ n, EvInj ff n
  | 0 => ⟨fun t t' h => by cases t <;> simp at h, fun k k' h => by cases k <;> simp at h⟩
  | n + 1 => ⟨tree_inj (ev_inj ff n), kids_inj (ev_inj ff n)⟩

/-- **C25.** The observations say what the tree is: if two trees give the same observations, they are equal but for what is not archived
(entries excluded by the user, contents on API file systems). -/
theorem C25_tree_determined (ff : Word) (t t' : Tree) (ht : Storable ff t) (ht' : Storable ff t') (h : events [] t = events [] t') : t.pruned = t'.pruned :=
  ((ev_inj ff _).1 t t' (Nat.le_refl _) [] [] [] ht ht' (by rw [h])).1

/-! ### An example -/

/-- 32 bit ids, ns times, permissions, symbolic links. -/
def exFf : Word := 0x122#64 ||| 0x200#64

/-- Object without extra metadata. -/
def exEntry (mode : Word) : Entry := { ff := exFf, mode := mode, flags := 0, uid := 1000, gid := 100, mtime := 1700000000123456789 }

def exTree : Tree :=
  .dir (exEntry 0x41ed#64) {} false
    (.cons true [97] (.file (exEntry 0x81a4#64) {} false [104, 105])
    (.cons false [98] (.file (exEntry 0x81a4#64) {} false [1, 2, 3])
    (.cons true [99] (.dir (exEntry 0x41ed#64) {} false .nil)
    (.cons true [100] (.symlink (exEntry 0xa1ff#64) {} [97]) .nil))))

example : areNormalized exFf = .ok true := by decide

theorem exAttrs (e : Entry) : AttrsOK exFf e {} where
  user := by simp
  group := by simp
  names := by intro h; exact absurd h (by decide)
  xattrFlag := by simp
  xattrs := by simp
  xattrOrder := by simp
  aclUser := by simp
  aclGroup := by simp
  defUser := by simp
  defGroup := by simp
  aclUserOrder := by simp
  aclGroupOrder := by simp
  defUserOrder := by simp
  defGroupOrder := by simp
  groupObj := by simp
  needsGroupObj := by simp
  aclDefault := by simp
  needsMask := by simp
  defaultDir := by simp
  selinux := by simp
  fcaps := by simp
  quota := by simp
  link := by simp

theorem exObj {mode : Word} (h : mode &&& ~~~(0xffff#64) = 0#64) (hp : PermOK exFf mode) : ObjOK exFf (exEntry mode) {} :=
  ⟨{ same := rfl, bits := h, perm := hp, uid := by show IdOK exFf 1000; unfold IdOK; decide, gid := by show IdOK exFf 100; unfold IdOK; decide,
     time := by show TimeOK exFf 1700000000123456789; unfold TimeOK; decide, flags := BitVec.zero_and,
     subvol := fun _ => by show has 0#64 withSubvolume = false; decide, flagsFor := fun _ _ => rfl }, exAttrs _⟩

theorem exStorable : Storable exFf exTree := by
  have hd : ObjOK exFf (exEntry 0x41ed#64) {} := exObj (by decide) (by unfold PermOK; decide)
  have hf : ObjOK exFf (exEntry 0x81a4#64) {} := exObj (by decide) (by unfold PermOK; decide)
  have hl : ObjOK exFf (exEntry 0xa1ff#64) {} := exObj (by decide) (by unfold PermOK; decide)
  have hn : ∀ c : UInt8, c ≠ 46 → c ≠ 0 → c ≠ 47 → SafeName [c] := fun c h1 h2 h3 =>
    ⟨by simp, by simpa using h1, by simp, by simpa using fun h => h2 h.symm, by simpa using fun h => h3 h.symm⟩
  exact ⟨hd, by decide, hn _ (by decide) (by decide) (by decide), ⟨hf, by decide⟩, hn _ (by decide) (by decide) (by decide), ⟨hd, by decide, trivial⟩,
    hn _ (by decide) (by decide) (by decide), ⟨hl, by decide, by decide, by decide, by decide, by decide⟩, trivial⟩

theorem goodbyeBytes_length (rows : List Goodbye.Item) (d : Nat) : (goodbyeBytes rows d).length = 40 + 24 * rows.length := by
  unfold goodbyeBytes
  rw [record_length]
  have : (rows.flatMap itemBytes).length = 24 * rows.length := by
    induction rows with
    | nil => rfl
    | cons r rs ih => rw [List.flatMap_cons, List.length_append, ih]; simp only [itemBytes, List.length_append, le64_length, List.length_cons]; omega
  simp only [List.length_append, this, le64_length]
  omega

mutual
/-- A bound for the size of the archive. -/
def Tree.bound : Tree → Nat
  | .file e a api c => (headBytes (.file e a api c)).length + c.length
  | .symlink e a t => (headBytes (.symlink e a t)).length
  | .device e a x y => (headBytes (.device e a x y)).length
  | .special e a => (headBytes (.special e a)).length
  | .dir e a _ kids => (headBytes (.dir e a true .nil)).length + 40 + kids.bound
def Kids.bound : Kids → Nat
  | .nil => 0
  | .cons _ name t r => 41 + name.length + t.bound + r.bound
end

mutual
theorem encTree_bound (q : List Goodbye.NameItem → List Goodbye.NameItem) : ∀ (t : Tree) (base : Nat), (encTree q base t).length ≤ t.bound
  | .file e a api c, base => by unfold encTree Tree.bound; rw [List.length_append]; cases api <;> simp [stored]
  | .symlink e a t, base => by unfold encTree Tree.bound; exact Nat.le_refl _
  | .device e a x y, base => by unfold encTree Tree.bound; exact Nat.le_refl _
  | .special e a, base => by unfold encTree Tree.bound; exact Nat.le_refl _
  | .dir e a true kids, base => by
    unfold encTree Tree.bound
    rw [List.length_append, goodbyeBytes_length]
    have h := rowsOf_length q [] (base + (headBytes (.dir e a true kids)).length)
    rw [List.length_nil] at h
    have e1 : headBytes (.dir e a true kids) = headBytes (.dir e a true .nil) := rfl
    rw [e1] at h ⊢
    omega
  | .dir e a false kids, base => by
    unfold encTree Tree.bound
    have e1 : headBytes (.dir e a false kids) = headBytes (.dir e a true .nil) := rfl
    simp only [List.length_append, goodbyeBytes_length, e1]
    generalize headBytes (.dir e a true .nil) = h
    have h1 := encKids_bound q kids (base + h.length)
    have h2 := rowsOf_length q (encKids q (base + h.length) kids).2 (base + (h.length + (encKids q (base + h.length) kids).1.length))
    omega
theorem encKids_bound (q : List Goodbye.NameItem → List Goodbye.NameItem) : ∀ (k : Kids) (base : Nat),
    (encKids q base k).1.length + 24 * (encKids q base k).2.length ≤ k.bound
  | .nil, base => by unfold encKids Kids.bound; exact Nat.le_refl _
  | .cons false n t r, base => by
    unfold encKids Kids.bound
    have := encKids_bound q r base
    omega
  | .cons true n t r, base => by
    unfold encKids Kids.bound
    simp only [List.length_append, List.length_cons, strRecord_length]
    have h1 := encTree_bound q t (base + (17 + n.length))
    have h2 := encKids_bound q r (base + (17 + n.length + (encTree q (base + (17 + n.length)) t).length))
    omega
end

/-- The round trip for the example. -/
example (sizes : Nat → Option Nat) (hs : Positive sizes) : ∃ bytes, ERun (fun l => l.mergeSort Goodbye.nameItemLe) sizes (eStart exTree) bytes .finished ∧
    ∀ ps, ps.flatten = bytes → ∃ obs, Run (start {} none64 none64) ps obs .finished ∧ atoms obs =
      [.nextFile [] (exEntry 0x41ed#64) {} .nothing,
       .nextFile [[97]] (exEntry 0x81a4#64) {} (.file 2), .byte 104, .byte 105, .doneFile [[97]],
       .nextFile [[99]] (exEntry 0x41ed#64) {} .nothing, .doneFile [[99]],
       .nextFile [[100]] (exEntry 0xa1ff#64) {} (.symlink [97]), .doneFile [[100]], .doneFile []] := by
  have he := C25_session_exists Goodbye.mergeSort_sorts exTree rfl (by decide) sizes hs
  refine ⟨_, he, fun ps hps => ?_⟩
  obtain ⟨obs, o, hr⟩ := C26_session_exists {} none64 none64 ps
  have hl : (encTree (fun l => l.mergeSort Goodbye.nameItemLe) 0 exTree).length < 2 ^ 62 :=
    Nat.lt_of_le_of_lt (encTree_bound _ exTree 0) (by decide)
  obtain ⟨_, h1, h2⟩ := C25_round_trip Goodbye.mergeSort_sorts exFf (by decide) exTree exStorable rfl (by decide) sizes hs _ _ he hl {} rfl rfl none64 none64
    (.inl rfl) ps hps obs o hr
  subst h2
  exact ⟨obs, hr, h1⟩

end Casync.Archive
