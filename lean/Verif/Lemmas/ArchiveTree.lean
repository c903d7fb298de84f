import Verif.Lemmas.ArchiveWalk
/-!
The decoder walks over the archive of a tree and reports the tree.
-/
namespace Casync.Archive
open Casync Flags

def Tree.isDir : Tree → Bool
  | .dir _ _ _ _ => true
  | _ => false

theorem dirNext_filename {name : Bytes} (h : SafeName name) (hl : name.length < 2 ^ 62) (x : Bytes) : DirNext (strRecord .filename name ++ x) :=
  fun _ _ hs => ⟨.filename, .inl rfl, headRec_filename h hl hs x⟩

theorem dirNext_goodbye {rows : List Goodbye.Item} {distance : Nat} (h1 : 40 + 24 * rows.length ≤ distance) (h2 : distance < u64max) (x : Bytes) :
    DirNext (goodbyeBytes rows distance ++ x) :=
  fun _ _ hs => ⟨.goodbye, .inr rfl, headRec_goodbye h1 h2 hs x⟩

theorem dirNext_kids {ff : Word} (q : List Goodbye.NameItem → List Goodbye.NameItem) : ∀ (k : Kids) (off : Nat) (x : Bytes), StorableKids ff k → DirNext x →
    (encKids q off k).1.length < 2 ^ 62 → DirNext ((encKids q off k).1 ++ x)
  | .nil, off, x, _, hx, _ => by unfold encKids; simpa using hx
  | .cons false n t r, off, x, hk, hx, hl => by
    unfold StorableKids at hk
    unfold encKids at hl ⊢
    exact dirNext_kids q r off x hk hx hl
  | .cons true n t r, off, x, hk, hx, hl => by
    unfold StorableKids at hk
    unfold encKids at hl ⊢
    simp only [List.append_assoc, List.length_append] at hl ⊢
    refine dirNext_filename hk.1 ?_ _
    rw [strRecord_length] at hl
    omega

theorem entry_leaf {c : DCfg} {f : FF} {n : DNode} {rest : List DNode} {p : Parsed} {x : Bytes} {off : Nat} (hn : n.parsed = some p)
    (hr : isType p.entry.mode ifReg = false) (hd : isType p.entry.mode ifDir = false) :
    stepNode (here c f .entry (n :: rest) x off) = (enterState (here c f .entry (n :: rest) x off) .finalize, .ok .doneFile) := by
  have hm : ∀ q, nodeMode q n = some p.entry.mode := by intro q; unfold nodeMode; rw [hn]
  show (match nodeMode _ n with | none => _ | some m => _) = _
  rw [hm]
  simp only [hr, hd]
  rfl

theorem entry_dir {c : DCfg} {f : FF} {n : DNode} {rest : List DNode} {p : Parsed} {x : Bytes} {off : Nat} (hn : n.parsed = some p)
    (hd : isType p.entry.mode ifDir = true) :
    stepNode (here c f .entry (n :: rest) x off) = stepNode (here c f .inDirectory (n :: rest) x off) := by
  have hm : ∀ q, nodeMode q n = some p.entry.mode := by intro q; unfold nodeMode; rw [hn]
  show (match nodeMode _ n with | none => _ | some m => _) = _
  rw [hm]
  simp only [isType_excl (b := ifReg) hd (by decide), hd]
  rfl

theorem shown_dir {t : Term} (h : t = .filename ∨ t = .goodbye) : t.shown = .nothing := by rcases h with rfl | rfl <;> rfl

theorem Tree.height_pos (t : Tree) : 1 ≤ t.height := by
  cases t with
  | dir e a api k => rw [Tree.height]; omega
  | file e a api k => simp [Tree.height]
  | symlink e a b => simp [Tree.height]
  | device e a x y => simp [Tree.height]
  | special e a => simp [Tree.height]

/-- Objects without a content or with the content in the metadata. -/
theorem reach_leaf {c : DCfg} {f f' : FF} {st : DState} {n : DNode} {rest : List DNode} {ff : Word} {e : Entry} {a : Attrs} {h x : Bytes} {off : Nat} {t : Term}
    (ho : ObjOK ff e a) (hT : TypeOK ff e.mode) (hv : validateFeatureFlags f ff = some f') (hkn : ff &&& ~~~flagsMax = 0#64)
    (hst : (st = .init ∧ c.naked = false) ∨ st = .entered) (hf : TermFor (rest == []) e.mode t)
    (hr : isType e.mode ifReg = false) (hd : isType e.mode ifDir = false)
    (hh : headRec f' { entry := some e, attrs := a } (h ++ x) = .done t h.length) :
    Reach (here c f st (n :: rest) ((entryBytes e ++ attrsBytes a ++ h) ++ x) off)
      [.nextFile (pathOf (n :: rest)) e a t.shown, .doneFile (pathOf (n :: rest))]
      (here c f' .finalize ({ n with parsed := some ⟨e, a, t⟩ } :: rest) x (off + (entryBytes e ++ attrsBytes a ++ h).length)) := by
  have hp := parseEntry_head ho hT hv hkn hf hh
  have h1 := reach_head (c := c) (n := n) (off := off) (h := entryBytes e ++ attrsBytes a ++ h) (x := x) hst (by
    rw [List.length_append]
    simpa only [List.append_assoc] using hp)
  refine Reach.trans (e1 := [_]) h1 ?_
  have := reach_done (c := c) (f := f') (s := .entry) (nodes := { n with parsed := some ⟨e, a, t⟩ } :: rest) (x := x)
    (off := off + (entryBytes e ++ attrsBytes a ++ h).length) (entry_leaf rfl hr hd)
  rw [pathOf_cons] at this ⊢
  exact this

mutual
theorem tree_reach (c : DCfg) (q : List Goodbye.NameItem → List Goodbye.NameItem) (ff : Word) (hkn : ff &&& ~~~flagsMax = 0#64) :
    ∀ (t : Tree) (f f' : FF) (st : DState) (n : DNode) (rest : List DNode) (off : Nat) (x : Bytes),
    Storable ff t → validateFeatureFlags f ff = some f' → ((st = .init ∧ c.naked = false) ∨ st = .entered) → n.entryOff = off →
    ((rest ≠ [] ∧ DirNext x) ∨ t.isDir = true) → rest.length + t.height ≤ 64 ∧ c.boundary ≤ rest.length → (encTree q off t).length < 2 ^ 62 →
    ∃ n', n'.name = n.name ∧ Reach (here c f st (n :: rest) (encTree q off t ++ x) off) (events (pathOf (n :: rest)) t)
      (here c f' .finalize (n' :: rest) x (off + (encTree q off t).length))
  | .file e a api b, f, f', st, n, rest, off, x, hS, hv, hst, hoff, hx, hh, hl => by
    obtain ⟨ho, hreg⟩ := hS
    have hmax : u64max = 2 ^ 64 - 1 := by decide
    obtain ⟨hr, _⟩ := hx.resolve_right (by simp [Tree.isDir])
    have hroot : (rest == []) = false := by simpa using hr
    unfold encTree at hl ⊢
    rw [List.length_append] at hl
    have hp := parseEntry_head ho (.inl hreg) hv hkn (TermFor.file (root := rest == []) (n := (stored api b).length) hreg hroot)
      (headRec_payload (stored api b ++ x) (by omega) hreg)
    refine ⟨{ n with parsed := some ⟨e, a, .payload (stored api b).length⟩ }, rfl, ?_⟩
    have h1 := reach_head (c := c) (n := n) (off := off) (h := headBytes (.file e a api b)) (x := stored api b ++ x) hst (by
      unfold headBytes tailBytes
      rw [List.length_append, show (header (16 + (stored api b).length) .payload).length = 16 by unfold header; simp only [List.length_append, le64_length]]
      simpa only [List.append_assoc, Tree.entry, Tree.attrs] using hp)
    rw [List.append_assoc]
    refine Reach.trans (e1 := [_]) h1 ?_
    have h2 := reach_payload (c := c) (f := f') (n := { n with parsed := some ⟨e, a, .payload (stored api b).length⟩ }) (rest := rest) (stored api b) x
      (off + (headBytes (.file e a api b)).length) hreg rfl
    rw [List.length_append, ← Nat.add_assoc]
    rw [pathOf_cons] at h2 ⊢
    exact h2
  | .symlink e a tg, f, f', st, n, rest, off, x, hS, hv, hst, hoff, hx, hh, hl => by
    obtain ⟨ho, hlnk, hw, hne, hz, hln⟩ := hS
    have hmax : u64max = 2 ^ 64 - 1 := by decide
    obtain ⟨hr, _⟩ := hx.resolve_right (by simp [Tree.isDir])
    have hroot : (rest == []) = false := by simpa using hr
    have hpos := List.length_pos_iff.2 hne
    have hvt : validateTarget (tg ++ [0]) = true := by
      unfold validateTarget
      have : (tg ++ [0]).length = tg.length + 1 := by simp
      rw [if_neg (by omega), if_neg (by rw [getLast_append]; simp), List.dropLast_concat, if_neg]
      · simp; omega
      · rw [any_false_iff.2]
        · simp
        · intro y hy
          have : y ≠ 0 := fun e => hz (e ▸ hy)
          simpa using this
    have hf' := (validateFeatureFlags_again hv).2.1
    have hsl := strRecord_length .symlink tg
    unfold encTree
    refine ⟨_, ?_, reach_leaf (t := .symlink tg) ho (.inr (.inr (.inr (.inr (.inr ⟨hlnk, hw⟩))))) hv hkn hst (.symlink hlnk hroot)
      (isType_excl hlnk (by decide)) (isType_excl hlnk (by decide)) ?_⟩
    · rfl
    · show headRec f' _ (strRecord .symlink tg ++ x) = .done _ (strRecord .symlink tg).length
      rw [hsl]
      have := headRec_end (d := f') (st := { entry := some e, attrs := a }) (r := .symlink) (body := tg ++ [0]) (t := .symlink tg) x
        (by rw [List.length_append]; simp; omega) rfl (by decide) (by simp [pre, hlnk]; omega)
        (by simp only [acceptEnd, hf', hw, hvt, List.dropLast_concat]; rfl)
      rw [show 17 + tg.length = termSize (.symlink tg) by simp only [termSize]; omega]
      exact this
  | .device e a ma mi, f, f', st, n, rest, off, x, hS, hv, hst, hoff, hx, hh, hl => by
    obtain ⟨ho, hdev, hw, h1, h2⟩ := hS
    have hmax : u64max = 2 ^ 64 - 1 := by decide
    obtain ⟨hr, _⟩ := hx.resolve_right (by simp [Tree.isDir])
    have hroot : (rest == []) = false := by simpa using hr
    have hf' := (validateFeatureFlags_again hv).2.1
    have hdl : (le64 ma ++ le64 mi).length = 16 := by simp only [List.length_append, le64_length]
    have w0 : word 0 (le64 ma ++ le64 mi) = ma := word_zero (by omega) _
    have w1 : word 1 (le64 ma ++ le64 mi) = mi := by
      have := word_one (a := ma) (show mi < 2 ^ 64 by omega) []
      rwa [List.append_nil] at this
    unfold encTree
    refine ⟨_, ?_, reach_leaf (t := .device ma mi) ho (.inr (.inr (.inr (.inr (.inl ⟨hdev.symm, hw⟩))))) hv hkn hst (.device hdev hroot)
      (by rcases hdev with h | h <;> exact isType_excl h (by decide)) (by rcases hdev with h | h <;> exact isType_excl h (by decide)) ?_⟩
    · rfl
    · show headRec f' _ (record .device (le64 ma ++ le64 mi) ++ x) = .done _ (record .device (le64 ma ++ le64 mi)).length
      rw [record_length, hdl]
      generalize le64 ma ++ le64 mi = body at *
      exact headRec_end (d := f') (st := { entry := some e, attrs := a }) (r := .device) (body := body) (t := .device ma mi) x
        (by omega) rfl (by decide) (by rcases hdev with h | h <;> simp [pre, h, hdl])
        (by simp [acceptEnd, validateDevice, hf', hw, w0, w1]; omega)
  | .special e a, f, f', st, n, rest, off, x, hS, hv, hst, hoff, hx, hh, hl => by
    obtain ⟨ho, hsp⟩ := hS
    obtain ⟨hr, hx⟩ := hx.resolve_right (by simp [Tree.isDir])
    have hroot : (rest == []) = false := by simpa using hr
    obtain ⟨t, ht, hrec⟩ := hx f' { entry := some e, attrs := a } rfl
    have hT : isType e.mode ifFifo = true ∨ isType e.mode ifSock = true := by
      rcases hsp with ⟨h, _⟩ | ⟨h, _⟩
      · exact .inl h
      · exact .inr h
    unfold encTree
    refine ⟨{ n with parsed := some ⟨e, a, t⟩ }, rfl, ?_⟩
    have := reach_leaf (c := c) (n := n) (h := []) (x := x) (off := off) ho (by
        rcases hsp with h | h
        · exact .inr (.inr (.inr (.inl h)))
        · exact .inr (.inr (.inl h))) hv hkn hst (TermFor.special hT hroot ht)
      (by rcases hT with h | h <;> exact isType_excl h (by decide)) (by rcases hT with h | h <;> exact isType_excl h (by decide)) hrec
    have hsh : t.shown = .nothing := shown_dir ht
    rw [hsh] at this
    exact this
  | .dir e a true kids, f, f', st, n, rest, off, x, hS, hv, hst, hoff, hx, hh, hl => by
    obtain ⟨ho, hdir, hK⟩ := hS
    have hmax : u64max = 2 ^ 64 - 1 := by decide
    have hf' := (validateFeatureFlags_again hv).1
    unfold encTree at hl ⊢
    have hhl := headBytes_length (.dir e a true kids)
    have hhe : headBytes (.dir e a true kids) = entryBytes e ++ attrsBytes a := by unfold headBytes tailBytes; rw [List.append_nil]; rfl
    rw [List.length_append] at hl
    have hrows := rowsOf_length q [] (off + (headBytes (.dir e a true kids)).length)
    rw [List.length_nil] at hrows
    generalize rowsOf q [] (off + (headBytes (.dir e a true kids)).length) = rows at *
    obtain ⟨t, ht, hrec⟩ := dirNext_goodbye (rows := rows) (distance := (headBytes (.dir e a true kids)).length) (by omega) (by omega) x f'
      { entry := some e, attrs := a } rfl
    have hp := parseEntry_head ho (.inr (.inl hdir)) hv hkn (TermFor.dir (root := rest == []) (t := t) hdir ht) (k := 0) hrec
    rw [← List.append_assoc, ← hhe, Nat.add_zero] at hp
    refine ⟨{ n with parsed := some ⟨e, a, t⟩ }, rfl, ?_⟩
    have h1 := reach_head (c := c) (n := n) (off := off) hst hp
    have hsh : t.shown = .nothing := shown_dir ht
    simp only [hsh] at h1
    rw [List.append_assoc, List.length_append, ← Nat.add_assoc]
    refine Reach.trans (e1 := [_]) h1 ?_
    have h3 := reach_goodbye (c := c) (f := f') (n := { n with parsed := some ⟨e, a, t⟩ }) (rest := rest) (rows := rows)
        (distance := (headBytes (.dir e a true kids)).length) (x := x) (off := off + (headBytes (.dir e a true kids)).length) rfl hdir (by omega) (by omega)
        (by simp only [hoff])
    rw [pathOf_cons] at h3 ⊢
    exact Reach.congr (entry_dir rfl hdir) h3
  | .dir e a false kids, f, f', st, n, rest, off, x, hS, hv, hst, hoff, hx, hh, hl => by
    obtain ⟨ho, hdir, hK⟩ := hS
    have hmax : u64max = 2 ^ 64 - 1 := by decide
    have hf' := (validateFeatureFlags_again hv).1
    unfold encTree at hl ⊢
    simp only at hl ⊢
    have hhl := headBytes_length (.dir e a false kids)
    have hhe : headBytes (.dir e a false kids) = entryBytes e ++ attrsBytes a := by unfold headBytes tailBytes; rw [List.append_nil]; rfl
    have hitems := encKids_items q kids (off + (headBytes (.dir e a false kids)).length)
    have hrows := rowsOf_length q (encKids q (off + (headBytes (.dir e a false kids)).length) kids).2
      (off + ((headBytes (.dir e a false kids)).length + (encKids q (off + (headBytes (.dir e a false kids)).length) kids).1.length))
    generalize rowsOf q (encKids q (off + (headBytes (.dir e a false kids)).length) kids).2
      (off + ((headBytes (.dir e a false kids)).length + (encKids q (off + (headBytes (.dir e a false kids)).length) kids).1.length)) = rows at *
    simp only [List.length_append] at hl
    have hgn := dirNext_goodbye (rows := rows)
      (distance := (headBytes (.dir e a false kids)).length + (encKids q (off + (headBytes (.dir e a false kids)).length) kids).1.length) (by omega) (by omega) x
    obtain ⟨t, ht, hrec⟩ := dirNext_kids q kids (off + (headBytes (.dir e a false kids)).length) _ hK hgn (by omega) f' { entry := some e, attrs := a } rfl
    have hp := parseEntry_head ho (.inr (.inl hdir)) hv hkn (TermFor.dir (root := rest == []) (t := t) hdir ht) (k := 0) hrec
    rw [← List.append_assoc, ← hhe, Nat.add_zero] at hp
    have h1 := reach_head (c := c) (n := n) (off := off) hst hp
    have hsh : t.shown = .nothing := shown_dir ht
    simp only [hsh] at h1
    have hheight : (Tree.dir e a false kids).height = 1 + kids.height := by rw [Tree.height]
    obtain ⟨n', hn1, hn2, hn3, h2⟩ := kids_reach c q ff hkn kids f' { n with parsed := some ⟨e, a, t⟩ } rest (off + (headBytes (.dir e a false kids)).length) _ ⟨e, a, t⟩
      hK hf' rfl hdir hgn (by omega) (by omega)
    refine ⟨n', hn1, ?_⟩
    have h3 := reach_goodbye (c := c) (f := f') (n := n') (rest := rest) (rows := rows)
        (distance := (headBytes (.dir e a false kids)).length + (encKids q (off + (headBytes (.dir e a false kids)).length) kids).1.length) (x := x)
        (off := off + (headBytes (.dir e a false kids)).length + (encKids q (off + (headBytes (.dir e a false kids)).length) kids).1.length)
        (p := ⟨e, a, t⟩) (by rw [hn3]) hdir (by omega) (by omega) (by rw [hn2]; simp only [hoff]; omega)
    simp only [List.append_assoc, List.length_append]
    simp only [← Nat.add_assoc] at h3 ⊢
    have hev : events (pathOf (n :: rest)) (.dir e a false kids) = [Atom.nextFile (pathOf (n :: rest)) e a .nothing] ++ (kidsEvents (pathOf (n :: rest)) kids ++ [.doneFile (pathOf (n :: rest))]) := by
      rw [events]; rfl
    rw [hev]
    rw [pathOf_cons, hn1] at h3
    rw [pathOf_cons] at h1 h2 ⊢
    exact Reach.trans h1 (Reach.trans (Reach.congr (entry_dir rfl hdir) h2) h3)
theorem kids_reach (c : DCfg) (q : List Goodbye.NameItem → List Goodbye.NameItem) (ff : Word) (hkn : ff &&& ~~~flagsMax = 0#64) :
    ∀ (k : Kids) (f : FF) (n : DNode) (rest : List DNode) (off : Nat) (x : Bytes) (p : Parsed),
    StorableKids ff k → validateFeatureFlags f ff = some f → n.parsed = some p → isType p.entry.mode ifDir = true → DirNext x →
    rest.length + 1 + k.height ≤ 64 ∧ c.boundary ≤ rest.length → (encKids q off k).1.length < 2 ^ 62 →
    ∃ n', n'.name = n.name ∧ n'.entryOff = n.entryOff ∧ n'.parsed = some p ∧
      Reach (here c f .inDirectory (n :: rest) ((encKids q off k).1 ++ x) off) (kidsEvents (pathOf (n :: rest)) k)
        (here c f .inDirectory (n' :: rest) x (off + (encKids q off k).1.length))
  | .nil, f, n, rest, off, x, p, hK, hv, hn, hd, hx, hh, hl => by
    refine ⟨n, rfl, rfl, hn, ?_⟩
    unfold encKids kidsEvents
    simpa using Reach.refl _
  | .cons false name t r, f, n, rest, off, x, p, hK, hv, hn, hd, hx, hh, hl => by
    unfold StorableKids at hK
    unfold encKids at hl ⊢
    unfold kidsEvents
    rw [Kids.height] at hh
    exact kids_reach c q ff hkn r f n rest off x p hK hv hn hd hx (by omega) hl
  | .cons true name t r, f, n, rest, off, x, p, hK, hv, hn, hd, hx, hh, hl => by
    unfold StorableKids at hK
    obtain ⟨hs, hT, hK⟩ := hK
    unfold encKids at hl ⊢
    unfold kidsEvents
    rw [Kids.height] at hh
    simp only [List.length_append] at hl ⊢
    have hname := strRecord_length .filename name
    have hth := t.height_pos
    have hx2 := dirNext_kids q r (off + ((strRecord .filename name).length + (encTree q (off + (strRecord .filename name).length) t).length)) x hK hx (by omega)
    have h1 := reach_down (c := c) (f := f) (rest := rest) (x := encTree q (off + (strRecord .filename name).length) t ++
      ((encKids q (off + ((strRecord .filename name).length + (encTree q (off + (strRecord .filename name).length) t).length)) r).1 ++ x)) (off := off) hn hd hs (by omega) (by omega)
    have e1 : (noted c n name).name = n.name ∧ (noted c n name).entryOff = n.entryOff ∧ (noted c n name).parsed = n.parsed := by
      unfold noted; split <;> exact ⟨rfl, rfl, rfl⟩
    obtain ⟨n1, _, h2⟩ := tree_reach c q ff hkn t f f .entered { name := some name, entryOff := off + (strRecord .filename name).length } (noted c n name :: rest)
      (off + (strRecord .filename name).length) _ hT hv (.inr rfl) rfl (.inl ⟨by simp, hx2⟩) (by rw [List.length_cons]; omega) (by omega)
    obtain ⟨n2, a1, a2, a3, h3⟩ := kids_reach c q ff hkn r f (noted c n name) rest
      (off + ((strRecord .filename name).length + (encTree q (off + (strRecord .filename name).length) t).length)) x p hK hv (by rw [e1.2.2, hn]) hd hx (by omega) (by omega)
    refine ⟨n2, by rw [a1, e1.1], by rw [a2, e1.2.1], a3, ?_⟩
    have hp1 : pathOf (({ name := some name, entryOff := off + (strRecord .filename name).length } : DNode) :: noted c n name :: rest) = pathOf (n :: rest) ++ [name] := by
      rw [pathOf_cons, pathOf_cons, e1.1, pathOf_cons]; rfl
    have hp2 : pathOf (noted c n name :: rest) = pathOf (n :: rest) := by rw [pathOf_cons, e1.1, ← pathOf_cons]
    rw [hp1] at h2
    rw [hp2] at h3
    have h12 := Reach.trans h1 h2
    have h123 := Reach.trans h12 (Reach.trans (reach_up (by omega) (c := c) (f := f) (n := n1) (p := noted c n name) (rest := rest)) (by
      rw [show off + (strRecord .filename name).length + (encTree q (off + (strRecord .filename name).length) t).length =
        off + ((strRecord .filename name).length + (encTree q (off + (strRecord .filename name).length) t).length) by omega]
      exact h3))
    rw [List.nil_append, List.nil_append] at h123
    simp only [List.append_assoc]
    simp only [← Nat.add_assoc] at h123 ⊢
    exact h123
end

end Casync.Archive
