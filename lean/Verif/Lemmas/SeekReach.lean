import Verif.Lemmas.SeekGo
/-!
The start of seeks, and all that a seekable decoder can get into.
-/
namespace Casync.Archive
open Casync Flags

variable {q : List Goodbye.NameItem → List Goodbye.NameItem} {A : Bytes} {t : Tree} {ff : Word} {f' : FF}

/-! ### More data -/

/-- Only the buffer has changed. -/
structure SameBut (c c' : Dec) : Prop where
  nodes : c'.nodes = c.nodes
  cfg : c'.cfg = c.cfg
  ff : c'.ff = c.ff
  state : c'.state = c.state
  archiveOff : c'.archiveOff = c.archiveOff
  payloadOff : c'.payloadOff = c.payloadOff
  stepSize : c'.stepSize = c.stepSize

theorem SameBut.put {c c' : Dec} {p : Bytes} (h : putData c p = .ok c') : SameBut c c' := by
  unfold putData at h
  split at h
  · injection h with h; rw [← h]; exact ⟨rfl, rfl, rfl, rfl, rfl, rfl, rfl⟩
  split at h
  · cases h
  · injection h with h; rw [← h]; exact ⟨rfl, rfl, rfl, rfl, rfl, rfl, rfl⟩

theorem SameBut.eof (c : Dec) : SameBut c (putEof c) := ⟨rfl, rfl, rfl, rfl, rfl, rfl, rfl⟩

theorem Base.buffer {d : SDec} {c : Dec} (h : Base q A t ff f' d) (hs : SameBut d.core c) (hb : BufOK A c) : Base q A t ff f' (withCore d c) :=
  h.same hs.nodes rfl rfl (by show c.cfg.naked = _; rw [hs.cfg]) (by show c.cfg.wantPayload = _; rw [hs.cfg]) hs.ff hb

theorem OK.base {d : SDec} {l : Answer} (h : OK q A t ff f' d l) : Base q A t ff f' d := by
  rcases h with ⟨_, _, h⟩ | h
  · cases h with
    | at_ h => exact h
    | eof h => exact h
  · exact h.base

theorem OK.buffer {d : SDec} {c : Dec} {l : Answer} (h : OK q A t ff f' d l) (hs : SameBut d.core c) (hb : BufOK A c) : OK q A t ff f' (withCore d c) l := by
  have hsd : stopDepth (withCore d c) = stopDepth d := by show c.cfg.boundary = d.core.cfg.boundary; rw [hs.cfg]
  rcases h with ⟨r, hr, h⟩ | h
  · left
    refine ⟨r, hr, ?_⟩
    cases h with
    | eof h1 h2 h3 => exact .eof (h1.buffer hs hb) h2 (hs.state.trans h3)
    | @at_ n ns x xs s path y own h1 h2 h3 h4 =>
      rw [← hsd]
      refine .at_ (h1.buffer hs hb) h2 ⟨hs.nodes.trans h3.nodes, h3.exts, h3.stack⟩ ?_
      have e1 : (withCore d c).core.state = d.core.state := hs.state
      have e2 : (withCore d c).core.archiveOff = d.core.archiveOff := hs.archiveOff
      have e3 : (withCore d c).core.stepSize = d.core.stepSize := hs.stepSize
      have e4 : (withCore d c).core.payloadOff = d.core.payloadOff := hs.payloadOff
      cases h4 with
      | enter a1 a2 a3 a4 => exact .enter (by rw [e1]; exact a1) a2 (by rw [hsd]; exact a3) (by rw [e2, e3]; exact a4)
      | entry a1 a2 a3 a4 => exact .entry (by rw [e1]; exact a1) a2 (by rw [hsd]; exact a3) (by rw [e2, e3]; exact a4)
      | @payload e a api b a1 a2 a3 a4 a5 =>
        have := PosOK.payload (q := q) (A := A) (d := withCore d c) (x := x) (path := path) (y := y) (by rw [e1]; exact a1) a2 a3 (by rw [e3, e4]; exact a4) (by rw [e2, e3, e4]; exact a5)
        rw [e3, e4] at this
        exact this
      | dir a1 a2 a3 a4 a5 a6 => exact .dir (by rw [e1]; exact a1) a2 a3 (by rw [hsd]; exact a4) a5 (by rw [e2, e3]; exact a6)
      | goodbye a1 a2 a3 => exact .goodbye (by rw [e1]; exact a1) a2 (by rw [e2, e3]; exact a3)
      | finalize a1 a2 => exact .finalize (by rw [e1]; exact a1) (by rw [e2, e3]; exact a2)
  · right
    cases h with
    | nowhere h1 h2 => exact .nowhere (h1.buffer hs hb) h2
    | prep h1 h2 h3 =>
      rw [← hsd]
      exact .prep h1 h2 (h3.same hs.nodes rfl rfl hs.cfg hs.ff hb rfl rfl rfl rfl rfl)
    | @seeking tg g goal h1 h2 =>
      rw [← hsd]
      refine .seeking h1 (TargetOK.same (d := d) (e := withCore d c) ?_ hs.nodes rfl rfl hs.cfg hs.ff hb rfl rfl rfl rfl rfl)
      show TargetOK q A t ff f' d g goal tg (c.archiveOff + c.stepSize)
      rw [hs.archiveOff, hs.stepSize]
      exact h2
    | @entered g goal n ns x xs s path y p h1 h2 h3 h4 h5 =>
      rw [← hsd]
      refine .entered h1 (h2.same hs.nodes rfl rfl hs.cfg hs.ff hb rfl rfl rfl rfl) h3 ?_ h5
      show c.archiveOff + c.stepSize = n.entryOff
      rw [hs.archiveOff, hs.stepSize]
      exact h4

/-! ### The start of a seek -/

theorem Stack.safe (hc : Ctx q A t ff f') {nodes : List DNode} {exts : List NX} {s : Tree} {path : List Bytes} {y : Bytes} (h : Stack q A t nodes exts s path y) :
    ∀ c ∈ path, SafeName c := by
  induction h with
  | root => intro c hc; cases hc
  | @down p ns x0 xs s path y n x nm s' r o hs hd hk hn hno hsuf hat ho ih =>
    intro c hm
    rcases List.mem_append.1 hm with hm | hm
    · exact ih c hm
    · have hst := hsuf.storable (Tree.kids_storable (hs.facts hc).storable)
      rw [StorableKids] at hst
      rw [List.mem_singleton.1 hm]
      exact hst.1

/-- The root is the last of the nodes. -/
theorem Stack.bottom {nodes : List DNode} {exts : List NX} {s : Tree} {path : List Bytes} {y : Bytes} (h : Stack q A t nodes exts s path y) :
    ∃ l n, nodes = l ++ [n] ∧ n.name = none := by
  induction h with
  | @root n x h1 h2 h3 => exact ⟨[], n, rfl, h1⟩
  | @down p ns x0 xs s path y n x nm s' r o hs hd hk hn hno hsuf hat ho ih =>
    obtain ⟨l, m, h1, h2⟩ := ih
    exact ⟨n :: l, m, by rw [h1]; rfl, h2⟩

theorem zip_unzip_fst : ∀ {a : List DNode} {b : List NX}, a.length = b.length → (a.zip b).map Prod.fst = a
  | [], [], _ => rfl
  | a :: as, b :: bs, h => by rw [List.zip_cons_cons, List.map_cons, zip_unzip_fst (by simpa using h)]
  | [], _ :: _, h => nomatch h
  | _ :: _, [], h => nomatch h

theorem zip_unzip_snd : ∀ {a : List DNode} {b : List NX}, a.length = b.length → (a.zip b).map Prod.snd = b
  | [], [], _ => rfl
  | a :: as, b :: bs, h => by rw [List.zip_cons_cons, List.map_cons, zip_unzip_snd (by simpa using h)]
  | [], _ :: _, h => nomatch h
  | _ :: _, [], h => nomatch h

theorem open_full {d : SDec} (h : d.exts.length = d.core.nodes.length) :
    (openNodes d).reverse.map Prod.fst = fullN d ∧ (openNodes d).reverse.map Prod.snd = fullX d := by
  unfold openNodes fullN fullX
  rw [List.reverse_append, List.reverse_reverse, List.map_append, List.map_append, zip_unzip_fst h.symm, zip_unzip_snd h.symm, List.map_reverse, List.map_reverse]
  exact ⟨rfl, rfl⟩

theorem pathOf_names : ∀ (l : List (DNode × NX)) (names : List Bytes), l.map (fun y => y.1.name) = names.map some → (l.map Prod.fst).filterMap (·.name) = names
  | [], [], _ => rfl
  | y :: l, c :: names, h => by
    rw [List.map_cons, List.map_cons] at h
    injection h with h1 h2
    rw [List.map_cons, List.filterMap_cons, h1]
    simp only
    rw [pathOf_names l names h2]
  | [], _ :: _, h => nomatch h
  | _ :: _, [], h => nomatch h

/-- All that a seek needs is known of the open nodes. -/
structure AllReady (d : SDec) : Prop where
  nodes : ∀ y ∈ openNodes d, NodeReady y.1 y.2
  size : ∀ y ∈ (openNodes d).head?, y.2.endOff.isSome = true

theorem SeekRes.mono {l : Answer} {r1 r2 : Prop} {d : SDec} {r : SDec × Res Bool} (hm : r2 → r1) (h : SeekRes q A t ff f' l r1 d r) : SeekRes q A t ff f' l r2 d r := by
  cases h with
  | go h => exact .go h
  | gone h1 h2 => exact .gone h1 h2
  | refused h => exact .refused h
  | failed h => exact .failed (fun h2 => h (hm h2))

/-- The first of the open nodes. -/
theorem Base.upTo {d : SDec} (hb : Base q A t ff f' d) {y : DNode × NX} {r : List (DNode × NX)} (ho : openNodes d = y :: r) (k : Nat) :
    ∃ s path z, Stack q A t (((y :: r).take (k + 1)).reverse.map Prod.fst) (((y :: r).take (k + 1)).reverse.map Prod.snd) s path z := by
  obtain ⟨s, path, z, h⟩ := hb.full
  obtain ⟨h1, h2⟩ := open_full hb.len
  rw [← h1, ← h2, ho] at h
  have hsplit : (y :: r).reverse = ((y :: r).drop (k + 1)).reverse ++ ((y :: r).take (k + 1)).reverse := by
    rw [← List.reverse_append, List.take_append_drop]
  rw [hsplit, List.map_append, List.map_append] at h
  refine h.upper (by simp) ?_
  simp

/-- The start of a seek. -/
theorem seekInternal_good (hc : Ctx q A t ff f') {d : SDec} (hb : Base q A t ff f' d) (path : Bytes) (g : Goal) :
    ∃ d1, Base q A t ff f' d1 ∧ SeekRes q A t ff f' (t.answer (stopDepth d) (components path) g) (AllReady d) d1 (seekInternal d path g.sibling g.pay) := by
  cases ho : openNodes d with
  | nil =>
    have h1 := (open_full hb.len).1
    rw [ho] at h1
    have : d.core.nodes = [] := by
      unfold fullN at h1
      exact (List.append_eq_nil_iff.1 h1.symm).2
    exact absurd this hb.ne
  | cons y r =>
    obtain ⟨n, x⟩ := y
    obtain ⟨s0, p0, z0, hst0⟩ := hb.upTo ho 0
    have hst0 : Stack q A t [n] [x] s0 p0 z0 := hst0
    have hroot : n.name = none ∧ NodeOK q A t n x := by
      cases hst0 with
      | root a1 a2 a3 => exact ⟨a1, a3⟩
    unfold seekInternal
    rw [ho]
    simp only
    by_cases he : x.endOff = none
    · refine ⟨d, hb, ?_⟩
      rw [if_pos he]
      exact .failed (fun h => by have := h.size (n, x) (by rw [ho]; rfl); rw [he] at this; cases this)
    cases hm : sMode n x with
    | none =>
      refine ⟨d, hb, ?_⟩
      rw [if_neg he]
      exact .failed (fun h => by have := (h.nodes (n, x) (by rw [ho]; exact List.mem_cons_self ..)).1; rw [hm] at this; cases this)
    | some m =>
      have hdir : isType m ifDir = true := by rw [sMode_dir hc.storable hroot.2 hm]; exact hc.dir
      rw [if_neg he]
      simp only [hdir, Bool.not_true, Bool.false_eq_true, if_false]
      obtain ⟨hk, hends, names, hnames, hcomps⟩ := reuse_spec r (path.dropWhile (· == 47))
      generalize reuse r (path.dropWhile (· == 47)) = kk at *
      obtain ⟨k, rest⟩ := kk
      simp only at hk hends hnames hcomps ⊢
      rw [components_dropSlash] at hcomps
      obtain ⟨s, path', z, hst⟩ := hb.upTo ho k
      rw [List.take_succ_cons] at hst ⊢
      obtain ⟨n1, ns1, x1, xs1, e1, e2, hno⟩ := hst.head
      have hf := hst.facts hc
      have hpath : path' = names := by
        rw [← hf.names]
        unfold pathOf
        rw [← List.map_reverse, List.reverse_reverse, List.map_cons, List.filterMap_cons, hroot.1]
        exact pathOf_names _ _ hnames
      -- the node
      have hmem : (n1, x1) ∈ (n, x) :: r.take k := by
        cases hK : ((n, x) :: r.take k).reverse with
        | nil => rw [hK] at e1; cases e1
        | cons w ws =>
          rw [hK] at e1 e2
          injection e1 with e1 _
          injection e2 with e2 _
          have : w = (n1, x1) := by rw [← e1, ← e2]
          rw [← this, ← List.mem_reverse, hK]
          exact List.mem_cons_self ..
      have hfin : x1.endOff.isSome = true := by
        rcases List.mem_cons.1 hmem with h | h
        · injection h with _ h
          rw [h]
          cases hx : x.endOff with
          | none => exact absurd hx he
          | some e => rfl
        · exact hends _ h
      rw [e1, e2] at hst ⊢
      have hbase : Base q A t ff f' { resetSeek d with path := some rest, sibling := g.sibling, pay := g.pay, core := { d.core with nodes := n1 :: ns1 }, exts := x1 :: xs1, below := [] } :=
        hb.only ⟨rfl, rfl, hst⟩ rfl rfl rfl hb.flags ⟨hb.buf.at_, hb.buf.size⟩
      refine ⟨_, hbase, (doSeek_good hc (d := { resetSeek d with path := some rest, sibling := g.sibling, pay := g.pay, core := { d.core with nodes := n1 :: ns1 }, exts := x1 :: xs1, below := [] }) (g := g) (goal := components path) (n := n1) (ns := ns1) (x := x1) (xs := xs1) (s := s) (path := path') (y := z) (p := rest) ?_).mono ?_⟩
      · exact {
          base := hbase, cur := ⟨rfl, rfl, hst⟩, below := rfl, sub := rfl, way := by rw [hpath]; exact hcomps, sibling := rfl, pay := rfl, fin := hfin
          tried := by intro _ _ _ j hj; exact absurd hj (Nat.not_lt_zero _) }
      · intro h
        refine h.nodes (n1, x1) ?_
        rw [ho]
        rcases List.mem_cons.1 hmem with h | h
        · rw [h]; exact List.mem_cons_self ..
        · exact List.mem_cons_of_mem _ (List.mem_of_mem_take h)

end Casync.Archive
