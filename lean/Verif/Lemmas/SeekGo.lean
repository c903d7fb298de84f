import Verif.Lemmas.SeekSteps
/-!
The steps of a seek that read records of directories, and all steps together.
-/
namespace Casync.Archive
open Casync Flags

variable {q : List Goodbye.NameItem → List Goodbye.NameItem} {A : Bytes} {t : Tree} {ff : Word} {f' : FF}

theorem SeekRes.good {l : Answer} {ready : Prop} {d : SDec} {r : SDec × Res Bool} (h : SeekRes q A t ff f' l ready d r) (hr : ready) :
    SGood (OK q A t ff f') l (afterSeek r) := by
  cases h with
  | go h => exact .step (.inr h)
  | gone h1 h2 => exact .notFound h1 (.inr h2)
  | refused h => exact .refused h
  | failed h => exact absurd hr h

/-- The children of open nodes can be entered. -/
theorem room (hc : Ctx q A t ff f') {n : DNode} {ns : List DNode} {exts : List NX} {s : Tree} {path : List Bytes} {y : Bytes} (hs : Stack q A t (n :: ns) exts s path y)
    {nm : Bytes} {s' : Tree} {r : Kids} (h1 : Suf (.cons true nm s' r) s.kids) : ¬ (n :: ns).length ≥ nodesMax := by
  have hf := hs.facts hc
  have hhe := h1.height
  have hkh := s.kids_height
  have hfh := hf.height
  have hh := hc.height
  have hl := hf.len
  have hs' := s'.height_pos
  rw [Kids.height] at hhe
  have hmax : nodesMax = 64 := rfl
  omega

theorem SafeName.plain {nm : Bytes} (h : SafeName nm) : (47 : UInt8) ∉ nm ∧ nm ≠ [] := ⟨h.noSlash, h.nonempty⟩

/-- The mode of the current directory is known. -/
theorem dirMode_cur (hc : Ctx q A t ff f') {d : SDec} {n : DNode} {ns : List DNode} {x : NX} {xs : List NX} {s : Tree} {path : List Bytes} {y : Bytes}
    (hcur : Cur q A t d n ns x xs s path y) (hd : s.isDir = true) (hm : (sMode n x).isSome = true) : ∃ m, curMode d = some m ∧ isType m ifDir = true := by
  obtain ⟨_, _, _, _, e1, e2, hno⟩ := hcur.stack.head
  injection e1 with e1 _
  injection e2 with e2 _
  subst e1 e2
  obtain ⟨m, hm⟩ := Option.isSome_iff_exists.1 hm
  refine ⟨m, ?_, ?_⟩
  · unfold curMode; rw [hcur.nodes, hcur.exts]; exact hm
  · rw [sMode_dir (hcur.stack.facts hc).storable hno hm, hd]

theorem enterChild_ok {d : SDec} (h : ¬ d.core.nodes.length ≥ nodesMax) (nm : Bytes) (l : Nat) (e : Option Nat) :
    enterChild d nm l e = .ok { d with
      core := { d.core with nodes := { name := some nm, entryOff := d.core.archiveOff + l } :: d.core.nodes }
      exts := { endOff := e } :: d.exts
      below := [] } := by
  unfold enterChild
  rw [if_neg h]

theorem seekName_no {d : SDec} {p nm : Bytes} (hp : d.path = some p) (h : matchComponent p nm = .no) (l : Nat) :
    seekName d nm l = afterSeek (doSeek { d with idx := d.idx + 1 }) := by
  unfold seekName
  split
  · rename_i h'; rw [hp] at h'; cases h'
  · rename_i p' h'
    rw [hp] at h'
    injection h' with h'
    subst h'
    rw [h]

theorem seekName_in {d : SDec} {p nm : Bytes} (hp : d.path = some p) (h : matchComponent p nm ≠ .no)
    (h2 : matchComponent p nm = .more ∨ d.sibling = true ∨ d.pay.isSome = true) (hr : ¬ d.core.nodes.length ≥ nodesMax) (l : Nat) :
    seekName d nm l = (sSetStep (setMode { d with
      core := { d.core with nodes := { name := some nm, entryOff := d.core.archiveOff + l } :: d.core.nodes }
      exts := { endOff := d.endOff } :: d.exts, below := [], idx := 0, path := some (getComponent p).2 } .entered) l, .ok (.plain .step)) := by
  unfold seekName
  split
  · rename_i h'; rw [hp] at h'; cases h'
  · rename_i p' h'
    rw [hp] at h'
    injection h' with h'
    subst h'
    split
    · rename_i h3; exact absurd h3 h
    · rw [if_pos h2]
      simp only
      rw [enterChild_ok (d := { d with idx := 0, path := some (getComponent p).2 }) hr]

theorem seekName_found {d : SDec} {p nm : Bytes} (hp : d.path = some p) (h : matchComponent p nm = .final) (h2 : d.sibling = false) (h3 : d.pay = none)
    (hr : ¬ d.core.nodes.length ≥ nodesMax) (l : Nat) :
    seekName d nm l = (sSetStep (setPlain { setBoundary (resetSeek { d with idx := 0 }) d.core.nodes.length with
      core := { (setBoundary (resetSeek { d with idx := 0 }) d.core.nodes.length).core with
        nodes := { name := some nm, entryOff := d.core.archiveOff + l } :: d.core.nodes }
      exts := { endOff := d.endOff } :: d.exts, below := [] } .entered) l, .ok .found) := by
  unfold seekName
  split
  · rename_i h'; rw [hp] at h'; cases h'
  · rename_i p' h'
    rw [hp] at h'
    injection h' with h'
    subst h'
    split
    · rename_i h4; rw [h] at h4; cases h4
    · rw [if_neg (by rw [h, h2, h3]; simp)]
      simp only
      rw [enterChild_ok (d := setBoundary (resetSeek { d with idx := 0 }) d.core.nodes.length) hr]
      rfl

/-- The name of an entry that has the hash that is looked for. -/
theorem seekingFilename_good (hc : Ctx q A t ff f') {d : SDec} {g : Goal} {goal : List Bytes} (h : TargetOK q A t ff f' d g goal .filename d.core.archiveOff)
    (hmode : d.mode = some (.seeking .filename)) (h0 : d.core.stepSize = 0) :
    SGood (OK q A t ff f') (t.answer (stopDepth d) goal g) (stepSeek d (.seeking .filename)) := by
  have hT := h
  generalize ho : d.core.archiveOff = o at h
  cases h with
  | @filename n ns x xs s path y p c rest _ e h hcomp hd hm hg hgo hloc he =>
    obtain ⟨_, _, _, _, e1, e2, hno⟩ := h.cur.stack.head
    injection e1 with e1 _
    injection e2 with e2 _
    subst e1 e2
    have hf := h.cur.stack.facts hc
    have hpl := hf.placed n ns rfl
    obtain ⟨nm, s', r, hsuf, hat, hend⟩ := locate_some hpl hd hc.sorts hloc
    obtain ⟨hsafe, hpa⟩ := hat.parse hf.storable hsuf hc.small
    obtain ⟨m, hm1, hm2⟩ := dirMode_cur hc h.cur hd hm
    have hstep : stepSeek d (.seeking .filename) = seekDirRec d .filename := by
      unfold stepSeek
      rw [hm1]
      simp only [hm2, Bool.not_true, Bool.false_eq_true, if_false]
    rw [hstep]
    unfold seekDirRec
    rw [h.cur.nodes]
    simp only
    rw [(h.base.buf.right (by rw [ho]; exact hpa) .filename (by show Target.filename ≠ .goodbye; simp)), if_neg (by simp)]
    rcases h.base.buf.dirRec (by rw [ho]; exact hpa) with ⟨hr, heof⟩ | hr
    · rw [hr]
      simp only
      exact .request heof (.inr (.seeking hmode (by rw [h0]; exact hT)))
    rw [hr]
    simp only [if_true]
    have hsz := (parseDirRec_size hr).2
    have hroom := room hc h.cur.stack hsuf
    rw [← h.cur.nodes] at hroom
    have hchild : ∀ {n' : DNode} {xx : NX}, n'.name = some nm → n'.entryOff = d.core.archiveOff + (17 + nm.length) → NodeOK q A s' n' xx →
        ∃ yy, Stack q A t (n' :: n :: ns) (xx :: x :: xs) s' (path ++ [nm]) yy := by
      intro n' xx k1 k2 k3
      exact ⟨_, .down (o := o) h.cur.stack hd hm k1 k3 hsuf hat (by rw [k2, ho])⟩
    have hNO : NodeOK q A s' { name := some nm, entryOff := d.core.archiveOff + (17 + nm.length) } { endOff := d.endOff } := by
      refine nodeOK_none s' _ _ _ ?_
      intro e' he'
      rw [he] at he'
      injection he' with he'
      rw [← he', ho, hend]
    obtain ⟨yy, hst⟩ := hchild rfl rfl hNO
    rcases matchComponent_spec hcomp hsafe.plain.1 hsafe.plain.2 with ⟨hmt, hne⟩ | ⟨hmt, heq, hrest⟩ | ⟨hmt, heq, hrest⟩
    · rw [seekName_no h.sub hmt]
      refine (doSeek_good hc (d := { d with idx := d.idx + 1 }) (g := g) (goal := goal) (n := n) (ns := ns) (x := x) (xs := xs) (s := s) (path := path) (y := y) (p := p) ?_).good ⟨hm, fun _ => hgo⟩
      exact {
        base := h.base.same rfl rfl rfl rfl rfl rfl h.base.buf, cur := ⟨h.cur.nodes, h.cur.exts, h.cur.stack⟩, below := h.below, sub := h.sub, way := h.way
        sibling := h.sibling, pay := h.pay, fin := h.fin
        tried := by
          intro c' rest' hc'
          rw [hcomp] at hc'
          injection hc' with hc1 hc2
          subst hc1 hc2
          intro j hj o' e' nm' s'' r' hl' hs' ha'
          by_cases hji : j < d.idx
          · exact h.tried c rest hcomp j hji o' e' nm' s'' r' hl' hs' ha'
          · have : j = d.idx := by
              have : j < d.idx + 1 := hj
              omega
            subst this
            rw [hloc] at hl'
            injection hl' with hl'
            injection hl' with hl'
            injection hl' with hl1 hl2
            rw [← hl1] at ha'
            have := (ha'.parse hf.storable hs' hc.small).2
            rw [hpa] at this
            injection this with this
            injection this with this _
            injection this with this
            rw [← this]
            exact hne }
    · by_cases hobj : g = .object
      · have hsib : d.sibling = false := by rw [h.sibling, hobj]; rfl
        have hpay : d.pay = none := by rw [h.pay, hobj]; rfl
        rw [seekName_found h.sub hmt hsib hpay hroom]
        have hcur' : Cur q A t (sSetStep (setPlain { setBoundary (resetSeek { d with idx := 0 }) d.core.nodes.length with
            core := { (setBoundary (resetSeek { d with idx := 0 }) d.core.nodes.length).core with
              nodes := { name := some nm, entryOff := d.core.archiveOff + (17 + nm.length) } :: d.core.nodes }
            exts := { endOff := d.endOff } :: d.exts, below := [] } .entered) (17 + nm.length))
            { name := some nm, entryOff := d.core.archiveOff + (17 + nm.length) } (n :: ns) { endOff := d.endOff } (x :: xs) s' (path ++ [nm]) yy := by
          refine ⟨?_, ?_, hst⟩
          · show _ :: d.core.nodes = _; rw [h.cur.nodes]
          · show _ :: d.exts = _; rw [h.cur.exts]
        have hgoal : path ++ [nm] = goal := by have := h.way; rw [hcomp, hrest, ← heq] at this; exact this
        have hff := hst.facts hc
        refine .found (l' := (events (path ++ [nm]) s').map SAtom.seen) ?_ (.inl (POK.mk (own := events (path ++ [nm]) s') (h.base.only hcur' rfl rfl rfl h.base.flags ⟨h.base.buf.at_, hsz⟩) rfl
          hcur' (.enter (.inr rfl) rfl ?_ rfl) ?_))
        · show _ = Answer.see (.found (pathOf (_ :: d.core.nodes)) :: _)
          rw [h.cur.nodes, hff.names, hobj, ← hgoal]
          unfold Tree.answer
          simp only [hff.find]
        · show d.core.nodes.length ≤ _
          have := hff.len
          rw [h.cur.nodes]
          rw [List.length_cons] at this
          omega
        · show _ = Answer.see ((_ ++ t.after d.core.nodes.length _).map SAtom.seen)
          have := hff.len
          rw [List.length_cons] at this
          rw [after_stop (by rw [h.cur.nodes]; omega), List.append_nil]
      · have hor : d.sibling = true ∨ d.pay.isSome = true := by
          cases g with
          | object => exact absurd rfl hobj
          | content k => right; rw [h.pay]; rfl
          | next => left; rw [h.sibling]; rfl
        rw [seekName_in h.sub (by rw [hmt]; simp) (.inr hor) hroom]
        refine .step (.inr (.entered (g := g) (goal := goal) (n := { name := some nm, entryOff := d.core.archiveOff + (17 + nm.length) }) (ns := n :: ns) (x := { endOff := d.endOff }) (xs := x :: xs) (s := s')
          (path := path ++ [nm]) (y := yy) (p := (getComponent p).2) rfl ?_ rfl rfl rfl))
        have hcur' : Cur q A t (sSetStep (setMode { d with
            core := { d.core with nodes := { name := some nm, entryOff := d.core.archiveOff + (17 + nm.length) } :: d.core.nodes }
            exts := { endOff := d.endOff } :: d.exts, below := [], idx := 0, path := some (getComponent p).2 } .entered) (17 + nm.length))
            { name := some nm, entryOff := d.core.archiveOff + (17 + nm.length) } (n :: ns) { endOff := d.endOff } (x :: xs) s' (path ++ [nm]) yy := by
          refine ⟨?_, ?_, hst⟩
          · show _ :: d.core.nodes = _; rw [h.cur.nodes]
          · show _ :: d.exts = _; rw [h.cur.exts]
        exact {
          base := h.base.only hcur' rfl rfl rfl h.base.flags ⟨h.base.buf.at_, hsz⟩, cur := hcur', below := rfl, sub := rfl
          way := by
            have hw := h.way
            cases hgc : getComponent p with
            | mk o1 r1 =>
              cases o1 with
              | none => rw [getComponent_none hgc] at hcomp; cases hcomp
              | some c1 =>
                have := getComponent_some hgc
                rw [hcomp] at this
                injection this with t1 t2
                rw [← t2, List.append_assoc, heq]
                rw [hcomp] at hw
                exact hw
          sibling := h.sibling, pay := h.pay, fin := by show d.endOff.isSome = true; rw [he]; rfl
          tried := by intro _ _ _ j hj; exact absurd hj (Nat.not_lt_zero _) }
    · rw [seekName_in h.sub (by rw [hmt]; simp) (.inl hmt) hroom]
      refine .step (.inr (.entered (g := g) (goal := goal) (n := { name := some nm, entryOff := d.core.archiveOff + (17 + nm.length) }) (ns := n :: ns) (x := { endOff := d.endOff }) (xs := x :: xs) (s := s')
        (path := path ++ [nm]) (y := yy) (p := (getComponent p).2) rfl ?_ rfl rfl rfl))
      have hcur' : Cur q A t (sSetStep (setMode { d with
          core := { d.core with nodes := { name := some nm, entryOff := d.core.archiveOff + (17 + nm.length) } :: d.core.nodes }
          exts := { endOff := d.endOff } :: d.exts, below := [], idx := 0, path := some (getComponent p).2 } .entered) (17 + nm.length))
          { name := some nm, entryOff := d.core.archiveOff + (17 + nm.length) } (n :: ns) { endOff := d.endOff } (x :: xs) s' (path ++ [nm]) yy := by
        refine ⟨?_, ?_, hst⟩
        · show _ :: d.core.nodes = _; rw [h.cur.nodes]
        · show _ :: d.exts = _; rw [h.cur.exts]
      exact {
        base := h.base.only hcur' rfl rfl rfl h.base.flags ⟨h.base.buf.at_, hsz⟩, cur := hcur', below := rfl, sub := rfl
        way := by
          have hw := h.way
          cases hgc : getComponent p with
          | mk o1 r1 =>
            cases o1 with
            | none => rw [getComponent_none hgc] at hcomp; cases hcomp
            | some c1 =>
              have := getComponent_some hgc
              rw [hcomp] at this
              injection this with t1 t2
              rw [← t2, List.append_assoc, heq]
              rw [hcomp] at hw
              exact hw
        sibling := h.sibling, pay := h.pay, fin := by show d.endOff.isSome = true; rw [he]; rfl
        tried := by intro _ _ _ j hj; exact absurd hj (Nat.not_lt_zero _) }

/-- The table of a directory. -/
theorem seekingGoodbye_good (hc : Ctx q A t ff f') {d : SDec} {g : Goal} {goal : List Bytes} (h : TargetOK q A t ff f' d g goal .goodbye d.core.archiveOff)
    (hmode : d.mode = some (.seeking .goodbye)) (h0 : d.core.stepSize = 0) :
    SGood (OK q A t ff f') (t.answer (stopDepth d) goal g) (stepSeek d (.seeking .goodbye)) := by
  have hT := h
  generalize ho : d.core.archiveOff = o at h
  cases h with
  | @goodbye n ns x xs s path y p c rest _ h hcomp hd hm hgo =>
    obtain ⟨_, _, _, _, e1, e2, hno⟩ := h.cur.stack.head
    injection e1 with e1 _
    injection e2 with e2 _
    subst e1 e2
    have hf := h.cur.stack.facts hc
    have hpl := hf.placed n ns rfl
    obtain ⟨m, hm1, hm2⟩ := dirMode_cur hc h.cur hd hm
    have hstep : stepSeek d (.seeking .goodbye) = seekDirRec d .goodbye := by
      unfold stepSeek
      rw [hm1]
      simp only [hm2, Bool.not_true, Bool.false_eq_true, if_false]
    have hgoff := (hno.goodbyeOff o hgo).2
    have hpa := hpl.parseGoodbye hd hc.small
    rw [← hgoff] at hpa
    rw [hstep]
    unfold seekDirRec
    rw [h.cur.nodes]
    simp only
    rw [(h.base.buf.right (by rw [ho]; exact hpa) .goodbye (by show Target.goodbye ≠ .filename; simp)), if_neg (by simp)]
    rcases h.base.buf.dirRec (by rw [ho]; exact hpa) with ⟨hr, heof⟩ | hr
    · rw [hr]
      simp only
      exact .request heof (.inr (.seeking hmode (by rw [h0]; exact hT)))
    rw [hr]
    simp only [if_true]
    rw [if_neg (by rw [ho]; simp), hpl.rows hd hc.sorts hc.small]
    have hx : setExt d (fun x => { x with goodbye := some (grows q n.entryOff s) }) = { d with exts := { x with goodbye := some (grows q n.entryOff s) } :: xs } := by
      unfold setExt; rw [h.cur.exts]
    rw [hx]
    have hcur' : Stack q A t (n :: ns) ({ x with goodbye := some (grows q n.entryOff s) } :: xs) s path y := h.cur.stack.replace rfl rfl
      { hno with goodbye := fun r hr => ⟨hd, (Option.some.inj hr).symm⟩ }
    refine (doSeek_good hc (d := { d with exts := { x with goodbye := some (grows q n.entryOff s) } :: xs }) (g := g) (goal := goal) (n := n) (ns := ns) (x := { x with goodbye := some (grows q n.entryOff s) }) (xs := xs) (s := s) (path := path) (y := y) (p := p) ?_).good ⟨hm, fun _ => by
      show x.goodbyeOff.isSome = true; rw [hgo]; rfl⟩
    exact {
      base := h.base.only ⟨h.cur.nodes, rfl, hcur'⟩ h.below rfl rfl h.base.flags h.base.buf, cur := ⟨h.cur.nodes, rfl, hcur'⟩
      below := h.below, sub := h.sub, way := h.way, sibling := h.sibling, pay := h.pay, fin := h.fin, tried := h.tried }

theorem words3 {a b c : Nat} (ha : a < 2 ^ 64) (hb : b < 2 ^ 64) (hc : c < 2 ^ 64) (y : Bytes) :
    word 0 (le64 a ++ (le64 b ++ (le64 c ++ y))) = a ∧ word 1 (le64 a ++ (le64 b ++ (le64 c ++ y))) = b ∧ word 2 (le64 a ++ (le64 b ++ (le64 c ++ y))) = c :=
  ⟨word_zero ha _, word_one hb _, by rw [word_succ]; exact word_one hc _⟩

/-- The end of the table of a directory. -/
theorem seekingTail_good (hc : Ctx q A t ff f') {d : SDec} {g : Goal} {goal : List Bytes} (h : TargetOK q A t ff f' d g goal .goodbyeTail d.core.archiveOff)
    (hmode : d.mode = some (.seeking .goodbyeTail)) (h0 : d.core.stepSize = 0) :
    SGood (OK q A t ff f') (t.answer (stopDepth d) goal g) (stepSeek d (.seeking .goodbyeTail)) := by
  have hT := h
  generalize ho : d.core.archiveOff = o at h
  cases h with
  | @goodbyeTail n ns x xs s path y p c rest h hcomp hd hm hgb =>
    obtain ⟨_, _, _, _, e1, e2, hno⟩ := h.cur.stack.head
    injection e1 with e1 _
    injection e2 with e2 _
    subst e1 e2
    have hf := h.cur.stack.facts hc
    have hpl := hf.placed n ns rfl
    obtain ⟨m, hm1, hm2⟩ := dirMode_cur hc h.cur hd hm
    have hstep : stepSeek d (.seeking .goodbyeTail) = seekTail d := by
      unfold stepSeek
      rw [hm1]
      simp only [hm2, Bool.not_true, Bool.false_eq_true, if_false]
    obtain ⟨h24, htail⟩ := hpl.tail hd
    rw [← ho] at htail
    have hdist := hpl.dist hd
    have hglen := gbytes_length (q := q) n.entryOff s
    have hend := encTree_dir_length (q := q) hd n.entryOff
    have hsmall := hc.small
    have hmk : tailMarker < 2 ^ 64 := by decide
    rw [hstep]
    unfold seekTail
    simp only
    obtain ⟨z, hz1, hz2⟩ := h.base.buf.at_
    by_cases hl : d.core.buf.length < 24
    · rw [if_pos hl]
      have heof : d.core.eof = false := by
        cases he : d.core.eof with
        | false => rfl
        | true =>
          rw [hz1, hz2 he, List.append_nil] at htail
          have := congrArg List.length htail
          simp only [List.length_append, le64_length] at this
          omega
      exact .request heof (.inr (.seeking hmode (by rw [h0]; exact hT)))
    rw [if_neg hl]
    obtain ⟨w0, w1, w2⟩ := words3 (a := gst q n.entryOff s - n.entryOff) (b := (gbytes q n.entryOff s).length) (c := tailMarker) (by omega) (by omega) hmk y
    rw [← htail, hz1, word_prefix (by omega)] at w0 w1 w2
    have hgst : d.core.archiveOff + 24 - (gbytes q n.entryOff s).length = gst q n.entryOff s := by omega
    rw [w0, w1, w2, if_neg (by simp), if_neg (by omega), if_neg (by omega), if_neg (by omega), if_neg (by omega), if_neg (by omega)]
    rw [if_neg (by
      rintro ⟨hroot, hne⟩
      have hst := h.cur.stack
      rw [h.cur.nodes, List.length_cons] at hroot
      cases hst with
      | root r1 r2 r3 => omega
      | down => simp at hroot)]
    rw [hgst]
    have hx : setExt d (fun x => { x with goodbyeOff := some (gst q n.entryOff s) }) = { d with exts := { x with goodbyeOff := some (gst q n.entryOff s) } :: xs } := by
      unfold setExt; rw [h.cur.exts]
    rw [hx]
    have hcur' : Stack q A t (n :: ns) ({ x with goodbyeOff := some (gst q n.entryOff s) } :: xs) s path y := h.cur.stack.replace rfl rfl
      { hno with goodbyeOff := fun r hr => ⟨hd, (Option.some.inj hr).symm⟩ }
    refine (doSeek_good hc (d := { d with exts := { x with goodbyeOff := some (gst q n.entryOff s) } :: xs }) (g := g) (goal := goal) (n := n) (ns := ns) (x := { x with goodbyeOff := some (gst q n.entryOff s) }) (xs := xs) (s := s) (path := path) (y := y) (p := p) ?_).good ⟨hm, fun _ => rfl⟩
    exact {
      base := h.base.only ⟨h.cur.nodes, rfl, hcur'⟩ h.below rfl rfl h.base.flags h.base.buf, cur := ⟨h.cur.nodes, rfl, hcur'⟩
      below := h.below, sub := h.sub, way := h.way, sibling := h.sibling, pay := h.pay, fin := h.fin, tried := h.tried }

/-- The entry after the one that was left. -/
theorem seekingSibling_good (hc : Ctx q A t ff f') {d : SDec} {g : Goal} {goal : List Bytes} (h : TargetOK q A t ff f' d g goal .nextSibling d.core.archiveOff)
    (hmode : d.mode = some (.seeking .nextSibling)) (h0 : d.core.stepSize = 0) :
    SGood (OK q A t ff f') (t.answer (stopDepth d) goal g) (stepSeek d (.seeking .nextSibling)) := by
  have hT := h
  generalize ho : d.core.archiveOff = o at h
  cases h with
  | @nextSibling n ns x xs s path y nm s0 r _ hb hcur hg hgoal hd hm hsd hsuf hat =>
    obtain ⟨_, _, _, _, e1, e2, hno⟩ := hcur.stack.head
    injection e1 with e1 _
    injection e2 with e2 _
    subst e1 e2
    have hf := hcur.stack.facts hc
    have hpl := hf.placed n ns rfl
    obtain ⟨m, hm1, hm2⟩ := dirMode_cur hc hcur hd hm
    have hstep : stepSeek d (.seeking .nextSibling) = seekDirRec d .nextSibling := by
      unfold stepSeek
      rw [hm1]
      simp only [hm2, Bool.not_true, Bool.false_eq_true, if_false]
    have hfg : t.find goal = some s0 := by
      rw [← hgoal, find_append hf.find, find_step hf.unique (mem_of_suf hsuf)]; rfl
    have hans : t.answer (stopDepth d) goal g = (match r.listed with
        | x :: _ => .see (.found (path ++ [x.1]) :: (events (path ++ [x.1]) x.2 ++ t.after (stopDepth d) (path ++ [x.1]).reverse).map .seen)
        | [] => .see ((Atom.doneFile path :: t.after (stopDepth d) path.reverse).map .seen)) := by
      rw [hg]
      unfold Tree.answer
      simp only
      rw [if_neg (by rw [← hgoal, List.length_append, List.length_singleton]; omega), hfg, ← hgoal, List.dropLast_concat, hf.find, List.getLast?_concat]
      simp only
      rw [Tree.entries_eq, hsuf.rest (Tree.kids_unique hf.unique).1]
      cases r.listed <;> rfl
    rw [hstep]
    unfold seekDirRec
    rw [hcur.nodes]
    simp only
    rcases hat.next hsuf.tail with ⟨nm2, s2, r2, hs2, hat2, hl2⟩ | ⟨ha2, hl2⟩
    · obtain ⟨hsafe, hpa⟩ := hat2.parse hf.storable hs2 hc.small
      rw [(hb.buf.right (by rw [ho]; exact hpa) .nextSibling (by show Target.nextSibling ≠ .goodbye; simp)), if_neg (by simp)]
      rcases hb.buf.dirRec (by rw [ho]; exact hpa) with ⟨hr, heof⟩ | hr
      · rw [hr]
        simp only
        exact .request heof (.inr (.seeking hmode (by rw [h0]; exact hT)))
      rw [hr]
      simp only [reduceCtorEq, if_false]
      have hsz := (parseDirRec_size hr).2
      have hroom := room hc hcur.stack hs2
      rw [← hcur.nodes] at hroom
      rw [enterChild_ok (d := resetSeek d) hroom]
      simp only
      have hst : ∃ yy, Stack q A t ({ name := some nm2, entryOff := d.core.archiveOff + (17 + nm2.length) } :: n :: ns) ({ endOff := none } :: x :: xs) s2 (path ++ [nm2]) yy :=
        ⟨_, .down (o := o) hcur.stack hd hm rfl (nodeOK_none s2 _ _ none (fun _ h => nomatch h)) hs2 hat2 (by rw [← ho])⟩
      obtain ⟨yy, hst⟩ := hst
      have hff := hst.facts hc
      have hcur' : Cur q A t (sSetStep (setPlain { resetSeek d with
          core := { (resetSeek d).core with nodes := { name := some nm2, entryOff := d.core.archiveOff + (17 + nm2.length) } :: d.core.nodes }
          exts := { endOff := none } :: d.exts, below := [] } .entered) (17 + nm2.length))
          { name := some nm2, entryOff := d.core.archiveOff + (17 + nm2.length) } (n :: ns) { endOff := none } (x :: xs) s2 (path ++ [nm2]) yy := by
        refine ⟨?_, ?_, hst⟩
        · show _ :: d.core.nodes = _; rw [hcur.nodes]
        · show _ :: d.exts = _; rw [hcur.exts]
      rw [hans, hl2]
      refine .found (l' := (events (path ++ [nm2]) s2 ++ t.after (stopDepth d) (path ++ [nm2]).reverse).map SAtom.seen) ?_
        (.inl (POK.mk (own := events (path ++ [nm2]) s2) (hb.only hcur' rfl rfl rfl hb.flags ⟨hb.buf.at_, hsz⟩) rfl hcur' (.enter (.inr rfl) rfl ?_ rfl) rfl))
      · show _ = Answer.see (.found (pathOf ({ name := some nm2, entryOff := d.core.archiveOff + (17 + nm2.length) } :: d.core.nodes)) :: _)
        rw [hcur.nodes, hff.names]
      · show stopDepth d ≤ _
        rw [List.length_append]; omega
    · have hgoff : o = gst q n.entryOff s := drop_inj ha2 (hpl.goodbye hd) (gbytes_ne _ _ _)
      have hpa := hpl.parseGoodbye hd hc.small
      rw [← hgoff] at hpa
      rw [(hb.buf.right (by rw [ho]; exact hpa) .nextSibling (by show Target.nextSibling ≠ .filename; simp)), if_neg (by simp)]
      rcases hb.buf.dirRec (by rw [ho]; exact hpa) with ⟨hr, heof⟩ | hr
      · rw [hr]
        simp only
        exact .request heof (.inr (.seeking hmode (by rw [h0]; exact hT)))
      rw [hr]
      simp only [reduceCtorEq, if_false]
      have hsz := (parseDirRec_size hr).2
      rw [if_neg (by rw [ho]; simp), hpl.rows hd hc.sorts hc.small]
      have hx : setExt d (fun x => { x with goodbye := some (grows q n.entryOff s) }) = { d with exts := { x with goodbye := some (grows q n.entryOff s) } :: xs } := by
        unfold setExt; rw [hcur.exts]
      rw [hx]
      have hb2 := hb.know hc (e := sSetStep (setPlain { d with exts := { x with goodbye := some (grows q n.entryOff s) } :: xs } .goodbye) (gbytes q n.entryOff s).length) hcur (n' := n) hcur.nodes rfl rfl rfl rfl
        { hno with goodbye := fun r hr => ⟨hd, (Option.some.inj hr).symm⟩ } (fun h => h) rfl rfl rfl ⟨hb.buf.at_, hsz⟩
      rw [hans, hl2]
      refine .step (.inl (POK.mk hb2.1 rfl hb2.2 (.goodbye rfl hd ?_) rfl))
      show d.core.archiveOff + (gbytes q n.entryOff s).length = _
      rw [encTree_dir_length hd, ho, hgoff]

/-- The records of an object on the way. -/
theorem entered_good (hc : Ctx q A t ff f') {d : SDec} {g : Goal} {goal : List Bytes} {n : DNode} {ns : List DNode} {x : NX} {xs : List NX} {s : Tree} {path : List Bytes} {y : Bytes} {p : Bytes}
    (h : Hunt q A t ff f' d g goal n ns x xs s path y p) (hmode : d.mode = some .entered) (hi : d.idx = 0) (h0 : d.core.stepSize = 0) (ho : d.core.archiveOff = n.entryOff) (hg : x.goodbye = none) :
    SGood (OK q A t ff f') (t.answer (stopDepth d) goal g) (seekEntry d) := by
  obtain ⟨_, _, _, _, e1, e2, hno⟩ := h.cur.stack.head
  injection e1 with e1 _
  injection e2 with e2 _
  subst e1 e2
  have hf := h.cur.stack.facts hc
  unfold seekEntry
  rw [h.cur.nodes]
  simp only
  rcases entry_read hc (c := d.core) h.cur.stack h.base.flags h.base.buf ho with ⟨f2, h1, h2, h3⟩ | ⟨pp, h1, h2, h3⟩
  · rw [h1]
    simp only
    have hx : ∀ d' : SDec, d'.exts = d.exts → setExt d' (parsedExt none 0) = { d' with exts := parsedExt none 0 x :: xs } := by
      intro d' hd'; unfold setExt; rw [hd', h.cur.exts]
    rw [hx { d with core := { d.core with ff := f2, nodes := { n with parsed := none } :: ns } } rfl]
    have hcur' : Stack q A t ({ n with parsed := none } :: ns) (parsedExt none 0 x :: xs) s path y := h.cur.stack.replace rfl rfl hno.reset
    refine .request h3 (.inr (.entered (g := g) (goal := goal) (n := { n with parsed := none }) (ns := ns) (x := parsedExt none 0 x) (xs := xs) (s := s) (path := path) (y := y) (p := p) hmode ?_ hi ?_ hg))
    · exact {
        base := h.base.only ⟨rfl, rfl, hcur'⟩ h.below rfl rfl h2 ⟨h.base.buf.at_, h.base.buf.size⟩, cur := ⟨rfl, rfl, hcur'⟩
        below := h.below, sub := h.sub, way := h.way, sibling := h.sibling, pay := h.pay, fin := h.fin, tried := h.tried }
    · show d.core.archiveOff + d.core.stepSize = n.entryOff
      rw [h0]; exact ho
  · rw [h1]
    simp only
    have hx : ∀ d' : SDec, d'.exts = d.exts → setExt d' (parsedExt (some pp) (d.core.archiveOff + (headBytes s).length)) = { d' with exts := parsedExt (some pp) (d.core.archiveOff + (headBytes s).length) x :: xs } := by
      intro d' hd'; unfold setExt; rw [hd', h.cur.exts]
    rw [hx { d with core := { d.core with ff := f', nodes := { n with parsed := some pp } :: ns } } rfl]
    have hcur' : Stack q A t ({ n with parsed := some pp } :: ns) (parsedExt (some pp) (d.core.archiveOff + (headBytes s).length) x :: xs) s path y :=
      h.cur.stack.replace rfl rfl (by rw [ho]; exact hno.read hf.storable h2)
    refine (doSeek_good hc (d := { d with core := { d.core with ff := f', nodes := { n with parsed := some pp } :: ns }, exts := parsedExt (some pp) (d.core.archiveOff + (headBytes s).length) x :: xs }) (g := g) (goal := goal) (n := { n with parsed := some pp }) (ns := ns) (x := parsedExt (some pp) (d.core.archiveOff + (headBytes s).length) x) (xs := xs) (s := s) (path := path) (y := y) (p := p) ?_).good
      ⟨rfl, fun hh => by have : x.goodbye.isSome = true := hh; rw [hg] at this; cases this⟩
    exact {
      base := h.base.only ⟨rfl, rfl, hcur'⟩ h.below rfl rfl hc.again ⟨h.base.buf.at_, h.base.buf.size⟩, cur := ⟨rfl, rfl, hcur'⟩
      below := h.below, sub := h.sub, way := h.way, sibling := h.sibling, pay := h.pay, fin := h.fin, tried := h.tried }

/-- All steps of a seek. -/
theorem seek_good (hc : Ctx q A t ff f') {d : SDec} {l : Answer} (h : SeekOK q A t ff f' d l) : SGood (OK q A t ff f') l (sStep d) := by
  have hb := h.base
  have hbuf := hb.buf.advance
  have hstep : ∀ m, d.mode = some m → sStep d = stepSeek { d with core := advance d.core } m := by
    intro m hm
    unfold sStep
    rw [hm]
    simp only
    rw [if_neg (by have := hb.buf.size; omega)]
  cases h with
  | nowhere hb hm =>
    rw [hstep _ hm]
    unfold stepSeek
    exact .notFound rfl (.inr (.nowhere (hb.same rfl rfl rfl rfl rfl rfl hbuf) hm))
  | @prep tg o g goal hm ho hT =>
    rw [hstep _ hm]
    exact prep_good hc (d := { d with core := advance d.core }) (hT.same rfl rfl rfl rfl rfl hbuf rfl rfl rfl rfl rfl) ho
  | @seeking tg g goal hm hT =>
    rw [hstep _ hm]
    have hT' : TargetOK q A t ff f' { d with core := advance d.core } g goal tg ({ d with core := advance d.core } : SDec).core.archiveOff :=
      hT.same rfl rfl rfl rfl rfl hbuf rfl rfl rfl rfl rfl
    cases tg with
    | filename => exact seekingFilename_good hc hT' hm rfl
    | nextSibling => exact seekingSibling_good hc hT' hm rfl
    | payload => exact seekingPayload_good hc hT'
    | entry => exact seekingEntry_good hc hT'
    | goodbye => exact seekingGoodbye_good hc hT' hm rfl
    | goodbyeTail => exact seekingTail_good hc hT' hm rfl
  | @entered g goal n ns x xs s path y p hm hH hi ho hg =>
    rw [hstep _ hm]
    unfold stepSeek
    exact entered_good hc (d := { d with core := advance d.core }) (hH.same rfl rfl rfl rfl rfl hbuf rfl rfl rfl rfl) hm hi rfl ho hg

/-- All steps. -/
theorem all_good (hc : Ctx q A t ff f') {d : SDec} {l : Answer} (h : OK q A t ff f' d l) : SGood (OK q A t ff f') l (sStep d) := by
  rcases h with ⟨r, hr, h⟩ | h
  · rw [hr]; exact (plain_good hc h).mono (fun _ _ h => .inl h)
  · exact seek_good hc h

end Casync.Archive
