import Verif.Lemmas.DigestDec
import Verif.Lemmas.DigestMarks
import Verif.Lemmas.DigestPost
import Verif.Props.Archive
/-!
C57: the digests that encoder and decoder compute on the way.
-/
namespace Casync.Archive
open Casync Flags

variable {q : List Goodbye.NameItem → List Goodbye.NameItem} {H : Bytes → Bytes}

/-! ### Sessions exist -/

/-- Every session can be had with questions for digests. -/
theorem DRun.of_run (H : Bytes → Bytes) {d : Dec} {ps : List Bytes} {t : List Obs} {o : Outcome} (hr : Run d ps t o) :
    ∀ (x : DDec) (h : Heard), x.dec = d → ∃ as a, DRun H x h ps t as o a := by
  have st : ∀ {x : DDec} {d' : Dec} {r : Res Ev}, step x.dec = (d', r) → dStep x = ({ x with dec := d', sum := dWrite x.want d' x.sum r }, r) := by
    intro x d' r h
    unfold dStep
    rw [h]
  induction hr with
  | finished hs => intro x h hx; subst hx; exact ⟨_, _, .finished (st hs)⟩
  | error hs => intro x h hx; subst hx; exact ⟨_, _, .error (st hs)⟩
  | crash hs => intro x h hx; subst hx; exact ⟨_, _, .crash (st hs)⟩
  | @go d d' ps ev t o hs hm _ ih =>
    intro x h hx
    subst hx
    obtain ⟨as, a, h'⟩ := ih { x with dec := d', sum := dWrite x.want d' x.sum (.ok ev) } (hearAll h (observe d' ev)) rfl
    exact ⟨_, _, .go (st hs) hm h'⟩
  | @put d d' d'' p ps t o hs hp _ ih =>
    intro x h hx
    subst hx
    obtain ⟨as, a, h'⟩ := ih { { x with dec := d', sum := dWrite x.want d' x.sum (.ok .request) } with dec := d'' } h rfl
    exact ⟨_, _, .put (st hs) hp h'⟩
  | putFails hs hp => intro x h hx; subst hx; exact ⟨_, _, .putFails (st hs) hp⟩
  | @eof d d' t o hs he _ ih =>
    intro x h hx
    subst hx
    obtain ⟨as, a, h'⟩ := ih { { x with dec := d', sum := dWrite x.want d' x.sum (.ok .request) } with dec := putEof d' } h rfl
    exact ⟨_, _, .eof (st hs) he h'⟩
  | starved hs he => intro x h hx; subst hx; exact ⟨_, _, .starved (st hs) he⟩
  | @skip d d' ps t o hs _ ih =>
    intro x h hx
    subst hx
    obtain ⟨as, a, h'⟩ := ih { x with dec := d', sum := dWrite x.want d' x.sum (.ok .skip) } h rfl
    exact ⟨_, _, .skip (st hs) h'⟩

/-- Every archive can be fed to a decoder that is asked for digests, whatever the pieces are. -/
theorem C57_decoder_session_exists (H : Bytes → Bytes) (cfg : DCfg) (e m : Word) (w : Want) (ps : List Bytes) :
    ∃ t as o a, DRun H (dStart cfg e m w) {} ps t as o a := by
  obtain ⟨t, o, h⟩ := C26_session_exists cfg e m ps
  obtain ⟨as, a, h'⟩ := DRun.of_run H h (dStart cfg e m w) {} rfl
  exact ⟨t, as, o, a, h'⟩

/-- As `DRun.of_run`. -/
theorem EDRun.of_run (H : Bytes → Bytes) {sz : Nat → Option Nat} {e : Enc} {b : Bytes} {o : EOutcome} (hr : ERun q sz e b o) :
    ∀ (x : DEnc), x.enc = e → ∃ as a, EDRun H q sz x b as o a := by
  have st : ∀ {x : DEnc} {e' : Enc} {r : Res EEv}, eStep x.enc = (e', r) → ∃ x', x'.enc = e' ∧ eStepD x = (x', r) := by
    intro x e' r h
    cases hx : eStepD x with
    | mk x' r' =>
      have := (eStepD_step hx).1
      rw [h] at this
      injection this with h1 h2
      exact ⟨x', h1.symm, by rw [h2]⟩
  have gt : ∀ {x : DEnc} {k : Option Nat} {e' : Enc} {r : Res Bytes}, getData q x.enc k = (e', r) → ∃ x', x'.enc = e' ∧ getDataD q x k = (x', r) := by
    intro x k e' r h
    cases hx : getDataD q x k with
    | mk x' r' =>
      have := (getDataD_data hx).1
      rw [h] at this
      injection this with h1 h2
      exact ⟨x', h1.symm, by rw [h2]⟩
  induction hr with
  | finished hs => intro x hx; subst hx; obtain ⟨x', h1, h2⟩ := st hs; exact ⟨_, _, .finished h2⟩
  | error hs => intro x hx; subst hx; obtain ⟨x', h1, h2⟩ := st hs; exact ⟨_, _, .error h2⟩
  | crash hs => intro x hx; subst hx; obtain ⟨x', h1, h2⟩ := st hs; exact ⟨_, _, .crash h2⟩
  | done hs _ ih =>
    intro x hx
    subst hx
    obtain ⟨x', h1, h2⟩ := st hs
    obtain ⟨as, a, h⟩ := ih x' h1
    exact ⟨_, _, .done h2 h⟩
  | data hs hm hg _ ih =>
    intro x hx
    subst hx
    obtain ⟨x', h1, h2⟩ := st hs
    subst h1
    obtain ⟨x'', h3, h4⟩ := gt hg
    obtain ⟨as, a, h⟩ := ih x'' h3
    exact ⟨_, _, .data h2 hm h4 h⟩
  | dataError hs hm hg =>
    intro x hx
    subst hx
    obtain ⟨x', h1, h2⟩ := st hs
    subst h1
    obtain ⟨x'', h3, h4⟩ := gt hg
    exact ⟨_, _, .dataError h2 hm h4⟩
  | dataCrash hs hm hg =>
    intro x hx
    subst hx
    obtain ⟨x', h1, h2⟩ := st hs
    subst h1
    obtain ⟨x'', h3, h4⟩ := gt hg
    exact ⟨_, _, .dataCrash h2 hm h4⟩

/-- Every directory tree can be encoded with digests. -/
theorem C57_encoder_session_exists (H : Bytes → Bytes) (hq : Goodbye.Sorts q) (t : Tree) (hd : t.isDir = true) (hh : t.height ≤ 64)
    (sizes : Nat → Option Nat) (hs : Positive sizes) (w : Want) :
    ∃ bytes as a, EDRun H q sizes (eStartD t w) bytes as .finished a := by
  obtain ⟨as, a, h⟩ := EDRun.of_run H (C25_session_exists hq t hd hh sizes hs) (eStartD t w) rfl
  exact ⟨_, as, a, h⟩

/-! ### The digest of the archive -/

/-- **C57.** The digest an encoder gives at its end is that of the bytes it has given out, in whatever sizes they have been read. -/
theorem C57_encoder_archive (t : Tree) (w : Want) (hw : w.archive = true) (sizes : Nat → Option Nat) (bytes : Bytes) (as : List EAsked) (a : Res Bytes)
    (h : EDRun H q sizes (eStartD t w) bytes as .finished a) : a = .ok (H bytes) := by
  have := EDRun.archive h hw rfl
  rwa [show (eStartD t w).sum.archive = [] from rfl, List.nil_append] at this

/-- **C57.** A decoder that has come to the end of an archive, of whatever bytes, gives the digest of those bytes it has read: a beginning of
what it has been fed with.  It depends on neither the cuts nor on what follows. -/
theorem C57_decoder_archive (cfg : DCfg) (hwp : cfg.wantPayload = true) (e m : Word) (w : Want) (hw : w.archive = true) (ps : List Bytes)
    (obs : List Obs) (as : List Asked) (a : Res Bytes) (h : DRun H (dStart cfg e m w) {} ps obs as .finished a) :
    ∃ read rest, ps.flatten = read ++ rest ∧ a = .ok (H read) ∧
      ∀ (ps' : List Bytes) (obs' : List Obs) (as' : List Asked) (o' : Outcome) (a' : Res Bytes), ps'.flatten = ps.flatten →
        DRun H (dStart cfg e m w) {} ps' obs' as' o' a' → o' = .finished ∧ a' = .ok (H read) := by
  obtain ⟨r, c, h1, h2⟩ := DRun.full h (ready_start cfg hwp e m ps) hw
  obtain ⟨h2, h3⟩ := h2 rfl
  rw [show (dStart cfg e m w).sum.archive = [] from rfl, List.nil_append] at h3
  refine ⟨c, r, h2, h3, fun ps' obs' as' o' a' hf h' => ?_⟩
  obtain ⟨r', c', k1, k2⟩ := DRun.full h' (ready_start cfg hwp e m ps') hw
  rw [hf] at k1 k2
  obtain ⟨_, k3⟩ := h1.det k1
  injection k3 with k3 k4
  subst k3 k4
  obtain ⟨k2, k5⟩ := k2 rfl
  rw [show (dStart cfg e m w).sum.archive = [] from rfl, List.nil_append] at k5
  rw [h2] at k2
  exact ⟨rfl, by rw [k5, List.append_cancel_right k2]⟩

/-- **C57.** Encoder and decoder give the same digest of the archive: that of the bytes of the archive.  Nothing that follows the archive
counts. -/
theorem C57_archive_digests (hq : Goodbye.Sorts q) (ff : Word) (hff : areNormalized ff = .ok true) (t : Tree) (ht : Storable ff t) (hd : t.isDir = true)
    (hh : t.height ≤ 64) (sizes : Nat → Option Nat) (hs : Positive sizes) (ew w : Want) (hew : ew.archive = true) (hw : w.archive = true)
    (bytes : Bytes) (eas : List EAsked) (eo : EOutcome) (ea : Res Bytes) (hen : EDRun H q sizes (eStartD t ew) bytes eas eo ea)
    (hl : bytes.length < 2 ^ 62) (cfg : DCfg) (hn : cfg.naked = false) (hwp : cfg.wantPayload = true) (e m : Word) (he : e = none64 ∨ e = ff)
    (ps : List Bytes) (x : Bytes) (hps : ps.flatten = bytes ++ x) (obs : List Obs) (as : List Asked) (o : Outcome) (a : Res Bytes)
    (hr : DRun H (dStart cfg e m w) {} ps obs as o a) :
    eo = .finished ∧ o = .finished ∧ ea = .ok (H bytes) ∧ a = .ok (H bytes) := by
  obtain ⟨h1, h2⟩ := (EDRun.run hen).det (enc_session hq hd hh hs)
  subst h2
  have hea := C57_encoder_archive t ew hew sizes bytes eas ea hen
  subst h1
  obtain ⟨f', hv⟩ := validate_first (m := m) hff he
  obtain ⟨r, c, hb, hfin⟩ := DRun.full hr (ready_start cfg hwp e m ps) hw
  rw [hps] at hb hfin
  obtain ⟨n', _, h⟩ := tree_reach (fresh cfg) q ff ((known_iff' ff).2 ((C17_areNormalized_iff ff).1 hff).1) t { expected := e, mask := m } f' .init {} [] 0 x ht hv
    (.inl ⟨rfl, hn⟩) rfl (.inr hd) ⟨by simpa using hh, Nat.zero_le _⟩ hl
  have hf := h [] (.finished, x) (.finished (s' := enterState (here (fresh cfg) f' .finalize [n'] x (0 + (encTree q 0 t).length)) .eof) rfl)
  rw [List.append_nil] at hf
  obtain ⟨_, b⟩ := hb.det hf
  injection b with b1 b2
  subst b1 b2
  obtain ⟨k1, k2⟩ := hfin rfl
  rw [show (dStart cfg e m w).sum.archive = [] from rfl, List.nil_append] at k2
  refine ⟨rfl, rfl, hea, ?_⟩
  have hc : c = encTree q 0 t := (List.append_cancel_right (show encTree q 0 t ++ r = c ++ r from k1)).symm
  rw [k2, hc]

/-! ### The digests of the objects -/

/-- **C57.** For any tree and any sizes in which the data is read: whenever an encoder reports the end of an object, its answers are the digests of
the content of this object, and of its metadata records and its content; for a directory there is none, and for what has no content none of it. -/
theorem C57_encoder_answers (t : Tree) (w : Want) (sizes : Nat → Option Nat) (bytes : Bytes) (as : List EAsked) (o : EOutcome) (a : Res Bytes)
    (h : EDRun H q sizes (eStartD t w) bytes as o a) : ∀ r ∈ as, r.Right H w := EDRun.right h (EIn.start t w)

/-- **C57.** For any bytes, well-formed or not, and any cuts: whenever a decoder reports the end of an object, its answers are digests of what it
has reported of just this object. -/
theorem C57_decoder_answers (cfg : DCfg) (hn : cfg.naked = false) (hw : cfg.wantPayload = true) (e m : Word) (w : Want) (ps : List Bytes)
    (obs : List Obs) (as : List Asked) (o : Outcome) (a : Res Bytes) (h : DRun H (dStart cfg e m w) {} ps obs as o a) : ∀ r ∈ as, r.Right H w :=
  DRun.right h (DI.start hn hw e m w)

theorem isDir_directory (t : Tree) (h : t.isDir = true) : isDirectory t = true := by
  cases t <;> first | rfl | cases h

/-- **C57.** On the archive of a tree, encoder and decoder give the same answers for the same objects: those of the objects of the tree, each
once, a directory after its entries. -/
theorem C57_digests_agree (hq : Goodbye.Sorts q) (ff : Word) (hff : areNormalized ff = .ok true) (t : Tree) (ht : Storable ff t) (hd : t.isDir = true)
    (hh : t.height ≤ 64) (sizes : Nat → Option Nat) (hs : Positive sizes) (ew w : Want) (he1 : ew.payload = true) (he2 : ew.hardlink = true)
    (hw1 : w.payload = true) (hw2 : w.hardlink = true) (bytes : Bytes) (eas : List EAsked) (eo : EOutcome) (ea : Res Bytes)
    (hen : EDRun H q sizes (eStartD t ew) bytes eas eo ea) (hl : bytes.length < 2 ^ 62) (cfg : DCfg) (hn : cfg.naked = false) (hwp : cfg.wantPayload = true)
    (e m : Word) (he : e = none64 ∨ e = ff) (ps : List Bytes) (x : Bytes) (hps : ps.flatten = bytes ++ x) (obs : List Obs) (as : List Asked) (o : Outcome)
    (a : Res Bytes) (hr : DRun H (dStart cfg e m w) {} ps obs as o a) :
    eas.map (fun r => (r.object, r.payload, r.hardlink)) = (postorder [] t).map (fun y => (some y.2, digestsOf H y.2)) ∧
    as.map (fun r => (r.path, r.mode, r.payload, r.hardlink)) = (postorder [] t).map (fun y => (y.1, some y.2.entry.mode, digestsOf H y.2)) ∧
    as.map (fun r => (r.payload, r.hardlink)) = eas.map (fun r => (r.payload, r.hardlink)) := by
  obtain ⟨h1, h2⟩ := (EDRun.run hen).det (enc_session hq hd hh hs)
  subst h2
  have hob := EDRun.objects hen (EPend.start t ew) (fun t' h => by
    have : t = t' := by simpa [eStartD, eStart, rootTree, freshNode] using h
    rw [← this]; exact isDir_directory t hd) rfl
  have hpend : pending (eStartD t ew).enc = (postorder [] t).map Prod.snd := by
    rw [postorder_post]
    show post t ++ [] = _
    rw [List.append_nil]
  rw [hpend, List.map_map] at hob
  have hright := C57_encoder_answers t ew sizes bytes eas .finished ea hen
  have hE : eas.map (fun r => (r.object, r.payload, r.hardlink)) = (postorder [] t).map (fun y => (some y.2, digestsOf H y.2)) := by
    have e1 : eas.map (fun r => (r.object, r.payload, r.hardlink)) = (eas.map (·.object)).map (fun y => (y, (match y with | some t => digestsOf H t | none => (.ub, .ub)))) := by
      rw [List.map_map]
      apply List.map_congr_left
      intro r hr'
      obtain ⟨t', k1, k2, k3⟩ := hright r hr'
      simp only [Function.comp, k1]
      rw [k2 he1, k3 he2]
      rfl
    rw [e1, hob, List.map_map]
    rfl
  have hD : as.map (fun r => (r.path, r.mode, r.payload, r.hardlink)) = (postorder [] t).map (fun y => (y.1, some y.2.entry.mode, digestsOf H y.2)) := by
    subst h1
    obtain ⟨f', hv⟩ := validate_first (m := m) hff he
    obtain ⟨ms, r, hb, hrow⟩ := DRun.told hr (ready_start cfg hwp e m ps) (DI.start hn hwp e m w).inv hw1 hw2
    rw [hps] at hb
    obtain ⟨n', _, h⟩ := tree_marks (fresh cfg) q ff ((known_iff' ff).2 ((C17_areNormalized_iff ff).1 hff).1) t { expected := e, mask := m } f' .init {} [] 0 x ht hv
      (.inl ⟨rfl, hn⟩) rfl (.inr hd) ⟨by simpa using hh, Nat.zero_le _⟩ hl
    have hf := h [] (.finished, x) (.finished (s' := enterState (here (fresh cfg) f' .finalize [n'] x (0 + (encTree q 0 t).length)) .eof) rfl)
    obtain ⟨b1, _⟩ := hb.det hf
    obtain ⟨pl, hl', htold⟩ := told_tree (H := H) t (pathOf [{}]) (dStart cfg e m w).sum.payload (dStart cfg e m w).sum.hardlink ht
    rw [b1, htold, told, List.append_nil] at hrow
    exact hrow
  refine ⟨hE, hD, ?_⟩
  have f1 : as.map (fun r => (r.payload, r.hardlink)) = (postorder [] t).map (fun y => digestsOf H y.2) := by
    have := congrArg (List.map (fun y : List Bytes × Option Word × Res Bytes × Res Bytes => y.2.2)) hD
    rw [List.map_map, List.map_map] at this
    exact this
  have f2 : eas.map (fun r => (r.payload, r.hardlink)) = (postorder [] t).map (fun y => digestsOf H y.2) := by
    have := congrArg (List.map (fun y : Option Tree × Res Bytes × Res Bytes => y.2)) hE
    rw [List.map_map, List.map_map] at this
    exact this
  rw [f1, f2]

/-! ### Without the payload -/

/-- **C57, violated.** If a user wants the digest for hard links but neither the payload nor its digest, a decoder that has just read the metadata of a
file, and has nothing of the content in its buffer yet, skips the content: its answer for this file does not depend on the content at all.
(src/cadecoder.c:4179 does not look at `want_hardlink_digest` or `want_archive_digest`.) -/
theorem C57_skipped_content_violated (x : DDec) (n : DNode) (rest : List DNode) (p : Parsed) (s : Nat) (hst : x.dec.state = .inPayload)
    (hn : x.dec.nodes = n :: rest) (hp : n.parsed = some p) (hreg : isType p.entry.mode ifReg = true) (hterm : p.term = .payload s)
    (hoff : x.dec.payloadOff = 0) (hs : 0 < s) (hb : x.dec.buf = []) (hz : x.dec.stepSize = 0) (he : x.dec.eof = false)
    (hc : x.dec.cfg.wantPayload = false) (hw : x.want.hardlink = true) (h : Heard) (ps : List Bytes) (t : List Obs) (as : List Asked) (o : Outcome)
    (a : Res Bytes) (hr : DRun H x h ps t as o a) : ∃ r as', as = r :: as' ∧ r.hardlink = .ok (H x.sum.hardlink) := by
  have hadv : advance x.dec = x.dec := by
    unfold advance
    rw [hz, hoff, hb]
    cases hx : x.dec
    rw [hx] at hst hoff hb hz
    simp only at hst hoff hb hz
    subst hst hoff hb hz
    rfl
  have hmode : nodeMode x.dec n = some p.entry.mode := by unfold nodeMode; rw [hp]
  have hsize : nodeSize n = some s := by unfold nodeSize; rw [hp]; simp only [hterm]
  have hstep : step x.dec = (enterState (setSkip x.dec (s - x.dec.payloadOff)) .skipping, .ok .skip) := by
    unfold step
    rw [if_neg (by rw [hst]; simp), if_neg (by rw [hz, hb]; simp), hadv]
    unfold stepNode
    rw [hst]
    simp only
    unfold stepPayload
    rw [hn]
    simp only [hmode, hreg, hsize, pastEnd, hoff, hb, he, hc]
    simp [show ¬ s = 0 by omega]
  have h1 : dStep x = ({ x with dec := enterState (setSkip x.dec (s - x.dec.payloadOff)) .skipping }, .ok .skip) := by
    unfold dStep
    rw [hstep]
    rfl
  generalize hx1 : ({ x with dec := enterState (setSkip x.dec (s - x.dec.payloadOff)) .skipping } : DDec) = x1 at h1
  have hstep2 : ∃ d2, step x1.dec = (d2, .ok .doneFile) ∧ d2.state = .finalize ∧ d2.nodes = n :: rest := by
    subst hx1
    refine ⟨(stepNode (advance (enterState (setSkip x.dec (s - x.dec.payloadOff)) .skipping))).1, ?_, rfl, hn⟩
    unfold step
    rw [if_neg (by simp [enterState]), if_neg (by simp [enterState, setSkip, hb, hz])]
    rfl
  obtain ⟨d2, k1, k2, k3⟩ := hstep2
  have h2 : dStep x1 = ({ x1 with dec := d2 }, .ok .doneFile) := by
    unfold dStep
    rw [k1]
    rfl
  have hw1 : x1.want = x.want ∧ x1.sum = x.sum := by subst hx1; exact ⟨rfl, rfl⟩
  have key : ∀ {ps t as}, DRun H x1 h ps t as o a → ∃ r as', as = r :: as' ∧ r.hardlink = .ok (H x.sum.hardlink) := by
    intro ps t as hr
    cases hr with
    | finished hh => rw [h2] at hh; cases hh
    | error hh => rw [h2] at hh; cases hh
    | crash hh => rw [h2] at hh; cases hh
    | put hh => rw [h2] at hh; cases hh
    | putFails hh => rw [h2] at hh; cases hh
    | eof hh => rw [h2] at hh; cases hh
    | starved hh => rw [h2] at hh; cases hh
    | skip hh => rw [h2] at hh; cases hh
    | go hh =>
      rw [h2] at hh
      injection hh with g1 g2
      injection g2 with g2
      subst g1 g2
      refine ⟨_, _, rfl, ?_⟩
      have hm : nodeMode d2 n = some p.entry.mode := by unfold nodeMode; rw [hp]
      show dHardlink H { x1 with dec := d2 } = _
      unfold dHardlink
      simp only [hw1.1, hw, k2, k3, hm, hw1.2, isType_excl (b := ifDir) hreg (by decide)]
      rfl
  cases hr with
  | finished hh => rw [h1] at hh; cases hh
  | error hh => rw [h1] at hh; cases hh
  | crash hh => rw [h1] at hh; cases hh
  | put hh => rw [h1] at hh; cases hh
  | putFails hh => rw [h1] at hh; cases hh
  | eof hh => rw [h1] at hh; cases hh
  | starved hh => rw [h1] at hh; cases hh
  | go hh hm => rw [h1] at hh; injection hh with g1 g2; injection g2 with g2; subst g2; simp at hm
  | skip hh hr' =>
    rw [h1] at hh
    injection hh with g1
    subst g1
    exact key hr'

/-! ### Examples -/

/-- The hypotheses of the theorems are met. -/
example : ∃ bytes as a, EDRun (fun b => b.reverse) (fun l => l.mergeSort Goodbye.nameItemLe) (fun _ => some 3) (eStartD exTree ⟨true, true, true⟩) bytes as .finished a :=
  C57_encoder_session_exists _ Goodbye.mergeSort_sorts exTree rfl (by decide) _ (by intro i s h; injection h with h; omega) _

/-- What the answers are for `exTree`: a directory after its entries, "b" left out. -/
example : (postorder [] exTree).map (fun y => (y.1, digestsOf (fun b => b) y.2)) =
    [([[97]], (.ok [104, 105], .ok (headBytes (.file (exEntry 0x81a4#64) {} false [104, 105]) ++ [104, 105]))),
     ([[99]], (.err .ENOTTY, .err .EISDIR)),
     ([[100]], (.err .ENOTTY, .ok (headBytes (.symlink (exEntry 0xa1ff#64) {} [97])))),
     ([], (.err .ENOTTY, .err .EISDIR))] := by decide +kernel

/-- A state to which `C57_skipped_content_violated` applies. -/
example : ∃ (x : DDec) (n : DNode) (p : Parsed), x.dec.state = .inPayload ∧ x.dec.nodes = [n] ∧ n.parsed = some p ∧ isType p.entry.mode ifReg = true ∧
    p.term = .payload 2 ∧ x.dec.payloadOff = 0 ∧ x.dec.buf = [] ∧ x.dec.stepSize = 0 ∧ x.dec.eof = false ∧ x.dec.cfg.wantPayload = false ∧ x.want.hardlink = true :=
  ⟨{ dec := enterState { start { wantPayload := false } none64 none64 with nodes := [{ parsed := some ⟨exEntry 0x81a4#64, {}, .payload 2⟩ }] } .inPayload, want := ⟨false, false, true⟩ },
    _, _, rfl, rfl, rfl, by decide, rfl, rfl, rfl, rfl, rfl, rfl, rfl⟩

end Casync.Archive
