import Verif.Lemmas.SeekEnd
import Verif.Props.Archive
/-!
C42: seeks in archives.
-/
namespace Casync.Archive
open Casync Flags

variable {q : List Goodbye.NameItem → List Goodbye.NameItem} {A : Bytes} {t : Tree} {ff : Word} {f' : FF}

/-- `A` is the archive of the directory tree `t`, made with the feature flags `ff`. -/
structure IsArchive (q : List Goodbye.NameItem → List Goodbye.NameItem) (ff : Word) (t : Tree) (A : Bytes) : Prop where
  sorts : Goodbye.Sorts q
  normalized : areNormalized ff = .ok true
  storable : Storable ff t
  unique : t.Unique
  dir : t.isDir = true
  height : t.height ≤ 64
  archive : A = encTree q 0 t
  size : A.length < 2 ^ 62

/-- A new decoder for the archive `A`. -/
inductive Opened (ff : Word) (A : Bytes) : SDec → Prop
  | mk (cfg : DCfg) (expected mask mode : Word) : cfg.naked = false → cfg.wantPayload = true → expected = none64 ∨ expected = ff → isType mode ifDir = true →
      Opened ff A (sStart cfg expected mask mode A.length)

theorem good_session (hc : Ctx q A t ff f') {d : SDec} {obs : List SObs} {o : SOutcome} (hr : SRun A d obs o) : ∀ {l : Answer}, OK q A t ff f' d l → Answered l obs o := by
  induction hr with
  | @finished d d' h =>
    intro l hl
    have hg := all_good hc hl
    rw [h] at hg
    cases hg with
    | finished h1 _ => rw [h1]; exact ⟨rfl, rfl⟩
    | see h1 => simp at h1
  | @notFound d d' h =>
    intro l hl
    have hg := all_good hc hl
    rw [h] at hg
    cases hg with
    | notFound h1 _ => rw [h1]; exact ⟨rfl, rfl⟩
  | @error d d' e h =>
    intro l hl
    have hg := all_good hc hl
    rw [h] at hg
    cases hg with
    | refused h1 => rw [h1]; exact ⟨rfl, rfl⟩
  | @crash d d' h =>
    intro l hl
    have hg := all_good hc hl
    rw [h] at hg
    cases hg
  | @go d d' ev tt oo h hev hrest ih =>
    intro l hl
    have hg := all_good hc hl
    rw [h] at hg
    cases hg with
    | request => simp at hev
    | finished => simp at hev
    | step h1 =>
      have := ih h1
      have h0 : (observe d'.core .step).map SObs.seen ++ tt = tt := rfl
      rw [h0]
      exact this
    | @see _ _ l' h1 h2 h3 =>
      obtain ⟨h4, h5⟩ := ih h2
      rw [h3]
      refine ⟨?_, h5⟩
      unfold satoms at h4 ⊢
      rw [List.flatMap_append, h4]
      refine congrArg (· ++ l') ?_
      generalize observe d'.core ev = ob
      induction ob with
      | nil => rfl
      | cons a ob ih2 =>
        rw [List.map_cons, List.flatMap_cons, ih2]
        unfold atoms
        rw [List.flatMap_cons, List.map_append]
        rfl
  | @found d d' tt oo h hrest ih =>
    intro l hl
    have hg := all_good hc hl
    rw [h] at hg
    cases hg with
    | found h1 h2 =>
      obtain ⟨h4, h5⟩ := ih h2
      rw [h1]
      refine ⟨?_, h5⟩
      unfold satoms at h4 ⊢
      rw [List.flatMap_cons, h4]
      rfl
  | @seek d d' tt oo h hrest ih =>
    intro l hl
    have hg := all_good hc hl
    rw [h] at hg
    cases hg with
    | seek h1 => exact ih h1
  | @skip d d' tt oo h hrest ih =>
    intro l hl
    have hg := all_good hc hl
    rw [h] at hg
    cases hg with
    | see h1 => simp at h1
  | @put d d' c p tt oo h hne hp hput hrest ih =>
    intro l hl
    have hg := all_good hc hl
    rw [h] at hg
    cases hg with
    | see h1 => simp at h1
    | request h1 h2 => exact ih (h2.buffer (.put hput) (OK.base h2 |>.buf.put hp hput))
  | @putFails d d' p e h hne hp hput =>
    intro l hl
    have hg := all_good hc hl
    rw [h] at hg
    cases hg with
    | see h1 => simp at h1
    | request h1 h2 =>
      unfold putData at hput
      rw [if_neg hne, if_neg (by rw [h1]; simp)] at hput
      cases hput
  | @eof d d' tt oo h hnil hne hrest ih =>
    intro l hl
    have hg := all_good hc hl
    rw [h] at hg
    cases hg with
    | see h1 => simp at h1
    | request h1 h2 => exact ih (h2.buffer (.eof _) (OK.base h2 |>.buf.putEof hnil))
  | @starved d d' h hnil heof =>
    intro l hl
    have hg := all_good hc hl
    rw [h] at hg
    cases hg with
    | see h1 => simp at h1
    | request h1 h2 => rw [heof] at h1; cases h1

theorem IsArchive.ctx (h : IsArchive q ff t A) {expected mask : Word} (he : expected = none64 ∨ expected = ff) :
    ∃ f', Ctx q A t ff f' ∧ validateFeatureFlags { expected := expected, mask := mask } ff = some f' := by
  obtain ⟨f', h1⟩ := validate_first (m := mask) h.normalized he
  exact ⟨f', ⟨h.sorts, h.archive, h.size, h.storable, h.unique, h.dir, h.height, ((known_iff' ff).2 ((C17_areNormalized_iff ff).1 h.normalized).1), (validateFeatureFlags_again h1).1⟩, h1⟩

/-- A new decoder. -/
theorem sStart_ok (hc : Ctx q A t ff f') {cfg : DCfg} {expected mask mode : Word} (hn : cfg.naked = false) (hw : cfg.wantPayload = true)
    (hv : validateFeatureFlags { expected := expected, mask := mask } ff = some f') (hm : isType mode ifDir = true) :
    OK q A t ff f' (sStart cfg expected mask mode A.length) (.see ((events [] t).map .seen)) := by
  have hst : Stack q A t [{}] [{ mode := some mode, endOff := some A.length }] t [] [] := by
    refine .root rfl rfl ⟨(fun _ h => nomatch h), ?_, ?_, (fun _ h => nomatch h), (fun _ h => nomatch h), (fun _ h => nomatch h), (fun h => nomatch h)⟩
    · intro m h
      injection h with h
      exact ⟨h ▸ hm, hc.dir⟩
    · intro e h
      injection h with h
      rw [← h, ← hc.arch]
      exact (Nat.zero_add _).symm
  have hb : Base q A t ff f' (sStart cfg expected mask mode A.length) :=
    { naked := hn, want := hw, flags := hv, len := rfl, ne := List.cons_ne_nil _ _, full := ⟨t, [], [], hst⟩,
      buf := ⟨⟨A, rfl, (fun h => nomatch h)⟩, Nat.zero_le _⟩ }
  refine .inl (POK.mk (own := events [] t) hb rfl ⟨rfl, rfl, hst⟩ (.enter (.inl rfl) rfl (Nat.zero_le _) rfl) ?_)
  show _ = Answer.see ((events [] t ++ t.after _ []).map SAtom.seen)
  rw [Tree.after, List.append_nil]

theorem SeekRes.base {l : Answer} {ready : Prop} {d : SDec} {r : SDec × Res Bool} (hd : Base q A t ff f' d) (h : SeekRes q A t ff f' l ready d r) : Base q A t ff f' r.1 := by
  cases h with
  | go h => exact h.base
  | gone _ h => exact h.base
  | refused _ => exact hd
  | failed _ => exact hd

theorem SeekRes.ok {l : Answer} {ready : Prop} {d : SDec} {r : SDec × Res Bool} (h : SeekRes q A t ff f' l ready d r) (hr : succeeded r.2 = true) : OK q A t ff f' r.1 l := by
  cases h with
  | go h => exact .inr h
  | gone _ h => exact .inr h
  | refused _ => cases hr
  | failed _ => cases hr

/-- The path of the current object, in writing. -/
theorem current_components (hc : Ctx q A t ff f') {d : SDec} (hb : Base q A t ff f' d) : components (pathString (currentPath d.core)) = currentPath d.core := by
  obtain ⟨s, path, y, h⟩ := hb.cur
  refine components_pathString _ ?_
  intro c hcm
  have : currentPath d.core = path := (h.facts hc).names
  rw [this] at hcm
  have := h.safe hc c hcm
  exact ⟨this.nonempty, this.noSlash⟩

theorem reach_base (hc : Ctx q A t ff f') {d0 d : SDec} {b : Bool} {l0 : Answer} (h0 : OK q A t ff f' d0 l0) (h : SReach A d0 d b) :
    Base q A t ff f' d ∧ (b = true → ∃ l, OK q A t ff f' d l) := by
  induction h with
  | start => exact ⟨h0.base, fun _ => ⟨_, h0⟩⟩
  | @step d d' ev _ hs ih =>
    obtain ⟨l, hl⟩ := ih.2 rfl
    have hg := all_good hc hl
    rw [hs] at hg
    have : ∃ l, OK q A t ff f' d' l := by
      cases hg with
      | request _ h => exact ⟨_, h⟩
      | step h => exact ⟨_, h⟩
      | seek h => exact ⟨_, h⟩
      | see _ h => exact ⟨_, h⟩
      | found _ h => exact ⟨_, h⟩
      | notFound _ h => exact ⟨_, h⟩
      | finished _ h => exact ⟨_, h⟩
    obtain ⟨l', hl'⟩ := this
    exact ⟨hl'.base, fun _ => ⟨l', hl'⟩⟩
  | @put d b p c _ hp hput ih =>
    have hbuf := ih.1.buf.put hp hput
    refine ⟨ih.1.buffer (.put hput) hbuf, fun hb => ?_⟩
    obtain ⟨l, hl⟩ := ih.2 hb
    exact ⟨l, hl.buffer (.put hput) hbuf⟩
  | @eof d b _ hnil ih =>
    have hbuf := ih.1.buf.putEof hnil
    refine ⟨ih.1.buffer (.eof _) hbuf, fun hb => ?_⟩
    obtain ⟨l, hl⟩ := ih.2 hb
    exact ⟨l, hl.buffer (.eof _) hbuf⟩
  | @seekPath d b p d' r _ hs ih =>
    obtain ⟨d1, h1, h2⟩ := seekInternal_good hc ih.1 p .object
    have h2 : SeekRes q A t ff f' _ _ d1 (Archive.seekPath d p) := h2
    rw [hs] at h2
    exact ⟨h2.base h1, fun hb => ⟨_, h2.ok hb⟩⟩
  | @seekPathOffset d b p k d' r _ hs ih =>
    obtain ⟨d1, h1, h2⟩ := seekInternal_good hc ih.1 p (.content k)
    have h2 : SeekRes q A t ff f' _ _ d1 (Archive.seekPathOffset d p k) := h2
    rw [hs] at h2
    exact ⟨h2.base h1, fun hb => ⟨_, h2.ok hb⟩⟩
  | @seekNextSibling d b d' r _ hs ih =>
    obtain ⟨d1, h1, h2⟩ := seekInternal_good hc ih.1 (pathString (currentPath d.core)) .next
    have h2 : SeekRes q A t ff f' _ _ d1 (Archive.seekNextSibling d) := h2
    rw [hs] at h2
    exact ⟨h2.base h1, fun hb => ⟨_, h2.ok hb⟩⟩

theorem opened_reach (ha : IsArchive q ff t A) {d0 d : SDec} {b : Bool} (h0 : Opened ff A d0) (h : SReach A d0 d b) :
    ∃ f', Ctx q A t ff f' ∧ Base q A t ff f' d ∧ (b = true → ∃ l, OK q A t ff f' d l) := by
  cases h0 with
  | mk cfg expected mask mode hn hw he hm =>
    obtain ⟨f', hc, hv⟩ := ha.ctx (mask := mask) he
    exact ⟨f', hc, reach_base hc (sStart_ok hc hn hw hv hm) h⟩

theorem seek_answer (hc : Ctx q A t ff f') {d d' : SDec} (hb : Base q A t ff f' d) {p : Bytes} {g : Goal} {r : Bool}
    (hs : seekInternal d p g.sibling g.pay = (d', .ok r)) {obs : List SObs} {o : SOutcome} (hr : SRun A d' obs o) : Answered (t.answer (stopDepth d) (components p) g) obs o := by
  obtain ⟨d1, h1, h2⟩ := seekInternal_good hc hb p g
  rw [hs] at h2
  exact good_session hc hr (h2.ok rfl)

/-! ### The property -/

/-- **C42.** Seeking to a path.  A decoder for the archive of the tree `t`, whatever has been done with it before, accepts a seek to a path.  If
there is an object with this path in the tree, every session after that reports that it was found, then the object with all that is below it,
nothing else, and ends; if there is none, it says that nothing was found.  (Hashes of names play no role: names of siblings may collide.) -/
theorem C42_seek_path (ha : IsArchive q ff t A) {d0 d d' : SDec} {b r : Bool} (h0 : Opened ff A d0) (hd : SReach A d0 d b) (p : Bytes)
    (hs : seekPath d p = (d', .ok r)) {obs : List SObs} {o : SOutcome} (hr : SRun A d' obs o) :
    (∀ s, t.find (components p) = some s → satoms obs = .found (components p) :: (events (components p) s).map .seen ∧ o = .plain .finished) ∧
    (t.find (components p) = none → obs = [] ∧ o = .notFound) := by
  obtain ⟨f', hc, hb, _⟩ := opened_reach ha h0 hd
  have := seek_answer hc hb (g := .object) hs hr
  unfold Tree.answer at this
  simp only at this
  constructor
  · intro s hf; rw [hf] at this; exact this
  · intro hf; rw [hf] at this; exact this

/-- **C42.** Seeking to a place in the content of a file: the rest of the content is seen, then what comes after the file in the archive up to the
object where the decoder stops (the boundary is not moved).  A place after the end is not found; what is not a regular file gives an error. -/
theorem C42_seek_path_offset (ha : IsArchive q ff t A) {d0 d d' : SDec} {b r : Bool} (h0 : Opened ff A d0) (hd : SReach A d0 d b) (p : Bytes) (k : Nat)
    (hs : seekPathOffset d p k = (d', .ok r)) {obs : List SObs} {o : SOutcome} (hr : SRun A d' obs o) :
    Answered (t.answer (stopDepth d) (components p) (.content k)) obs o := by
  obtain ⟨f', hc, hb, _⟩ := opened_reach ha h0 hd
  exact seek_answer hc hb (g := .content k) hs hr

/-- **C42.** Seeking to the next sibling: the next entry of the directory is found; after the last one the end of the directory is reported; beyond
the object where the decoder stops nothing is found. -/
theorem C42_seek_next_sibling (ha : IsArchive q ff t A) {d0 d d' : SDec} {b r : Bool} (h0 : Opened ff A d0) (hd : SReach A d0 d b)
    (hs : seekNextSibling d = (d', .ok r)) {obs : List SObs} {o : SOutcome} (hr : SRun A d' obs o) :
    Answered (t.answer (stopDepth d) (currentPath d.core) .next) obs o := by
  obtain ⟨f', hc, hb, _⟩ := opened_reach ha h0 hd
  have := seek_answer hc hb (g := .next) (p := pathString (currentPath d.core)) hs hr
  rw [current_components hc hb] at this
  exact this

/-- **C42.** When a seek is told at once that there is nothing (the result is 0), there is nothing. -/
theorem C42_at_once (ha : IsArchive q ff t A) {d0 d d' : SDec} {b : Bool} (h0 : Opened ff A d0) (hd : SReach A d0 d b) (p : Bytes)
    (hs : seekPath d p = (d', .ok false)) : t.find (components p) = none := by
  obtain ⟨f', hc, hb, _⟩ := opened_reach ha h0 hd
  obtain ⟨d1, h1, h2⟩ := seekInternal_good hc hb p .object
  have h2 : SeekRes q A t ff f' _ _ d1 (seekPath d p) := h2
  rw [hs] at h2
  cases h2 with
  | gone h =>
    unfold Tree.answer at h
    simp only at h
    cases hf : t.find (components p) with
    | none => rfl
    | some s => rw [hf] at h; cases h

/-- **C42.** A new decoder accepts every seek to a path. -/
theorem C42_new_decoder_accepts (ha : IsArchive q ff t A) {d0 : SDec} (h0 : Opened ff A d0) (p : Bytes) : ∃ d' r, seekPath d0 p = (d', .ok r) := by
  obtain ⟨f', hc, hb, _⟩ := opened_reach ha h0 .start
  obtain ⟨d1, h1, h2⟩ := seekInternal_good hc hb p .object
  have h2 : SeekRes q A t ff f' _ _ d1 (seekPath d0 p) := h2
  have hready : AllReady d0 := by
    cases h0 with
    | mk cfg expected mask mode hn hw he hm =>
      have ho : openNodes (sStart cfg expected mask mode A.length) = [({}, { mode := some mode, endOff := some A.length })] := rfl
      constructor
      · intro y hy
        rw [ho, List.mem_singleton] at hy
        rw [hy]
        exact ⟨rfl, fun h => nomatch h⟩
      · intro y hy
        rw [ho] at hy
        injection hy with hy
        rw [← hy]
        rfl
  generalize hx : seekPath d0 p = x at h2
  cases h2 with
  | go _ => exact ⟨_, _, rfl⟩
  | gone _ _ => exact ⟨_, _, rfl⟩
  | refused h =>
    unfold Tree.answer at h
    simp only at h
    cases hf : t.find (components p) with
    | none => rw [hf] at h; cases h
    | some s => rw [hf] at h; cases h
  | failed h => exact absurd hready h

/-- **C42.** Without a failed call a session always ends with all seen that is to be seen, with "not found", or, after a seek into what is not a
regular file, with an error: no other error, no crash, and the decoder never asks for data after the end of the archive. -/
theorem C42_sessions_end_well (ha : IsArchive q ff t A) {d0 d : SDec} (h0 : Opened ff A d0) (hd : SReach A d0 d true) {obs : List SObs} {o : SOutcome}
    (hr : SRun A d obs o) : o = .plain .finished ∨ o = .notFound ∨ o = .plain (.error .EUNATCH) := by
  obtain ⟨f', hc, hb, h⟩ := opened_reach ha h0 hd
  obtain ⟨l, hl⟩ := h rfl
  have := good_session hc hr hl
  cases l with
  | see l => exact .inl this.2
  | missing => exact .inr (.inl this.2)
  | notFile => exact .inr (.inr this.2)

/-- **C42.** Without a seek a decoder for an archive with known size shows what other decoders show. -/
theorem C42_without_seek (ha : IsArchive q ff t A) {d0 : SDec} (h0 : Opened ff A d0) {obs : List SObs} {o : SOutcome} (hr : SRun A d0 obs o) :
    satoms obs = (events [] t).map .seen ∧ o = .plain .finished := by
  cases h0 with
  | mk cfg expected mask mode hn hw he hm =>
    obtain ⟨f', hc, hv⟩ := ha.ctx (mask := mask) he
    exact good_session hc hr (sStart_ok hc hn hw hv hm)

/-- **C42.** No session goes on for ever, whatever the user puts, as long as it comes from the archive; and there is one. -/
theorem C42_sessions_terminate (ha : IsArchive q ff t A) {d0 d : SDec} (h0 : Opened ff A d0) (hd : SReach A d0 d true) :
    Terminates A d ∧ ∃ obs o, SRun A d obs o := by
  obtain ⟨f', hc, hb, h⟩ := opened_reach ha h0 hd
  obtain ⟨l, hl⟩ := h rfl
  exact ⟨terminates hc hl, session_exists hc hl⟩

/-- **C42.** All together, for a new decoder: a seek to a path is accepted, the session after it ends, and it shows the object with this path or
says that there is none. -/
theorem C42_seek_new (ha : IsArchive q ff t A) {d0 : SDec} (h0 : Opened ff A d0) (p : Bytes) : ∃ d' r, seekPath d0 p = (d', .ok r) ∧ Terminates A d' ∧
    ∃ obs o, SRun A d' obs o ∧
      match t.find (components p) with
      | some s => satoms obs = .found (components p) :: (events (components p) s).map .seen ∧ o = .plain .finished
      | none => obs = [] ∧ o = .notFound := by
  obtain ⟨d', r, hs⟩ := C42_new_decoder_accepts ha h0 p
  obtain ⟨h1, obs, o, hr⟩ := C42_sessions_terminate ha h0 (.seekPath .start hs)
  refine ⟨d', r, hs, h1, obs, o, hr, ?_⟩
  obtain ⟨a, b⟩ := C42_seek_path ha h0 .start p hs hr
  cases hf : t.find (components p) with
  | some s => exact a s hf
  | none => exact b hf

/-- **C42** is not true of all histories in the strong form "every seek is accepted": after the first step of a new decoder (which can only ask for
data) the decoder has forgotten the mode of the base object, and a seek fails with ENODATA until the ENTRY record of the root has been read. -/
theorem C42_after_first_step_violated (cfg : DCfg) (hn : cfg.naked = false) (expected mask mode : Word) (size : Nat) (p : Bytes) :
    (sStep (sStart cfg expected mask mode size)).2 = .ok (.plain .request) ∧
    (seekPath (sStep (sStart cfg expected mask mode size)).1 p).2 = .err .ENODATA := by
  have hpe : ∀ f root, parseEntry f root [] = (f, .request) := by
    intro f root
    unfold parseEntry
    rw [parseLoop_eq]
    rfl
  have h : sStep (sStart cfg expected mask mode size) =
      ({ sStart cfg expected mask mode size with exts := [{ endOff := some size }] }, .ok (.plain .request)) := by
    obtain ⟨nk, w, dl, b⟩ := cfg
    simp only at hn
    subst hn
    unfold sStep plainStep
    have hb : baseDir (sStart ⟨false, w, dl, b⟩ expected mask mode size) = false := rfl
    simp only [show (sStart ⟨false, w, dl, b⟩ expected mask mode size).mode = none from rfl, hb]
    unfold step
    have h1 : (sStart ⟨false, w, dl, b⟩ expected mask mode size).core = start ⟨false, w, dl, b⟩ expected mask := rfl
    have h2 : stepNode (advance (start ⟨false, w, dl, b⟩ expected mask)) = (start ⟨false, w, dl, b⟩ expected mask, .ok .request) := by
      show stepParse (advance (start ⟨false, w, dl, b⟩ expected mask)) = _
      unfold stepParse
      simp only [show (advance (start ⟨false, w, dl, b⟩ expected mask)).nodes = [{}] from rfl, show (advance (start ⟨false, w, dl, b⟩ expected mask)).buf = [] from rfl, hpe]
      rfl
    rw [h1, h2]
    rfl
  rw [h]
  exact ⟨rfl, rfl⟩

/-- The hypotheses are met: the tree of `Props/Archive.lean`. -/
theorem exIsArchive : IsArchive (fun l => l.mergeSort Goodbye.nameItemLe) exFf exTree (encTree (fun l => l.mergeSort Goodbye.nameItemLe) 0 exTree) where
  sorts := Goodbye.mergeSort_sorts
  normalized := by decide
  storable := exStorable
  unique := ⟨by decide, trivial, trivial, ⟨by decide, trivial⟩, trivial, trivial⟩
  dir := rfl
  height := by decide
  archive := rfl
  size := Nat.lt_of_le_of_lt (encTree_bound _ exTree 0) (by decide)

/-- Seeking to "/c", "a" and "b" in it ("b" is not stored). -/
example : ∃ d0 : SDec, Opened exFf (encTree (fun l => l.mergeSort Goodbye.nameItemLe) 0 exTree) d0 ∧
    exTree.find (components [47, 99]) = some (.dir (exEntry 0x41ed#64) {} false .nil) ∧
    exTree.find (components [97]) = some (.file (exEntry 0x81a4#64) {} false [104, 105]) ∧ exTree.find (components [98]) = none :=
  ⟨_, .mk {} none64 none64 ifDir rfl rfl (.inl rfl) (by decide), rfl, rfl, rfl⟩

example (A : Bytes) (hA : A = encTree (fun l => l.mergeSort Goodbye.nameItemLe) 0 exTree) : ∃ d' r, seekPath (sStart {} none64 none64 ifDir A.length) [97] = (d', .ok r) ∧
    ∃ obs o, SRun A d' obs o ∧ satoms obs = [.found [[97]], .seen (.nextFile [[97]] (exEntry 0x81a4#64) {} (.file 2)), .seen (.byte 104), .seen (.byte 105), .seen (.doneFile [[97]])] ∧
      o = .plain .finished := by
  obtain ⟨d', r, h1, _, obs, o, h2, h3⟩ := C42_seek_new (A := A) (hA ▸ exIsArchive) (d0 := sStart {} none64 none64 ifDir A.length)
    (.mk {} none64 none64 ifDir rfl rfl (.inl rfl) (by decide)) [97]
  have hf : exTree.find (components [97]) = some (.file (exEntry 0x81a4#64) {} false [104, 105]) := rfl
  rw [hf] at h3
  exact ⟨d', r, h1, obs, o, h2, h3.1, h3.2⟩

end Casync.Archive
