import Verif.Lemmas.FuseEnds
import Verif.Lemmas.FuseStuck
/-!
**C54**: a mounted archive shows the archived tree.
-/
namespace Casync.Fuse
open Casync Flags Archive

variable {q : List Goodbye.NameItem → List Goodbye.NameItem} {A : Bytes} {t : Tree} {ff : Word}

/-- The errors of a seek that is refused. -/
def Refusals : List Errno := [.EUNATCH, .ESPIPE, .ENODATA, .EBADMSG]

theorem serve_all {f' : FF} (hc : Ctx q A t ff f') (hrep : normalize (normalizeMask ff) = .ok f'.replay) {m : Mount} (hz : Base q A t ff f' (on m.dec)) {c : Call} (hs : Sensible t c)
    (size : Option Errno) (es : List Env) : Served q A t ff f' (Base q A t ff f') (fun _ _ e => e ∈ [Errno.EUNATCH, .ESPIPE, .ENODATA, .EBADMSG]) c size es (serve A m c size es) :=
  serve_good hc hrep (sys_ok hc) trivial trivial (fun _ _ h _ => h) (sys_ok hc) (fun _ => trivial) (fun _ _ h => h) hz hs size es

theorem history_base (ha : IsArchive q ff t A) {m0 m : Mount} {b : Bool} (h0 : Mounted ff A m0) (h : History A t m0 m b) :
    ∃ f', Ctx q A t ff f' ∧ normalize (normalizeMask ff) = .ok f'.replay ∧ Base q A t ff f' (on m.dec) := by
  obtain ⟨f', hc, hrep, hb⟩ := mounted_start ha h0
  refine ⟨f', hc, hrep, ?_⟩
  induction h with
  | start => exact hb
  | @call m b c size es m' r _ hs hr ih =>
    have := serve_all hc hrep ih hs size es
    rw [hr] at this
    cases this with
    | right _ h => exact h
    | failed _ h => exact h
    | refused _ h => exact h

/-- **C54.** Nothing wrong is ever shown.  For every archive of a tree, every history of calls (with any failures in between) and every call a kernel makes, whatever
the pieces in which the archive arrives: if the call ends, its answer is what the tree has at this path (`ENOENT` if there is nothing), or an error that was
met during this call, or the error of a seek that was refused.  It never crashes. -/
theorem C54_right_or_error (ha : IsArchive q ff t A) {m0 m m' : Mount} {b : Bool} (h0 : Mounted ff A m0) (h : History A t m0 m b) {c : Call} (hs : Sensible t c) {size : Option Errno}
    {es : List Env} {r : Reply} (hr : serve A m c size es = (m', some r)) : Right t c r ∨ ∃ e, r = .failed e ∧ (e ∈ errors size es ∨ e ∈ Refusals) := by
  obtain ⟨f', hc, hrep, hb⟩ := history_base ha h0 h
  have := serve_all hc hrep hb hs size es
  rw [hr] at this
  cases this with
  | right h _ => exact .inl h
  | @failed _ e h _ => exact .inr ⟨e, rfl, .inl h⟩
  | @refused _ e h _ =>
    refine .inr ⟨e, rfl, .inr ?_⟩
    rcases h with ⟨_, _, _, _, h⟩ | ⟨_, _, _, h⟩ <;> exact h

/-- **C54.** The file system can be mounted: with a source that delivers the feature flags are found. -/
theorem C54_mounts (ha : IsArchive q ff t A) (cfg : DCfg) (hn : cfg.naked = false) {expected : Word} (he : expected = none64 ∨ expected = ff) {mode : Word} (hd : isType mode ifDir = true) (f : Nat → Nat) :
    ∃ k m, warmUp A (delivers f k) { dec := sStart cfg expected none64 mode A.length } = (m, some (.ok ())) ∧ Mounted ff A m := by
  obtain ⟨f', hc, hv⟩ := ha.ctx (mask := none64) he
  have hrep := replay_of hv
  have h0 := sStart_ok hc (cfg := { cfg with wantPayload := true }) (mask := none64) hn rfl hv hd
  obtain ⟨k, m, h⟩ := warmUp_ends hc hrep (sys_ok hc) (terminates hc h0) (m := { dec := sStart cfg expected none64 mode A.length }) rfl (.inl ⟨h0, rfl⟩) f
  exact ⟨k, m, h, .mk cfg expected mode _ hn he hd h⟩

/-- **C54.** Every call comes to an end if the source of the archive delivers what is asked for, in pieces of any sizes. -/
theorem C54_calls_end (ha : IsArchive q ff t A) {m0 m : Mount} {b : Bool} (h0 : Mounted ff A m0) (h : History A t m0 m b) {c : Call} (hs : Sensible t c) (size : Option Errno) (f : Nat → Nat) :
    ∃ k m' r, serve A m c size (delivers f k) = (m', some r) := by
  obtain ⟨f', hc, hrep, hb⟩ := history_base ha h0 h
  exact serve_ends hc hrep (sys_ok hc) (fun _ _ h => h) (fun _ => trivial) hb hs size f

/-- **C54** is not true of all sources in the strong form "what was mounted can be used": if the first piece of the archive has the ENTRY record of the root and
nothing more, mounting succeeds, since the feature flags are known then, but the root has lost its mode and every call fails with `ENODATA` for ever. -/
theorem C54_first_piece_violated (ha : IsArchive q ff t A) : ∃ m0, Mounted ff A m0 ∧ ∀ {m m' b c size es r}, History A t m0 m b → Sensible t c → serve A m c size es = (m', some r) →
    r = .failed .ENODATA ∨ ∃ e, size = some e ∧ r = .failed e := by
  obtain ⟨f', hc, hv⟩ := ha.ctx (expected := none64) (mask := none64) (.inl rfl)
  have hst := hc.storable
  obtain ⟨e, a, api, kids, ht⟩ : ∃ e a api kids, t = .dir e a api kids := by
    have := hc.dir
    cases t with
    | dir e a api k => exact ⟨e, a, api, k, rfl⟩
    | _ => cases this
  have hA : ∃ x, A = entryBytes e ++ x := by
    rw [hc.arch, ht]
    cases api with
    | true =>
      rw [encTree]
      generalize goodbyeBytes _ _ = g
      exact ⟨attrsBytes a ++ (tailBytes (.dir e a true kids) ++ g), by unfold headBytes; simp only [List.append_assoc]; rfl⟩
    | false =>
      rw [encTree]
      generalize goodbyeBytes _ _ = g
      generalize encKids _ _ _ = k
      exact ⟨attrsBytes a ++ (tailBytes (.dir e a false kids) ++ (k.1 ++ g)), by unfold headBytes; simp only [List.append_assoc]; rfl⟩
  obtain ⟨x, hA⟩ := hA
  have hobj : ObjOK ff e a ∧ TypeOK ff e.mode := by
    rw [ht, Storable] at hst
    exact ⟨hst.1, by unfold TypeOK; exact .inr (.inl hst.2.1)⟩
  have hpe : ∀ f, parseEntry f true [] = (f, .request) := by
    intro f
    unfold parseEntry
    rw [parseLoop_eq]
    rfl
  have hp2 : parseEntry { expected := none64, mask := none64 } true (entryBytes e) = (f', .request) := by
    unfold parseEntry
    rw [show entryBytes e = entryBytes e ++ [] from (List.append_nil _).symm, parse_entry hobj.1.entry hobj.2 hv hc.known, parseLoop_eq]
    rfl
  have hl : (entryBytes e).length = 64 := entryBytes_length e
  let m0 : Mount := { dec := halfway {} f' A.length (entryBytes e) none }
  have hf : f'.ff ≠ none64 := by
    intro h
    have h1 := hc.again
    rw [(validateFeatureFlags_again hc.again).2.1] at h
    unfold validateFeatureFlags at h1
    rw [h, if_pos (by decide)] at h1
    cases h1
  have hw : warmUp A [.run (.bytes 63), .run .later] { dec := sStart {} none64 none64 ifDir A.length } = (m0, some (.ok ())) := by
    have hs1 := asks (cfg := {}) rfl (size := A.length) (mo := some ifDir) (hpe { expected := none64, mask := none64 })
    have hs2 := asks (cfg := {}) rfl (size := A.length) (mo := none) hp2
    have he : sStart {} none64 none64 ifDir A.length = halfway {} { expected := none64, mask := none64 } A.length [] (some ifDir) := rfl
    have hdr : (A.drop (requestOffset (halfway {} { expected := none64, mask := none64 } A.length [] none))).take (63 + 1) = entryBytes e := by
      show (A.drop 0).take 64 = _
      rw [List.drop_zero, hA, ← hl, List.take_left]
    have hne : entryBytes e ≠ [] := by intro h; rw [h] at hl; cases hl
    have hy1 : sync A { dec := sStart {} none64 none64 ifDir A.length } (.run (.bytes 63)) =
        ({ dec := halfway {} { expected := none64, mask := none64 } A.length (entryBytes e) none }, .ok .go) := by
      unfold sync
      simp only [Bool.false_eq_true, if_false, he, hs1]
      unfold feed put
      simp only [hdr, if_neg hne]
      unfold putData
      rw [if_neg hne]
      rfl
    have hy2 : sync A { dec := halfway {} { expected := none64, mask := none64 } A.length (entryBytes e) none } (.run .later) = (m0, .ok .go) := by
      unfold sync
      simp only [Bool.false_eq_true, if_false, hs2]
      rfl
    rw [warmUp.eq_def]
    simp only [hy1]
    rw [if_neg (by simp [sStart, start, setArchiveSize]), warmUp.eq_def]
    simp only [hy2]
    rw [if_neg (by simp [halfway]), warmUp.eq_def]
    simp only
    rw [if_pos (show m0.dec.core.ff.ff ≠ none64 from hf)]
  have h0 : Stuck m0.dec := ⟨_, _, _, rfl, by simp, rfl⟩
  refine ⟨m0, .mk {} none64 ifDir _ rfl (.inl rfl) (by decide) hw, ?_⟩
  intro m m' b c size es r hh hs hr
  have hm : Stuck m.dec := by
    clear hr hs
    induction hh with
    | start => exact h0
    | @call m b c size es m' r _ hs hr ih =>
      obtain ⟨m2, e2, h1, h2, _⟩ := stuck_serve (A := A) ih hs size es
      rw [hr] at h1
      injection h1 with h1
      rw [h1]
      exact h2
  obtain ⟨m2, e2, h1, h2, h3⟩ := stuck_serve (A := A) hm hs size es
  rw [hr] at h1
  injection h1 with _ h1
  injection h1 with h1
  rcases h3 with h3 | h3
  · exact .inl (h3 ▸ h1)
  · refine .inr ⟨e2, ?_, h1⟩
    cases size with
    | none => cases h3
    | some e => rw [List.mem_singleton.1 h3]

theorem delivers_errors (f : Nat → Nat) (k : Nat) : errors none (delivers f k) = [] := by
  show (delivers f k).flatMap Env.errs = []
  induction k generalizing f with
  | zero => rfl
  | succ k ih => rw [delivers, List.flatMap_cons, ih]; rfl

/-- The hypotheses are met: the archive of `exTree` arrives byte by byte, its root is listed, then "a" is read. -/
example : ∃ (A : Bytes) (m0 m m' : Mount) (es : List Env) (r : Reply), IsArchive (fun l => l.mergeSort Goodbye.nameItemLe) exFf exTree A ∧ Mounted exFf A m0 ∧ History A exTree m0 m true ∧
    Sensible exTree (.read [97] 5 1) ∧ serve A m (.read [97] 5 1) none es = (m', some r) := by
  have h := exIsArchive
  generalize encTree (fun l => l.mergeSort Goodbye.nameItemLe) 0 exTree = A at h
  obtain ⟨_, m0, _, h0⟩ := C54_mounts h {} rfl (.inl rfl) (mode := ifDir) (by decide) (fun _ => 0)
  have hs1 : Sensible exTree (.readdir [47] 10) := ⟨by decide, fun s hf => by injection hf with hf; exact ⟨_, _, _, _, hf.symm⟩⟩
  have hs2 : Sensible exTree (.read [97] 5 1) := ⟨by decide, by decide, fun s hf => by injection hf with hf; exact ⟨_, _, _, _, hf.symm⟩⟩
  obtain ⟨k, m1, r1, h1⟩ := C54_calls_end h h0 .start hs1 none (fun _ => 0)
  have hh := History.call .start hs1 h1
  rw [delivers_errors] at hh
  obtain ⟨k2, m2, r2, h2⟩ := C54_calls_end h h0 hh hs2 none (fun _ => 0)
  exact ⟨A, m0, m1, m2, _, r2, h, h0, hh, hs2, h2⟩

end Casync.Fuse
