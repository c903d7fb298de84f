import Verif.Lemmas.DecoderSkip
import Verif.Props.Decoder
/-!
C65: listing an archive without reading the content of its files.
-/
namespace Casync.Archive
open Casync Flags

theorem withoutContent_append (a b : List Obs) : withoutContent (a ++ b) = withoutContent a ++ withoutContent b := by
  unfold withoutContent; rw [List.filter_append]

/-- The same end and the same objects, or the archive is too short. -/
def Agree (t : List Obs) (o : Outcome) (u : List Obs) (o' : Outcome) : Prop :=
  o' = o ∧ withoutContent u = withoutContent t ∨ o' = .error .EPIPE

theorem Agree.cons {t u x y : List Obs} {o o' : Outcome} (h : Agree t o u o') (hx : withoutContent y = withoutContent x) :
    Agree (x ++ t) o (y ++ u) o' := by
  rcases h with ⟨h1, h2⟩ | h
  · exact .inl ⟨h1, by rw [withoutContent_append, withoutContent_append, hx, h2]⟩
  · exact .inr h

/-- Where the skipping decoder goes on after it has skipped. -/
def skipped (q : Dec) (k : Nat) : Dec := enterState { q with archiveOff := q.archiveOff + k, skip := 0 } .finalize

theorem Run.read {d : Dec} {ps : List Bytes} {t : List Obs} {o : Outcome} (h : Run d ps t o) :
    (d.state ≠ .skipping → ∃ qs u o', (qs.flatten = ps.flatten ∧ (ps = [] → qs = [])) ∧ Run (want d) qs u o' ∧ Agree t o u o') ∧
    (∀ q k, SkipAt q k → d = enterState (setSkip q k) .skipping →
      ∃ qs u o', (qs.flatten = ps.flatten ∧ (ps = [] → qs = [])) ∧ Run (want (skipped q k)) qs u o' ∧ Agree t o (observe (want (skipped q k)) .doneFile ++ u) o') := by
  induction h with
  | @finished d d' ps a =>
    refine ⟨fun hne => ?_, fun q k hq e => ?_⟩
    · have hb := step_both d hne
      rw [a] at hb
      generalize hw : step (want d) = w at hb
      cases hb with
      | same _ _ => exact ⟨ps, [], .finished, ⟨rfl, id⟩, .finished hw, .inl ⟨rfl, rfl⟩⟩
    · rw [e, hq.skips] at a; cases a
  | @error d d' ps e a =>
    refine ⟨fun hne => ?_, fun q k hq e => ?_⟩
    · have hb := step_both d hne
      rw [a] at hb
      generalize hw : step (want d) = w at hb
      cases hb with
      | same _ _ => exact ⟨ps, [], _, ⟨rfl, id⟩, .error hw, .inl ⟨rfl, rfl⟩⟩
    · rw [e, hq.skips] at a; cases a
  | @crash d d' ps a =>
    refine ⟨fun hne => ?_, fun q k hq e => ?_⟩
    · have hb := step_both d hne
      rw [a] at hb
      generalize hw : step (want d) = w at hb
      cases hb with
      | same _ _ => exact ⟨ps, [], _, ⟨rfl, id⟩, .crash hw, .inl ⟨rfl, rfl⟩⟩
    · rw [e, hq.skips] at a; cases a
  | @go d d' ps ev t o a hev _ ih =>
    refine ⟨fun hne => ?_, fun q k hq e => ?_⟩
    · have hb := step_both d hne
      rw [a] at hb
      generalize hw : step (want d) = w at hb
      cases hb with
      | same h1 _ =>
        obtain ⟨qs, u, o', h2, h3, h4⟩ := ih.1 h1
        exact ⟨qs, observe (want d') ev ++ u, o', h2, .go hw hev h3, h4.cons rfl⟩
      | skip _ => simp at hev
    · rw [e, hq.skips] at a
      injection a with a1 a2
      injection a2 with a2
      subst a1 a2
      obtain ⟨qs, u, o', h2, h3, h4⟩ := ih.1 (by simp [enterState])
      exact ⟨qs, u, o', h2, h3, h4.cons rfl⟩
  | @put d d' d'' p ps t o a hp _ ih =>
    refine ⟨fun hne => ?_, fun q k hq e => ?_⟩
    · have hb := step_both d hne
      rw [a] at hb
      generalize hw : step (want d) = w at hb
      cases hb with
      | same h1 _ =>
        have hp' : putData (want d') p = .ok (want d'') ∧ d''.state = d'.state := by
          unfold putData at hp ⊢
          by_cases c : p = []
          · rw [if_pos c] at hp ⊢; injection hp with hp; rw [hp]; exact ⟨rfl, rfl⟩
          rw [if_neg c] at hp ⊢
          have f : (want d').eof = d'.eof := rfl
          rw [f]
          by_cases c2 : d'.eof = true
          · rw [if_pos c2] at hp; cases hp
          rw [if_neg c2] at hp ⊢; injection hp with hp; rw [← hp]; exact ⟨rfl, rfl⟩
        obtain ⟨qs, u, o', h2, h3, h4⟩ := ih.1 (by rw [hp'.2]; exact h1)
        exact ⟨p :: qs, u, o', ⟨by rw [List.flatten_cons, List.flatten_cons, h2.1], fun e => (by cases e)⟩, .put hw hp'.1 h3, h4⟩
    · rw [e, hq.skips] at a; cases a
  | @putFails d d' p ps e a hp =>
    refine ⟨fun hne => ?_, fun q k hq e => ?_⟩
    · have hb := step_both d hne
      rw [a] at hb
      generalize hw : step (want d) = w at hb
      cases hb with
      | same h1 _ =>
        have hp' : putData (want d') p = .err e := by
          unfold putData at hp ⊢
          by_cases c : p = []
          · rw [if_pos c] at hp; cases hp
          rw [if_neg c] at hp ⊢
          have f : (want d').eof = d'.eof := rfl
          rw [f]
          by_cases c2 : d'.eof = true
          · rw [if_pos c2] at hp ⊢; injection hp with hp; rw [hp]
          · rw [if_neg c2] at hp; cases hp
        exact ⟨p :: ps, [], _, ⟨rfl, id⟩, .putFails hw hp', .inl ⟨rfl, rfl⟩⟩
    · rw [e, hq.skips] at a; cases a
  | @eof d d' t o a he _ ih =>
    refine ⟨fun hne => ?_, fun q k hq e => ?_⟩
    · have hb := step_both d hne
      rw [a] at hb
      generalize hw : step (want d) = w at hb
      cases hb with
      | same h1 _ =>
        obtain ⟨qs, u, o', h2, h3, h4⟩ := ih.1 h1
        have hqs : qs = [] := h2.2 rfl
        subst hqs
        exact ⟨[], u, o', ⟨rfl, fun _ => rfl⟩, .eof hw he h3, h4⟩
    · rw [e, hq.skips] at a; cases a
  | @starved d d' a he =>
    refine ⟨fun hne => ?_, fun q k hq e => ?_⟩
    · have hb := step_both d hne
      rw [a] at hb
      generalize hw : step (want d) = w at hb
      cases hb with
      | same h1 _ => exact ⟨[], [], _, ⟨rfl, id⟩, .starved hw he, .inl ⟨rfl, rfl⟩⟩
    · rw [e, hq.skips] at a; cases a
  | @skip d d' ps t o a _ ih =>
    refine ⟨fun hne => ?_, fun q k hq e => ?_⟩
    · have hb := step_both d hne
      rw [a] at hb
      generalize hw : step (want d) = w at hb
      cases hb with
      | same _ h2 => exact absurd rfl h2
      | @skip q k hq =>
        obtain ⟨qs, u, o', h2, h3, h4⟩ := ih.2 q k hq rfl
        have hf : qs.flatten = ps.flatten.drop k := by rw [h2.1]; exact dropPieces_flatten ps k
        by_cases hl : k ≤ ps.flatten.length
        · have hpl : (ps.flatten.take k).length = k := by rw [List.length_take]; omega
          have hp : ps.flatten.take k ≠ [] := by
            intro e; rw [e] at hpl; have := hq.pos; simp at hpl; omega
          obtain ⟨e1, e2, e3⟩ := hq.takes hp (by omega)
          have e4 := hq.done hpl
          refine ⟨ps.flatten.take k :: qs, [.payload (ps.flatten.take k)] ++ (observe (want (skipped q k)) .doneFile ++ u), o', ?_, ?_, ?_⟩
          · refine ⟨by rw [List.flatten_cons, hf, List.take_append_drop], fun e => ?_⟩
            rw [e] at hl; have := hq.pos; simp at hl; omega
          · rw [← e3]
            exact .put hw e1 (.go e2 (by simp) (.go e4 (by simp) h3))
          · have := h4.cons (x := []) (y := [.payload (ps.flatten.take k)]) rfl
            rw [List.nil_append] at this
            exact this
        · by_cases hx : ps.flatten = []
          · refine ⟨[], [], .error .EPIPE, ⟨by rw [hx]; rfl, fun _ => rfl⟩, ?_, .inr rfl⟩
            obtain ⟨_, s2, d'', s3⟩ := hq.short (d := want q) (by show q.buf.length = q.stepSize; rw [hq.buf, hq.zero]; rfl) hq.state rfl (fun _ => rfl)
              (by show q.payloadOff + q.stepSize < _; rw [hq.zero]; have := hq.pos; omega) (Nat.le_refl _) hq.eof rfl
            rw [advance_id (d := want q) hq.zero] at s2 s3
            exact .eof hw s2 (.error s3)
          · obtain ⟨e1, e2, e3⟩ := hq.takes hx (by omega)
            refine ⟨[ps.flatten], [.payload ps.flatten] ++ [], .error .EPIPE, ⟨by simp, fun e => absurd (by rw [e]; rfl) hx⟩, ?_, .inr rfl⟩
            obtain ⟨s1, s2, d'', s3⟩ := hq.short (d := setStep { want q with buf := ps.flatten } ps.flatten.length) rfl hq.state rfl (fun _ => rfl)
              (by show q.payloadOff + ps.flatten.length < _; omega) (Nat.le_refl _) hq.eof rfl
            rw [← e3]
            exact .put hw e1 (.go e2 (by simp) (.eof s1 s2 (.error s3)))
    · rw [e, hq.skips] at a; cases a

/-- The observation an atom that is not a byte comes from. -/
def Atom.back : Atom → Option Obs
  | .nextFile p e a c => some (.nextFile p e a c)
  | .byte _ => none
  | .doneFile p => some (.doneFile p)

theorem withoutContent_atoms (a : List Obs) : withoutContent a = (atoms a).filterMap Atom.back := by
  induction a with
  | nil => rfl
  | cons x a ih =>
    have e : atoms (x :: a) = x.atoms ++ atoms a := rfl
    rw [e, List.filterMap_append, ← ih]
    cases x with
    | nextFile => rfl
    | payload b =>
      have : (Obs.payload b).atoms.filterMap Atom.back = [] := by
        show (b.map Atom.byte).filterMap Atom.back = []
        rw [List.filterMap_map]
        clear e ih
        induction b with
        | nil => rfl
        | cons c b ih => exact ih
      rw [this]; rfl
    | doneFile => rfl

/-- **C65.** The archive in pieces `ps` is listed by a decoder that does not want the content of files and skips it where it is not in the
buffer already. If another decoder, which reads all of the same archive (cut into pieces in any other way), does not find it too short, the
listing ends in the same way, and it shows the same objects with the same metadata, in the same order. -/
theorem C65_listing (cfg : DCfg) (e m : Word) (ps qs : List Bytes) (hs : ps.flatten = qs.flatten) (t u : List Obs) (o o' : Outcome)
    (hl : Run (start { cfg with wantPayload := false } e m) ps t o) (hr : Run (start { cfg with wantPayload := true } e m) qs u o')
    (hp : o' ≠ .error .EPIPE) : o = o' ∧ withoutContent t = withoutContent u := by
  obtain ⟨vs, v, o2, ⟨h1, _⟩, h2, h3⟩ := hl.read.1 (by simp [start])
  have hw : want (start { cfg with wantPayload := false } e m) = start { cfg with wantPayload := true } e m := rfl
  rw [hw] at h2
  obtain ⟨h4, h5⟩ := C26_feeding_independent { cfg with wantPayload := true } rfl e m vs qs (h1.trans hs) v u o2 o' h2 hr
  have hatoms : ∀ a b : List Obs, atoms a = atoms b → withoutContent a = withoutContent b := by
    intro a b h
    rw [withoutContent_atoms, withoutContent_atoms, h]
  rcases h3 with ⟨h6, h7⟩ | h6
  · exact ⟨h6.symm.trans h5, h7.symm.trans (hatoms v u h4)⟩
  · exact absurd (h5.symm.trans h6) hp

end Casync.Archive
