import Verif.Lemmas.FuseServe
/-!
A decoder that has lost the mode of the root.
-/
namespace Casync.Fuse
open Casync Flags Archive

variable {q : List Goodbye.NameItem → List Goodbye.NameItem} {A : Bytes} {t : Tree} {ff : Word}

/-- No repo lines.  The mode of the root is not known. -/
def Stuck (d : SDec) : Prop := ∃ n x r, openNodes d = (n, x) :: r ∧ x.endOff ≠ none ∧ sMode n x = none

theorem stuck_seek {d : SDec} (h : Stuck d) (p : Bytes) (s : Bool) (k : Option Nat) : seekInternal d p s k = (d, .err .ENODATA) := by
  obtain ⟨n, x, r, h1, h2, h3⟩ := h
  unfold seekInternal
  rw [h1]
  simp only [if_neg h2, h3]

theorem stuck_with {m : Mount} (size : Option Errno) {f : SDec → SDec × Res Bool} (hf : f m.dec = (m.dec, .err .ENODATA)) :
    ∃ m' e, seekWith m size f = (m', .err e) ∧ m'.dec = m.dec ∧ (e = .ENODATA ∨ e ∈ size.toList) := by
  unfold seekWith
  rw [hf]
  cases m.sized with
  | true => exact ⟨_, _, rfl, rfl, .inl rfl⟩
  | false =>
    cases size with
    | none => exact ⟨_, _, rfl, rfl, .inl rfl⟩
    | some e => exact ⟨m, e, rfl, rfl, .inr (List.mem_singleton.2 rfl)⟩

theorem stuck_serve {m : Mount} (h : Stuck m.dec) {c : Call} (hs : Sensible t c) (size : Option Errno) (es : List Env) :
    ∃ m' e, serve A m c size es = (m', some (.failed e)) ∧ Stuck m'.dec ∧ (e = .ENODATA ∨ e ∈ size.toList) := by
  have key : ∀ p (g : SDec → Reply), ∃ m' e, thenAt (toPath A m p size es) g = (m', some (.failed e)) ∧ Stuck m'.dec ∧ (e = .ENODATA ∨ e ∈ size.toList) := by
    intro p g
    obtain ⟨m', e, h1, h2, h3⟩ := stuck_with (m := m) size (f := (seekPath · p)) (stuck_seek h p false none)
    refine ⟨m', e, ?_, h2 ▸ h, h3⟩
    unfold toPath
    rw [h1]
    rfl
  cases c with
  | getattr p => unfold serve; exact key p _
  | readlink p n => unfold serve; exact key p _
  | «open» p ro => unfold serve; exact key p _
  | getxattr p name n => unfold serve; exact key p _
  | listxattr p n => unfold serve; exact key p _
  | readdir p room =>
    have h' : Stuck (setPayload m false).dec := h
    obtain ⟨m', e, h1, h2, h3⟩ := stuck_with (m := setPayload m false) size (f := (seekPath · p)) (stuck_seek h' p false none)
    refine ⟨m', e, ?_, h2 ▸ h', h3⟩
    unfold serve readdir
    have hr := hs.1
    simp only [if_neg (show ¬ room < 2 by omega), h1]
    rfl
  | read p n off =>
    have h' : Stuck (setPayload m true).dec := h
    obtain ⟨m', e, h1, h2, h3⟩ := stuck_with (m := setPayload m true) size (f := (seekPathOffset · p off)) (stuck_seek h' p false (some off))
    refine ⟨m', e, ?_, h2 ▸ h', h3⟩
    have hof : ¬ off = u64max := by have := hs.2.1; unfold u64max; omega
    unfold serve read
    simp only [if_neg hof, h1]
    rfl

/-- No repo lines.  The decoder after the first piece and a step that asks for more. -/
def halfway (cfg : DCfg) (f' : FF) (size : Nat) (b : Bytes) (m : Option Word) : SDec :=
  { core := { start cfg none64 none64 with ff := f', buf := b }, exts := [{ mode := m, endOff := some size }] }

theorem asks {cfg : DCfg} (hn : cfg.naked = false) {f f' : FF} {size : Nat} {b : Bytes} {mo : Option Word} (hp : parseEntry f true b = (f', .request)) :
    sStep (halfway cfg f size b mo) = (halfway cfg f' size b none, .ok (.plain .request)) := by
  have h1 : advance (halfway cfg f size b mo).core = (halfway cfg f size b mo).core := rfl
  have h2 : stepNode (halfway cfg f size b mo).core = ((halfway cfg f' size b none).core, .ok .request) := by
    have : stepNode (halfway cfg f size b mo).core = stepParse (halfway cfg f size b mo).core := by
      obtain ⟨nk, w, dl, bo⟩ := cfg
      simp only at hn
      subst hn
      rfl
    rw [this]
    unfold stepParse
    simp only [show (halfway cfg f size b mo).core.nodes = [{}] from rfl, show (halfway cfg f size b mo).core.ff = f from rfl, show (halfway cfg f size b mo).core.buf = b from rfl,
      show (([] : List DNode) == []) = true from rfl, hp]
    rfl
  have h3 : step (halfway cfg f size b mo).core = ((halfway cfg f' size b none).core, .ok .request) := by
    unfold step
    rw [if_neg (show ¬ (halfway cfg f size b mo).core.buf.length < (halfway cfg f size b mo).core.stepSize from Nat.not_lt_zero _), h1, h2]
    rfl
  unfold sStep plainStep
  have hb : baseDir (halfway cfg f size b mo) = false := rfl
  simp only [show (halfway cfg f size b mo).mode = none from rfl, hb, Bool.false_eq_true, if_false, h3]
  have h4 : parses (halfway cfg f size b mo).core = true := by
    obtain ⟨nk, w, dl, bo⟩ := cfg
    simp only at hn
    subst hn
    rfl
  unfold noted' moved
  simp only [h4, if_true]
  rfl

end Casync.Fuse
