import Verif.Lemmas.Os
/-!
Reasoning about complete runs (auxiliary; nothing to trust).
-/
namespace Casync.Os
open Casync

/-- All complete runs of the program from `fs` in which every choice of the environment satisfies `C` end with `Q`. -/
def post {α : Type} (C : Choice → Prop) : Prog α → (α → FS → Prop) → FS → Prop
  | .ret a, Q, fs => Q a fs
  | .call c k, Q, fs => ∀ ch, C ch → post C (k (sem fs c ch).1) Q (sem fs c ch).2

theorem post_bind {α β : Type} {C : Choice → Prop} (P : Prog α) (f : α → Prog β) (Q : β → FS → Prop) (fs : FS)
    (h : post C P (fun a fs => post C (f a) Q fs) fs) : post C (Prog.bind P f) Q fs := by
  induction P generalizing fs with
  | ret a => exact h
  | call c k ih => intro ch hc; exact ih _ _ (h ch hc)

theorem post_mono {α : Type} {C : Choice → Prop} (P : Prog α) {Q Q' : α → FS → Prop} (fs : FS)
    (hq : ∀ a fs, Q a fs → Q' a fs) (h : post C P Q fs) : post C P Q' fs := by
  induction P generalizing fs with
  | ret a => exact hq _ _ h
  | call c k ih => intro ch hc; exact ih _ _ (h ch hc)

theorem post_and {α : Type} {C : Choice → Prop} (P : Prog α) {Q Q' : α → FS → Prop} (fs : FS)
    (h : post C P Q fs) (h' : post C P Q' fs) : post C P (fun a fs => Q a fs ∧ Q' a fs) fs := by
  induction P generalizing fs with
  | ret a => exact ⟨h, h'⟩
  | call c k ih => intro ch hc; exact ih _ _ (h ch hc) (h' ch hc)

theorem post_exec {α : Type} {C : Choice → Prop} (P : Prog α) {Q : α → FS → Prop} (fs : FS) (h : post C P Q fs)
    (env : Nat → Choice) (he : ∀ t, C (env t)) (t : Nat) : Q (exec env t fs P).1 (exec env t fs P).2 := by
  induction P generalizing fs t with
  | ret a => exact h
  | call c k ih => exact ih _ _ (h _ (he t)) (t + 1)

/-- A run without interference, as a statement about complete runs. -/
theorem wp_post {α : Type} {R G : FS → FS → Prop} (hR : ∀ fs, R fs fs) (J : FS → Prop)
    (hJ : ∀ fs fs', J fs → G fs fs' → J fs') (P : Prog α) (Q : α → FS → Prop) (fs : FS) (h : wp R G P Q fs) (h0 : J fs)
    (C : Choice → Prop) : post C P (fun a fs => J fs ∧ Q a fs) fs := by
  induction P generalizing fs with
  | ret a => exact ⟨h0, h⟩
  | call c k ih =>
    intro ch _
    obtain ⟨hg, h'⟩ := h fs (hR fs) ch
    exact ih _ _ h' (hJ _ _ h0 hg)

/-- Complete runs are the runs that are not stopped. -/
theorem exec_runFor {α : Type} (env : Nat → Choice) (P : Prog α) (fs : FS) (t : Nat) :
    ∃ chs, runFor chs fs P = ((exec env t fs P).2, .ret (exec env t fs P).1) := by
  induction P generalizing fs t with
  | ret a => exact ⟨[], rfl⟩
  | call c k ih =>
    obtain ⟨chs, h⟩ := ih (sem fs c (env t)).1 (sem fs c (env t)).2 (t + 1)
    exact ⟨env t :: chs, h⟩

end Casync.Os
