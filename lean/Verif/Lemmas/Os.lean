import Verif.Model.Os
/-!
Rely/guarantee reasoning about programs over system calls (auxiliary; nothing to trust).
-/
namespace Casync.Os
open Casync

/-- All executions of the program from `fs`, with interference `R` before each system call, make only steps in `G` and
end with `Q`. -/
def wp {α : Type} (R G : FS → FS → Prop) : Prog α → (α → FS → Prop) → FS → Prop
  | .ret a, Q, fs => Q a fs
  | .call c k, Q, fs => ∀ f1, R fs f1 → ∀ ch, G f1 (sem f1 c ch).2 ∧ wp R G (k (sem f1 c ch).1) Q (sem f1 c ch).2

theorem wp_bind {α β : Type} {R G : FS → FS → Prop} (P : Prog α) (f : α → Prog β) (Q : β → FS → Prop) (fs : FS)
    (h : wp R G P (fun a fs => wp R G (f a) Q fs) fs) : wp R G (Prog.bind P f) Q fs := by
  induction P generalizing fs with
  | ret a => exact h
  | call c k ih =>
    intro f1 h1 ch
    obtain ⟨hg, h'⟩ := h f1 h1 ch
    exact ⟨hg, ih _ _ h'⟩

theorem wp_mono {α : Type} {R G : FS → FS → Prop} (P : Prog α) {Q Q' : α → FS → Prop} (fs : FS)
    (hq : ∀ a fs, Q a fs → Q' a fs) (h : wp R G P Q fs) : wp R G P Q' fs := by
  induction P generalizing fs with
  | ret a => exact hq _ _ h
  | call c k ih =>
    intro f1 h1 ch
    obtain ⟨hg, h'⟩ := h f1 h1 ch
    exact ⟨hg, ih _ _ h'⟩

/-- A run without interference: every intermediate step is in `G`, related by an invariant `J`. -/
theorem wp_runFor {α : Type} {R G : FS → FS → Prop} (hR : ∀ fs, R fs fs) (J : FS → Prop)
    (hJ : ∀ fs fs', J fs → G fs fs' → J fs') (P : Prog α) (Q : α → FS → Prop) (fs : FS) (h : wp R G P Q fs) (h0 : J fs)
    (chs : List Choice) (fs' : FS) (P' : Prog α) (hr : runFor chs fs P = (fs', P')) :
    J fs' ∧ (∀ a, P' = .ret a → Q a fs') := by
  induction chs generalizing fs P with
  | nil =>
    cases hr
    refine ⟨h0, ?_⟩
    intro a ha; subst ha; exact h
  | cons ch chs ih =>
    cases P with
    | ret a =>
      cases hr
      refine ⟨h0, ?_⟩
      intro b hb; cases hb; exact h
    | call c k =>
      obtain ⟨hg, h'⟩ := h fs (hR fs) ch
      exact ih _ _ h' (hJ _ _ h0 hg) hr

/-- A run with interference. -/
theorem wp_runWith {α : Type} {R G : FS → FS → Prop} (J : FS → Prop)
    (hJ : ∀ fs fs', J fs → G fs fs' → J fs') (hJR : ∀ fs fs', J fs → R fs fs' → J fs')
    (hRt : ∀ a b c, R a b → R b c → R a c)
    (P : Prog α) (Q : α → FS → Prop) (fs : FS) (h : wp R G P Q fs) (h0 : J fs)
    (l : List (Choice × (FS → FS))) (hl : ∀ x ∈ l, ∀ fs, R fs (x.2 fs)) (fs' : FS) (P' : Prog α)
    (hr : runWith l fs P = (fs', P')) : J fs' := by
  have _ := hRt
  induction l generalizing fs P with
  | nil => cases hr; exact h0
  | cons x l ih =>
    obtain ⟨ch, f⟩ := x
    have hf := hl (ch, f) List.mem_cons_self fs
    have hl' : ∀ x ∈ l, ∀ fs, R fs (x.2 fs) := fun x hx => hl x (List.mem_cons_of_mem _ hx)
    cases P with
    | ret a =>
      -- nothing of ours runs any more
      have : ∀ (l : List (Choice × (FS → FS))), (∀ x ∈ l, ∀ fs, R fs (x.2 fs)) → ∀ fs, J fs →
          J (runWith l fs (Prog.ret a)).1 := by
        intro l
        induction l with
        | nil => intro _ fs h; exact h
        | cons y l ih2 =>
          intro hl fs h
          exact ih2 (fun x hx => hl x (List.mem_cons_of_mem _ hx)) _ (hJR _ _ h (hl y List.mem_cons_self fs))
      have h2 := this ((ch, f) :: l) hl fs h0
      rw [hr] at h2; exact h2
    | call c k =>
      obtain ⟨hg, h'⟩ := h (f fs) hf ch
      exact ih _ _ h' (hJ _ _ (hJR _ _ h0 hf) hg) hl' hr

end Casync.Os
