import Verif.Lemmas.FuseList
/-!
All calls, and the start.
-/
namespace Casync.Fuse
open Casync Flags Archive

variable {q : List Goodbye.NameItem → List Goodbye.NameItem} {A : Bytes} {t : Tree} {ff : Word} {f' : FF} {Z : SDec → Prop} {K N K2 N2 : SDec → Answer → Prop}
  {G G2 : Goal → Prop} {Ref : Bytes → Goal → Errno → Prop}

/-- The seeks a call makes. -/
def RefCall (t : Tree) (Ref : Bytes → Goal → Errno → Prop) (c : Call) (e : Errno) : Prop :=
  (∃ p g, components p = c.path ∧ (g = .object ∨ ∃ k, g = .content k) ∧ Ref p g e) ∨ ∃ p s, t.find (components p) = some s ∧ Ref p .next e

/-- The result of a call. -/
inductive Served (q : List Goodbye.NameItem → List Goodbye.NameItem) (A : Bytes) (t : Tree) (ff : Word) (f' : FF) (Z : SDec → Prop) (Ref : Bytes → Goal → Errno → Prop) (c : Call)
    (size : Option Errno) (es : List Env) : Mount × Option Reply → Prop
  | running {m} : Served q A t ff f' Z Ref c size es (m, none)
  | right {m r} : Right t c r → Z (on m.dec) → Served q A t ff f' Z Ref c size es (m, some r)
  | failed {m e} : e ∈ errors size es → Base q A t ff f' (on m.dec) → Served q A t ff f' Z Ref c size es (m, some (.failed e))
  | refused {m e} : RefCall t Ref c e → Z (on m.dec) → Served q A t ff f' Z Ref c size es (m, some (.failed e))

theorem errors_left {size : Option Errno} {es : List Env} {e : Errno} (h : e ∈ size.toList) : e ∈ errors size es := List.mem_append_left _ h
theorem errors_right {size : Option Errno} {es : List Env} {e : Errno} (h : e ∈ es.flatMap Env.errs) : e ∈ errors size es := List.mem_append_right _ h

theorem thenAt_good (S : Sys q A t ff f' Z K N G Ref) {c : Call} {p : Bytes} (hp : c.path = components p) {size : Option Errno} {es : List Env} {r : Mount × Option (Res Unit)}
    (h : ToPath q A t ff f' Z (components p) es (fun e => e ∈ size.toList ∨ Ref p .object e) r) {f : SDec → Reply}
    (hf : ∀ d s, t.find (components p) = some s → Sees d (components p) s → RightFor s c (f d)) : Served q A t ff f' Z Ref c size es (thenAt r f) := by
  cases h with
  | looked h =>
    cases h with
    | running => exact .running
    | failed h1 h2 => exact .failed (errors_right h1) h2
    | missing h1 h2 =>
      refine .right ?_ h2
      unfold Right
      rw [hp, h1]
    | @there m s h1 h2 h3 =>
      refine .right ?_ h3
      unfold Right
      rw [hp, h1]
      exact hf _ _ h1 h2
  | refused h1 h2 =>
    rcases h1 with h1 | h1
    · exact .failed (errors_left h1) (S.base h2)
    · exact .refused (.inl ⟨p, .object, hp.symm, .inl rfl, h1⟩) h2

theorem serve_good (hc : Ctx q A t ff f') (hrep : normalize (normalizeMask ff) = .ok f'.replay) (S : Sys q A t ff f' Z K N G Ref) (hG1 : G .object) (hG2 : G .next)
    (hN : ∀ d l, N d l → DirRest t l → K d l) (S2 : Sys q A t ff f' Z K2 N2 G2 Ref) (hG3 : ∀ k, G2 (.content k)) (hN2 : ∀ d l, N2 d l → K2 d l) {m : Mount} (hz : Z (on m.dec)) {c : Call} (hs : Sensible t c)
    (size : Option Errno) (es : List Env) : Served q A t ff f' Z Ref c size es (serve A m c size es) := by
  cases c with
  | getattr p =>
    refine thenAt_good S (c := .getattr p) (p := p) rfl (toPath_good hc hrep S hz hG1 p size es) (f := fun d => reply .stat (fillStat d)) ?_
    intro d s h1 h2
    show reply Reply.stat (fillStat d) = _
    rw [h2.stat]
    rfl
  | readlink p n =>
    refine thenAt_good S (c := .readlink p n) (p := p) rfl (toPath_good hc hrep S hz hG1 p size es) (f := fun d => reply (fun b => .target (b.take n)) (curTarget d)) ?_
    intro d s h1 h2
    rw [h2.target]
    cases s <;> exact rfl
  | «open» p ro => exact thenAt_good S (c := .«open» p ro) (p := p) rfl (toPath_good hc hrep S hz hG1 p size es) fun d s h1 h2 => rfl
  | getxattr p name n =>
    refine thenAt_good S (c := .getxattr p name n) (p := p) rfl (toPath_good hc hrep S hz hG1 p size es) (f := fun d => xattrReply (curXattrs d) name n) ?_
    intro d s h1 h2
    rw [h2.xattrs]
    rfl
  | listxattr p n =>
    refine thenAt_good S (c := .listxattr p n) (p := p) rfl (toPath_good hc hrep S hz hG1 p size es) (f := fun d => listReply (curXattrs d) n) ?_
    intro d s h1 h2
    rw [h2.xattrs]
    rfl
  | readdir p room =>
    have h := readdir_good hc hrep S hG1 hG2 hN hz p hs size es
    unfold serve
    simp only
    generalize readdir A m p room size es = r at h
    have hpath : (Call.readdir p room).path = components p := rfl
    cases h with
    | running => exact .running
    | failed h1 h2 => exact .failed (errors_right h1) h2
    | refused h1 h2 =>
      rcases h1 with (h1 | h1) | ⟨p', nm, s, h3, h4, h1⟩
      · exact .failed (errors_left h1) (S.base h2)
      · exact .refused (.inl ⟨p, .object, rfl, .inl rfl, h1⟩) h2
      · exact .refused (.inr ⟨p', s, by rw [h3]; exact h4, h1⟩) h2
    | missing h1 h2 => exact .right (by unfold Right; rw [hpath, h1]; rfl) h2
    | full h1 h2 h3 =>
      refine .right ?_ h3
      unfold Right
      rw [hpath, h1]
      show _ = if room < _ then _ else _
      rw [if_pos h2]
      rfl
    | there h1 h2 h3 =>
      refine .right ?_ h3
      unfold Right
      rw [hpath, h1]
      show _ = if room < _ then _ else _
      rw [if_neg h2]
      rfl
  | read p n off =>
    have h := read_good hc S2 hN2 hG3 hz p hs size es
    unfold serve
    simp only
    generalize read A m p n off size es = r at h
    have hpath : (Call.read p n off).path = components p := rfl
    obtain ⟨_, _, hfile⟩ := hs
    cases h with
    | refused h1 h2 =>
      rcases h1 with h1 | h1
      · exact .failed (errors_left h1) (S.base h2)
      · exact .refused (.inl ⟨p, .content off, rfl, .inr ⟨off, rfl⟩, h1⟩) h2
    | copied h =>
      cases h with
      | running => exact .running
      | failed h1 h2 => exact .failed (errors_right h1) h2
      | missing h1 h2 =>
        refine .right ?_ h2
        unfold Right
        rw [hpath]
        unfold contentFrom at h1
        cases hf : t.find (components p) with
        | none => rfl
        | some s =>
          obtain ⟨e, a, api, c, rfl⟩ := hfile s hf
          rw [hf] at h1
          simp only at h1 ⊢
          by_cases hlt : (stored api c).length < off
          · show if _ then _ else _
            rw [if_pos hlt]
            rfl
          · rw [if_neg hlt] at h1
            cases h1
      | @there m w b h1 h2 h3 h4 =>
        refine .right ?_ h4
        unfold Right
        rw [hpath]
        unfold contentFrom at h1
        cases hf : t.find (components p) with
        | none => rw [hf] at h1; cases h1
        | some s =>
          obtain ⟨e, a, api, c, rfl⟩ := hfile s hf
          rw [hf] at h1
          simp only at h1 ⊢
          by_cases hlt : (stored api c).length < off
          · rw [if_pos hlt] at h1; cases h1
          · rw [if_neg hlt] at h1
            injection h1 with h1
            show if _ then _ else _
            rw [if_neg hlt, h1]
            exact ⟨b, rfl, h2, h3⟩

/-! ### The start -/

/-- Before the first object has been reported, or just after. -/
def Early (t : Tree) (K N : SDec → Answer → Prop) (m : Mount) : Prop :=
  (K (on m.dec) (.see ((events [] t).map .seen)) ∧ m.eof = false) ∨
  (N (on m.dec) (.see ((events [] t).tail.map .seen)) ∧ m.eof = false ∧ m.dec.core.ff.ff ≠ none64)

theorem warmUp_good (hc : Ctx q A t ff f') (hrep : normalize (normalizeMask ff) = .ok f'.replay) (S : Sys q A t ff f' Z K N G Ref) : ∀ (es : List Env) {m m' : Mount}, Early t K N m →
    warmUp A es m = (m', some (.ok ())) → Early t K N m' ∧ m'.dec.core.ff.ff ≠ none64
  | es, m, m', h, hw => by
    rw [warmUp.eq_def] at hw
    simp only at hw
    by_cases hk : m.dec.core.ff.ff ≠ none64
    · rw [if_pos hk] at hw
      injection hw with hw
      subst hw
      exact ⟨h, hk⟩
    · rw [if_neg hk] at hw
      cases es with
      | nil => cases hw
      | cons e es =>
        rcases h with ⟨h1, h2⟩ | ⟨_, _, h3⟩
        · have ha : Ahead t [] (.see ((events [] t).map .seen)) := .inr ⟨t, rfl, .inr rfl⟩
          have ht := sync_good hc S h1 h2 (ahead_plain ha).1 (.inr (ahead_plain ha).2) e
          simp only at hw
          generalize sync A m e = r at ht hw
          obtain ⟨r0, hr0⟩ := events_head [] t
          cases ht with
          | fail => cases hw
          | go k1 k2 => exact warmUp_good hc hrep S es (.inl ⟨k1, k2⟩) hw
          | found k1 => rw [hr0] at k1; injection k1 with k1; injection k1 with k1; cases k1
          | doneFile k1 => rw [hr0] at k1; injection k1 with k1; injection k1 with k1; injection k1 with k1; cases k1
          | @payload m1 l1 k1 k2 k3 k4 =>
            have k0 : getPayload m1.dec.core = [] := by
              cases hg : getPayload m1.dec.core with
              | nil => rfl
              | cons b bs => exact absurd (show Starts _ from ⟨b, _, by rw [k1, hg]; rfl⟩) (ahead_plain ha).2
            rw [k0] at k1
            have k1 : _ = Answer.see l1 := k1
            rw [← k1] at k2
            exact warmUp_good hc hrep S es (.inl ⟨k2, k3⟩) hw
          | notFound k1 => cases k1
          | finished k1 => rw [hr0] at k1; cases k1
          | @nextFile m1 l1 k1 k2 k3 k4 k5 =>
            rw [hr0] at k1
            injection k1 with k1
            have := at_sees hc hrep k4 (S.next k2) (show t.find [] = some t from rfl) k1.symm
            refine warmUp_good hc hrep S es (.inr ⟨?_, k3, k4.reads.flags⟩) hw
            rw [hr0, List.tail_cons]
            rw [this.2] at k2
            exact k2
        · exact absurd h3 hk

theorem replay_of {expected : Word} (hv : validateFeatureFlags { expected := expected, mask := none64 } ff = some f') : normalize (normalizeMask ff) = .ok f'.replay := by
  unfold validateFeatureFlags at hv
  simp only at hv
  repeat' split at hv
  all_goals first
    | (cases hv; done)
    | skip
  · rename_i r hr
    injection hv with hv
    rw [show normalizeMask ff &&& none64 = normalizeMask ff by unfold none64; exact BitVec.and_allOnes] at hr
    rw [hr, ← hv]
  · simp_all

theorem mounted_start (ha : IsArchive q ff t A) {m : Mount} (hm : Mounted ff A m) : ∃ f', Ctx q A t ff f' ∧ normalize (normalizeMask ff) = .ok f'.replay ∧ Base q A t ff f' (on m.dec) := by
  cases hm with
  | mk cfg expected mode es hn he hd hw =>
    obtain ⟨f', hc, hv⟩ := ha.ctx (mask := none64) he
    have hrep := replay_of hv
    have h0 := sStart_ok hc (cfg := { cfg with wantPayload := true }) (mask := none64) hn rfl hv hd
    obtain ⟨h1, _⟩ := warmUp_good hc hrep (sys_ok hc) es (m := { dec := sStart cfg expected none64 mode A.length }) (.inl ⟨h0, rfl⟩) hw
    refine ⟨f', hc, hrep, ?_⟩
    rcases h1 with ⟨h1, _⟩ | ⟨h1, _⟩
    · exact h1.base
    · exact h1.base

end Casync.Fuse
