import Verif.Lemmas.FuseServe
/-!
With a source that delivers every call comes to an end.
-/
namespace Casync.Fuse
open Casync Flags Archive

variable {q : List Goodbye.NameItem → List Goodbye.NameItem} {A : Bytes} {t : Tree} {ff : Word} {f' : FF} {Z : SDec → Prop} {K N : SDec → Answer → Prop}
  {G : Goal → Prop} {Ref : Bytes → Goal → Errno → Prop}

/-- Results after which the loops go on. -/
def Out.more : Out → Bool
  | .finished => false
  | .notFound => false
  | _ => true

theorem sync_next (hc : Ctx q A t ff f') (S : Sys q A t ff f' Z K N G Ref) {m m' : Mount} {l : Answer} (h : K (on m.dec) l) (he : m.eof = false) (hw : on m.dec = m.dec ∨ ¬ Starts l) {n : Nat} {o : Out}
    (hs : sync A m (.run (.bytes n)) = (m', .ok o)) (ho : o.more = true) : SNext A (on m.dec) (on m'.dec) := by
  have hst := step_same hc (S.ok h) hw
  have hg := S.good h
  rw [hst] at hg
  unfold sync at hs
  simp only [he, Bool.false_eq_true, if_false] at hs
  generalize hr : sStep m.dec = r at hg hs hst
  obtain ⟨d', r⟩ := r
  simp only [onR] at hg hst
  have hgo : ∀ ev, r = .ok (.plain ev) → ev ∈ [Ev.step, .nextFile, .doneFile, .payload, .skip] → on m'.dec = on d' → SNext A (on m.dec) (on m'.dec) := by
    intro ev h1 h2 h3
    rw [h1] at hst
    rw [h3]
    exact .go hst h2
  have hreq : r = .ok (.plain .request) → (on d').core.eof = false → feed A (put m d') (.bytes n) = (m', .ok o) → SNext A (on m.dec) (on m'.dec) := by
    intro h1 h2 hs
    rw [h1] at hst
    unfold feed at hs
    simp only at hs
    rw [show requestOffset (put m d').dec = requestOffset (on d') from rfl] at hs
    by_cases hp : (A.drop (requestOffset (on d'))).take (n + 1) = []
    · rw [if_pos hp] at hs
      have hnil : A.drop (requestOffset (on d')) = [] := by
        cases hA : A.drop (requestOffset (on d')) with
        | nil => rfl
        | cons a b => rw [hA] at hp; cases hp
      injection hs with hs _
      subst hs
      exact .eof hst hnil h2
    · rw [if_neg hp] at hs
      have hput : putData (put m d').dec.core ((A.drop (requestOffset (on d'))).take (n + 1)) = .ok { d'.core with buf := d'.core.buf ++ (A.drop (requestOffset (on d'))).take (n + 1) } := by
        unfold putData
        rw [if_neg hp, if_neg (show ¬ (put m d').dec.core.eof = true by rw [show (put m d').dec.core.eof = (on d').core.eof from rfl, h2]; simp)]
        rfl
      have hput2 : putData (on d').core ((A.drop (requestOffset (on d'))).take (n + 1)) = .ok (onC { d'.core with buf := d'.core.buf ++ (A.drop (requestOffset (on d'))).take (n + 1) }) := by
        unfold putData
        rw [if_neg hp, if_neg (by rw [h2]; simp)]
        rfl
      rw [hput] at hs
      injection hs with hs _
      subst hs
      have := SNext.put (d' := on d') hst hp (List.take_prefix ..) hput2
      exact this
  generalize hd : on d' = d'' at hg
  cases hg with
  | step h2 => injection hs with hs _; subst hs; exact hgo _ rfl (by simp) rfl
  | seek h2 =>
    injection hs with hs _
    subst hs
    exact .seek hst
  | nextFile h2 => injection hs with hs _; subst hs; exact hgo _ rfl (by simp) rfl
  | doneFile h2 => injection hs with hs _; subst hs; exact hgo _ rfl (by simp) rfl
  | payload h2 => injection hs with hs _; subst hs; exact hgo _ rfl (by simp) rfl
  | found h2 => injection hs with hs _; subst hs; exact .found hst
  | refused h2 => cases hs
  | notFound h2 => injection hs with _ hs; injection hs with hs; subst hs; cases ho
  | finished h2 => injection hs with _ hs; injection hs with hs; subst hs; cases ho
  | request h2 h3 => subst hd; exact hreq rfl h2 hs

theorem untilFile_ends (hc : Ctx q A t ff f') (hrep : normalize (normalizeMask ff) = .ok f'.replay) (S : Sys q A t ff f' Z K N G Ref) {P : List Bytes} {d : SDec} (hacc : Terminates A d) :
    ∀ {m : Mount} {l : Answer}, on m.dec = d → Ahead t P l → K (on m.dec) l → m.eof = false → ∀ f : Nat → Nat, ∃ k m' r, untilFile A (delivers f k) m = (m', some r) := by
  induction hacc with
  | intro d _ ih =>
    intro m l hd hl hk he f
    have ht := sync_good hc S hk he (ahead_plain hl).1 (.inr (ahead_plain hl).2) (.run (.bytes (f 0)))
    have hn := fun m' o => sync_next (m' := m') (o := o) hc S hk he (.inr (ahead_plain hl).2) (n := f 0)
    have := ahead_turn hc hrep S (m := m) hl ht
    have hstep : ∀ k, delivers f (k + 1) = .run (.bytes (f 0)) :: delivers (fun i => f (i + 1)) k := fun k => rfl
    generalize hs : sync A m (.run (.bytes (f 0))) = r at this hn
    obtain ⟨m', r⟩ := r
    simp only at this
    rcases this with ⟨e', h1, h2, h3⟩ | ⟨h1, h2, h3⟩ | ⟨s, h1, h2, h3, h4, _, _⟩ | ⟨h1, l', h2, h3, h4⟩
    · subst h1
      exact ⟨1, _, _, by rw [hstep, untilFile, hs]⟩
    · subst h1
      exact ⟨1, _, _, by rw [hstep, untilFile, hs]⟩
    · subst h1
      exact ⟨1, _, _, by rw [hstep, untilFile, hs]⟩
    · have hnx : SNext A (on m.dec) (on m'.dec) := by
        rcases h1 with h1 | h1 | h1 <;> subst h1 <;> exact hn _ _ rfl rfl
      obtain ⟨k, m2, r2, hk2⟩ := ih (on m'.dec) (hd ▸ hnx) rfl h2 h3 h4 (fun i => f (i + 1))
      refine ⟨k + 1, m2, r2, ?_⟩
      rw [hstep, untilFile, hs]
      rcases h1 with h1 | h1 | h1 <;> subst h1 <;> exact hk2

theorem content_ends (hc : Ctx q A t ff f') (S : Sys q A t ff f' Z K N G Ref) (hN : ∀ d l, N d l → K d l) (hG : ∀ g, G g) {d : SDec} (hacc : Terminates A d) :
    ∀ {m : Mount} {l : Answer} {left : Nat} {acc : Bytes}, on m.dec = d → l ≠ .notFile → K (on m.dec) l → m.eof = false → on m.dec = m.dec → ∀ f : Nat → Nat,
      ∃ k m' r, content A (delivers f k) m left acc = (m', some r) := by
  induction hacc with
  | intro d _ ih =>
    intro m l left acc hd hl hk he hw f
    cases left with
    | zero => exact ⟨0, _, _, by rw [content.eq_def]; rfl⟩
    | succ left =>
      have ht := sync_good hc S hk he hl (.inl hw) (.run (.bytes (f 0)))
      have hn := fun m' o => sync_next (m' := m') (o := o) hc S hk he (.inl hw) (n := f 0)
      have hstep : ∀ k, delivers f (k + 1) = .run (.bytes (f 0)) :: delivers (fun i => f (i + 1)) k := fun k => rfl
      have hw' := sync_wants (A := A) hw (.run (.bytes (f 0)))
      have hun : ∀ k, content A (delivers f (k + 1)) m (left + 1) acc = content A (.run (.bytes (f 0)) :: delivers (fun i => f (i + 1)) k) m (left + 1) acc := fun k => rfl
      generalize hs : sync A m (.run (.bytes (f 0))) = r at ht hn hw'
      have hgo : ∀ {m' : Mount} {o : Out} {l' : Answer}, r = (m', .ok o) → o.more = true → l' ≠ .notFile → K (on m'.dec) l' → m'.eof = false → ∀ left' acc', ∃ k m2 r2,
          content A (delivers (fun i => f (i + 1)) k) m' left' acc' = (m2, some r2) := by
        intro m' o l' h1 h2 h3 h4 h5 left' acc'
        subst h1
        exact ih (on m'.dec) (hd ▸ hn _ _ rfl h2) rfl h3 h4 h5 hw' _
      cases ht with
      | fail h1 h2 => exact ⟨1, _, _, by rw [hun, content, if_neg (by omega), hs]⟩
      | notFound h1 h2 => exact ⟨1, _, _, by rw [hun, content, if_neg (by omega), hs]⟩
      | finished h1 h2 => exact ⟨1, _, _, by rw [hun, content, if_neg (by omega), hs]⟩
      | go h1 h2 =>
        obtain ⟨k, m2, r2, h⟩ := hgo rfl rfl hl h1 h2 (left + 1) acc
        exact ⟨k + 1, m2, r2, by rw [hun, content, if_neg (by omega), hs]; exact h⟩
      | found h1 h2 h3 =>
        obtain ⟨k, m2, r2, h⟩ := hgo rfl rfl (by simp) h2 h3 (left + 1) acc
        exact ⟨k + 1, m2, r2, by rw [hun, content, if_neg (by omega), hs]; exact h⟩
      | nextFile h1 h2 h3 =>
        obtain ⟨k, m2, r2, h⟩ := hgo rfl rfl (by simp) (hN _ _ h2) h3 (left + 1) acc
        exact ⟨k + 1, m2, r2, by rw [hun, content, if_neg (by omega), hs]; exact h⟩
      | doneFile h1 h2 h3 =>
        obtain ⟨k, m2, r2, h⟩ := hgo rfl rfl (by simp) h2 h3 (left + 1) acc
        exact ⟨k + 1, m2, r2, by rw [hun, content, if_neg (by omega), hs]; exact h⟩
      | @payload m' l' h1 h2 h3 h4 =>
        obtain ⟨k, m2, r2, h⟩ := hgo rfl rfl (by simp) h2 h3 (left + 1 - ((getPayload m'.dec.core).take (left + 1)).length) (acc ++ (getPayload m'.dec.core).take (left + 1))
        exact ⟨k + 1, m2, r2, by rw [hun, content, if_neg (by omega), hs]; exact h⟩

theorem listing_rest_ends (hc : Ctx q A t ff f') (hrep : normalize (normalizeMask ff) = .ok f'.replay) (S : Sys q A t ff f' Z K N G Ref) (hN : ∀ d l, N d l → K d l) (hG : ∀ g, G g) {P : List Bytes} {s : Tree} (hs : t.find P = some s)
    {room : Nat} : ∀ (rest : List (Bytes × Tree)) {d : SDec}, Terminates A d → ∀ {m : Mount} {l : Answer} {prev : List (Bytes × Tree)} {acc : Listing}, on m.dec = d → s.entries = prev ++ rest → Rest P rest l →
      K (on m.dec) l → m.eof = false → ∀ f : Nat → Nat, ∃ k m' r, listing A room (delivers f k) m true acc = (m', some r) := by
  intro rest
  induction rest with
  | nil =>
    intro d hacc
    induction hacc with
    | intro d _ ih =>
      intro m l prev acc hd hen hl hk he f
      have ht := sync_good hc S hk he hl.plain.1 (.inr hl.plain.2) (.run (.bytes (f 0)))
      have hn := fun m' o => sync_next (m' := m') (o := o) hc S hk he (.inr hl.plain.2) (n := f 0)
      have hun : ∀ k, listing A room (delivers f (k + 1)) m true acc = listing A room (.run (.bytes (f 0)) :: delivers (fun i => f (i + 1)) k) m true acc := fun k => rfl
      generalize hsy : sync A m (.run (.bytes (f 0))) = r at ht hn
      have hgo : ∀ {m' : Mount} {o : Out} {l' : Answer}, r = (m', .ok o) → o.more = true → Rest P [] l' → K (on m'.dec) l' → m'.eof = false → ∃ k m2 r2,
          listing A room (delivers (fun i => f (i + 1)) k) m' true acc = (m2, some r2) := by
        intro m' o l' h1 h2 h3 h4 h5
        subst h1
        exact ih (on m'.dec) (hd ▸ hn _ _ rfl h2) rfl hen h3 h4 h5 _
      cases ht with
      | fail h1 h2 => exact ⟨1, _, _, by rw [hun, listing, hsy]⟩
      | notFound h1 h2 => exact ⟨1, _, _, by rw [hun, listing, hsy]⟩
      | finished h1 h2 => exact ⟨1, _, _, by rw [hun, listing, hsy]⟩
      | go h1 h2 =>
        obtain ⟨k, m2, r2, h⟩ := hgo rfl rfl hl h1 h2
        exact ⟨k + 1, m2, r2, by rw [hun, listing, hsy]; exact h⟩
      | found h1 h2 h3 =>
        exfalso
        cases hl with
        | done => cases h1
        | here => injection h1 with h1; injection h1 with h1; cases h1
      | nextFile h1 h2 h3 h4 h5 =>
        exfalso
        obtain ⟨p1, e1, a1, s1, hob⟩ := at_observe h4
        rw [hob] at h1
        cases hl with
        | done => injection h1 with h1; cases h1
        | here => injection h1 with h1; injection h1 with h1; injection h1 with h1; cases h1
      | @doneFile m' l' h1 h2 h3 =>
        cases hl with
        | done => cases h1
        | here =>
          injection h1 with h1
          injection h1 with h0 h1
          have h1 : l' = [] := h1.symm
          rw [h1] at h2
          obtain ⟨k, m2, r2, h⟩ := hgo rfl rfl .done h2 h3
          exact ⟨k + 1, m2, r2, by rw [hun, listing, hsy]; exact h⟩
      | @payload m' l' h1 h2 h3 h4 =>
        have h0 : getPayload m'.dec.core = [] := by
          cases hg : getPayload m'.dec.core with
          | nil => rfl
          | cons b bs =>
            exfalso
            exact hl.plain.2 ⟨b, _, by rw [h1, hg]; rfl⟩
        rw [h0] at h1
        have h1 : l = .see l' := h1
        rw [← h1] at h2
        obtain ⟨k, m2, r2, h⟩ := hgo rfl rfl hl h2 h3
        exact ⟨k + 1, m2, r2, by rw [hun, listing, hsy]; exact h⟩
  | cons x xs ihx =>
    intro d hacc
    induction hacc with
    | intro d _ ih =>
      intro m l prev acc hd hen hl hk he f
      have ht := sync_good hc S hk he hl.plain.1 (.inr hl.plain.2) (.run (.bytes (f 0)))
      have hn := fun m' o => sync_next (m' := m') (o := o) hc S hk he (.inr hl.plain.2) (n := f 0)
      have hun : ∀ k, listing A room (delivers f (k + 1)) m true acc = listing A room (.run (.bytes (f 0)) :: delivers (fun i => f (i + 1)) k) m true acc := fun k => rfl
      generalize hsy : sync A m (.run (.bytes (f 0))) = r at ht hn
      have hgo : ∀ {m' : Mount} {o : Out} {l' : Answer}, r = (m', .ok o) → o.more = true → Rest P (x :: xs) l' → K (on m'.dec) l' → m'.eof = false → ∃ k m2 r2,
          listing A room (delivers (fun i => f (i + 1)) k) m' true acc = (m2, some r2) := by
        intro m' o l' h1 h2 h3 h4 h5
        subst h1
        exact ih (on m'.dec) (hd ▸ hn _ _ rfl h2) rfl hen h3 h4 h5 _
      obtain ⟨r0, hr0⟩ := events_head (P ++ [x.1]) x.2
      have htl : (listedEvents P (x :: xs) ++ [Atom.doneFile P]).map SAtom.seen =
          .seen (.nextFile (P ++ [x.1]) x.2.entry x.2.attrs x.2.shown) :: ((events (P ++ [x.1]) x.2).tail ++ (listedEvents P xs ++ [Atom.doneFile P])).map .seen := by
        rw [show listedEvents P (x :: xs) = events (P ++ [x.1]) x.2 ++ listedEvents P xs from rfl, hr0, List.append_assoc]
        rfl
      cases ht with
      | fail h1 h2 => exact ⟨1, _, _, by rw [hun, listing, hsy]⟩
      | notFound h1 h2 => exact ⟨1, _, _, by rw [hun, listing, hsy]⟩
      | finished h1 h2 => exact ⟨1, _, _, by rw [hun, listing, hsy]⟩
      | go h1 h2 =>
        obtain ⟨k, m2, r2, h⟩ := hgo rfl rfl hl h1 h2
        exact ⟨k + 1, m2, r2, by rw [hun, listing, hsy]; exact h⟩
      | found h1 h2 h3 =>
        cases hl with
        | here => rw [htl] at h1; injection h1 with h1; injection h1 with h1; cases h1
        | found =>
          injection h1 with h1
          injection h1 with h0 h1
          rw [← h1] at h2
          obtain ⟨k, m2, r2, h⟩ := hgo rfl rfl (.here _) h2 h3
          exact ⟨k + 1, m2, r2, by rw [hun, listing, hsy]; exact h⟩
      | doneFile h1 h2 h3 =>
        exfalso
        cases hl with
        | here => rw [htl] at h1; injection h1 with h1; injection h1 with h1; injection h1 with h1; cases h1
        | found => injection h1 with h1; injection h1 with h1; cases h1
      | @payload m' l' h1 h2 h3 h4 =>
        have h0 : getPayload m'.dec.core = [] := by
          cases hg : getPayload m'.dec.core with
          | nil => rfl
          | cons b bs =>
            exfalso
            exact hl.plain.2 ⟨b, _, by rw [h1, hg]; rfl⟩
        rw [h0] at h1
        have h1 : l = .see l' := h1
        rw [← h1] at h2
        obtain ⟨k, m2, r2, h⟩ := hgo rfl rfl hl h2 h3
        exact ⟨k + 1, m2, r2, by rw [hun, listing, hsy]; exact h⟩
      | @nextFile m' l' h1 h2 h3 h4 h5 =>
        cases hl with
        | found =>
          exfalso
          obtain ⟨p1, e1, a1, s1, hob⟩ := at_observe h4
          rw [hob] at h1
          injection h1 with h1
          injection h1 with h1
          cases h1
        | here =>
          have hx := find_child hc hs (x := x) (by rw [hen]; exact List.mem_append_right _ (List.mem_cons_self ..))
          rw [htl] at h1
          injection h1 with h1
          obtain ⟨hsee, hl'⟩ := at_sees hc hrep h4 (S.next h2) hx h1.symm
          have hnext := child_next hc h4 (S.next h2) hs hen hsee.path hl'
          have hcp := current_components hc (S.base h5)
          rw [show currentPath (on m'.dec).core = currentPath m'.dec.core from rfl, hsee.path] at hcp
          have hsk := seekWith_good S h5 none (pathString (currentPath m'.dec.core)) .next (hG _) (f := seekNextSibling) rfl
          rw [hsee.path, hcp] at hsk
          by_cases hr : acc.length ≥ room
          · refine ⟨1, m', .err .ENOBUFS, ?_⟩
            rw [hun, listing, hsy]
            simp only [Bool.not_true, Bool.false_eq_true, if_false]
            rw [hsee.stat]
            simp only
            rw [if_pos hr]
          · generalize hsw : seekWith m' none seekNextSibling = w at hsk
            generalize t.answer (stopDepth m'.dec) (P ++ [x.1]) Goal.next = ans at hsk hnext
            cases hsk with
            | @failed m3 e3 k1 k2 =>
              refine ⟨1, m3, .err e3, ?_⟩
              rw [hun, listing, hsy]
              simp only [Bool.not_true, Bool.false_eq_true, if_false]
              rw [hsee.stat]
              simp only
              rw [if_neg hr, hsw]
            | @ok m3 k1 k2 k3 =>
              obtain ⟨k, m2, r2, h⟩ := ihx (d := on m3.dec) (terminates hc (S.ok k1)) rfl (prev := prev ++ [x])
                (acc := acc ++ [(baseName (pathString (currentPath m'.dec.core)), some (statOf x.2))]) (by rw [hen]; simp) hnext k1 k2 (fun i => f (i + 1))
              refine ⟨k + 1, m2, r2, ?_⟩
              rw [hun, listing, hsy]
              simp only [Bool.not_true, Bool.false_eq_true, if_false]
              rw [hsee.stat]
              simp only
              rw [if_neg hr, hsw]
              exact h

theorem listing_ends (hc : Ctx q A t ff f') (hrep : normalize (normalizeMask ff) = .ok f'.replay) (S : Sys q A t ff f' Z K N G Ref) (hN : ∀ d l, N d l → K d l) (hG : ∀ g, G g) {P : List Bytes}
    (hdir : ∀ s, t.find P = some s → s.isDir = true) {room : Nat} {d : SDec} (hacc : Terminates A d) :
    ∀ {m : Mount} {l : Answer} {acc : Listing}, on m.dec = d → Ahead t P l → K (on m.dec) l → m.eof = false → ∀ f : Nat → Nat, ∃ k m' r, listing A room (delivers f k) m false acc = (m', some r) := by
  induction hacc with
  | intro d _ ih =>
    intro m l acc hd hl hk he f
    have ht := sync_good hc S hk he (ahead_plain hl).1 (.inr (ahead_plain hl).2) (.run (.bytes (f 0)))
    have hn := fun m' o => sync_next (m' := m') (o := o) hc S hk he (.inr (ahead_plain hl).2) (n := f 0)
    have := ahead_turn hc hrep S (m := m) hl ht
    have hun : ∀ k, listing A room (delivers f (k + 1)) m false acc = listing A room (.run (.bytes (f 0)) :: delivers (fun i => f (i + 1)) k) m false acc := fun k => rfl
    generalize hs : sync A m (.run (.bytes (f 0))) = r at this hn
    obtain ⟨m', r⟩ := r
    simp only at this
    rcases this with ⟨e', h1, h2, h3⟩ | ⟨h1, h2, h3⟩ | ⟨s, h1, h2, h3, h4, h5, h6⟩ | ⟨h1, l', h2, h3, h4⟩
    · subst h1
      exact ⟨1, _, _, by rw [hun, listing, hs]⟩
    · subst h1
      exact ⟨1, _, _, by rw [hun, listing, hs]⟩
    · subst h1
      obtain ⟨k, m2, r2, h⟩ := listing_rest_ends (room := room) hc hrep S hN hG h2 s.entries (terminates hc (S.next h5)) (m := m') (prev := []) (acc := acc) rfl rfl
        (by rw [events_dir (hdir s h2), List.tail_cons, Tree.entries_eq]; exact .here _) (hN _ _ h5) h6 (fun i => f (i + 1))
      exact ⟨k + 1, m2, r2, by rw [hun, listing, hs]; exact h⟩
    · have hnx : SNext A (on m.dec) (on m'.dec) := by
        rcases h1 with h1 | h1 | h1 <;> subst h1 <;> exact hn _ _ rfl rfl
      obtain ⟨k, m2, r2, hk2⟩ := ih (on m'.dec) (hd ▸ hnx) (acc := acc) rfl h2 h3 h4 (fun i => f (i + 1))
      refine ⟨k + 1, m2, r2, ?_⟩
      rw [hun, listing, hs]
      rcases h1 with h1 | h1 | h1 <;> subst h1 <;> exact hk2

theorem toPath_ends (hc : Ctx q A t ff f') (hrep : normalize (normalizeMask ff) = .ok f'.replay) (S : Sys q A t ff f' Z K N G Ref) (hN : ∀ d l, N d l → K d l) (hG : ∀ g, G g) {m : Mount} (hz : Z (on m.dec)) (p : Bytes)
    (size : Option Errno) (f : Nat → Nat) : ∃ k m' r, toPath A m p size (delivers f k) = (m', some r) := by
  have h := seekWith_good S hz size p .object (hG _) (f := (seekPath · p)) rfl
  unfold toPath
  generalize seekWith m size (seekPath · p) = r at h
  have ha := ahead_start t (stopDepth m.dec) (components p)
  generalize t.answer (stopDepth m.dec) (components p) .object = l at h ha
  cases h with
  | failed h1 h2 => exact ⟨0, _, _, rfl⟩
  | ok h1 h2 h3 => exact untilFile_ends hc hrep S (terminates hc (S.ok h1)) rfl ha h1 h2 f

theorem thenAt_ends {m' : Mount} {r : Res Unit} (f : SDec → Reply) : ∃ m2 r2, thenAt (m', some r) f = (m2, some r2) := by
  cases r with
  | ok a => exact ⟨_, _, rfl⟩
  | err e => exact ⟨_, _, rfl⟩
  | ub => exact ⟨_, _, rfl⟩

theorem serve_ends (hc : Ctx q A t ff f') (hrep : normalize (normalizeMask ff) = .ok f'.replay) (S : Sys q A t ff f' Z K N G Ref) (hN : ∀ d l, N d l → K d l) (hG : ∀ g, G g) {m : Mount} (hz : Z (on m.dec)) {c : Call} (hs : Sensible t c)
    (size : Option Errno) (f : Nat → Nat) : ∃ k m' r, serve A m c size (delivers f k) = (m', some r) := by
  have key : ∀ p (g : SDec → Reply), ∃ k m' r, thenAt (toPath A m p size (delivers f k)) g = (m', some r) := by
    intro p g
    obtain ⟨k, m', r, h⟩ := toPath_ends hc hrep S hN hG hz p size f
    obtain ⟨m2, r2, h2⟩ := thenAt_ends (m' := m') (r := r) g
    exact ⟨k, m2, r2, by rw [h]; exact h2⟩
  cases c with
  | getattr p => unfold serve; exact key p _
  | readlink p n => unfold serve; exact key p _
  | «open» p ro => unfold serve; exact key p _
  | getxattr p name n => unfold serve; exact key p _
  | listxattr p n => unfold serve; exact key p _
  | readdir p room =>
    obtain ⟨hroom, hdir⟩ := hs
    have h := seekWith_good S (m := setPayload m false) hz size p .object (hG _) (f := (seekPath · p)) rfl
    unfold serve readdir
    simp only [if_neg (show ¬ room < 2 by omega)]
    generalize seekWith (setPayload m false) size (seekPath · p) = r at h
    have ha := ahead_start t (stopDepth (setPayload m false).dec) (components p)
    generalize t.answer (stopDepth (setPayload m false).dec) (components p) .object = l at h ha
    cases h with
    | failed h1 h2 => exact ⟨0, _, _, rfl⟩
    | ok h1 h2 h3 =>
      obtain ⟨k, m2, r2, h⟩ := listing_ends (room := room) hc hrep S hN hG (P := components p) (fun s hf => by obtain ⟨e, a, api, k, rfl⟩ := hdir s hf; rfl) (terminates hc (S.ok h1))
        (acc := [([46], none), ([46, 46], none)]) rfl ha h1 h2 f
      refine ⟨k, m2, reply .listing r2, ?_⟩
      simp only
      rw [h]
      rfl
  | read p n off =>
    obtain ⟨hn, hoff, hfile⟩ := hs
    have h := seekWith_good S (m := setPayload m true) hz size p (.content off) (hG _) (f := (seekPathOffset · p off)) rfl
    have hof : ¬ off = u64max := by unfold u64max; omega
    unfold serve read
    simp only [if_neg hof]
    generalize seekWith (setPayload m true) size (seekPathOffset · p off) = r at h
    have hne : t.answer (stopDepth (setPayload m true).dec) (components p) (.content off) ≠ .notFile := by
      unfold Tree.answer
      cases hf : t.find (components p) with
      | none => simp
      | some s =>
        obtain ⟨e, a, api, c, rfl⟩ := hfile s hf
        simp only
        split <;> simp
    generalize t.answer (stopDepth (setPayload m true).dec) (components p) (.content off) = l at h hne
    cases h with
    | failed h1 h2 => exact ⟨0, _, _, rfl⟩
    | ok h1 h2 h3 =>
      obtain ⟨k, m2, r2, h⟩ := content_ends hc S hN hG (terminates hc (S.ok h1)) (left := n) (acc := []) rfl hne h1 h2 (h3 rfl) f
      refine ⟨k, m2, reply .data r2, ?_⟩
      simp only
      rw [h]
      rfl

theorem warmUp_ends (hc : Ctx q A t ff f') (hrep : normalize (normalizeMask ff) = .ok f'.replay) (S : Sys q A t ff f' Z K N G Ref) {d : SDec} (hacc : Terminates A d) :
    ∀ {m : Mount}, on m.dec = d → Early t K N m → ∀ f : Nat → Nat, ∃ k m', warmUp A (delivers f k) m = (m', some (.ok ())) := by
  induction hacc with
  | intro d _ ih =>
    intro m hd h f
    by_cases hk : m.dec.core.ff.ff ≠ none64
    · exact ⟨0, m, by rw [warmUp.eq_def]; simp only [if_pos hk]⟩
    rcases h with ⟨h1, h2⟩ | ⟨_, _, h3⟩
    · have ha : Ahead t [] (.see ((events [] t).map .seen)) := .inr ⟨t, rfl, .inr rfl⟩
      have ht := sync_good hc S h1 h2 (ahead_plain ha).1 (.inr (ahead_plain ha).2) (.run (.bytes (f 0)))
      have hn := fun m' o => sync_next (m' := m') (o := o) hc S h1 h2 (.inr (ahead_plain ha).2) (n := f 0)
      have hun : ∀ k, warmUp A (delivers f (k + 1)) m = warmUp A (.run (.bytes (f 0)) :: delivers (fun i => f (i + 1)) k) m := fun k => rfl
      generalize hsy : sync A m (.run (.bytes (f 0))) = r at ht hn
      have hgo : ∀ {m' : Mount} {o : Out}, r = (m', .ok o) → o.more = true → Early t K N m' → ∃ k m2, warmUp A (delivers f k) m = (m2, some (.ok ())) := by
        intro m' o e1 e2 e3
        subst e1
        obtain ⟨k, m2, h⟩ := ih (on m'.dec) (hd ▸ hn _ _ rfl e2) rfl e3 (fun i => f (i + 1))
        refine ⟨k + 1, m2, ?_⟩
        rw [hun, warmUp.eq_def]
        simp only [if_neg hk, hsy]
        cases o <;> first | exact h | cases e2
      obtain ⟨r0, hr0⟩ := events_head [] t
      cases ht with
      | fail _ k2 => cases k2
      | go k1 k2 => exact hgo rfl rfl (.inl ⟨k1, k2⟩)
      | found k1 => rw [hr0] at k1; injection k1 with k1; injection k1 with k1; cases k1
      | doneFile k1 => rw [hr0] at k1; injection k1 with k1; injection k1 with k1; injection k1 with k1; cases k1
      | @payload m1 l1 k1 k2 k3 k4 =>
        have k0 : getPayload m1.dec.core = [] := by
          cases hg : getPayload m1.dec.core with
          | nil => rfl
          | cons b bs => exact absurd (show Starts _ from ⟨b, _, by rw [k1, hg]; rfl⟩) (ahead_plain ha).2
        rw [k0] at k1
        have k1 : _ = Answer.see l1 := k1
        rw [← k1] at k2
        exact hgo rfl rfl (.inl ⟨k2, k3⟩)
      | notFound k1 => cases k1
      | finished k1 => rw [hr0] at k1; cases k1
      | @nextFile m1 l1 k1 k2 k3 k4 k5 =>
        rw [hr0] at k1
        injection k1 with k1
        have := at_sees hc hrep k4 (S.next k2) (show t.find [] = some t from rfl) k1.symm
        refine hgo rfl rfl (.inr ⟨?_, k3, k4.reads.flags⟩)
        rw [hr0, List.tail_cons]
        rw [this.2] at k2
        exact k2
    · exact absurd h3 hk

end Casync.Fuse
