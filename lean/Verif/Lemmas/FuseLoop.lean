import Verif.Lemmas.FuseShow
/-!
The loops over `ca_sync_step()`.
-/
namespace Casync.Fuse
open Casync Flags Archive

variable {q : List Goodbye.NameItem → List Goodbye.NameItem} {A : Bytes} {t : Tree} {ff : Word} {f' : FF} {Z : SDec → Prop} {K N : SDec → Answer → Prop}
  {G : Goal → Prop} {Ref : Bytes → Goal → Errno → Prop}

theorem at_observe {d : SDec} (h : At d) : ∃ p e a s, atoms (observe d.core .nextFile) = [.nextFile p e a s] := by
  obtain ⟨n, ns, p, hn, hp⟩ := h.reads.parsed
  have hob : observe d.core .nextFile = [.nextFile (currentPath d.core) p.entry p.attrs p.term.shown] := by
    unfold observe
    rw [hn]
    obtain ⟨n1, n2, n3, n4⟩ := n
    simp only at hp
    subst hp
    rfl
  rw [hob, atoms_one]
  exact ⟨_, _, _, _, rfl⟩

/-! ### Seeks -/

/-- The result of `ca_sync_seek_path()` and the like. -/
inductive Went (q : List Goodbye.NameItem → List Goodbye.NameItem) (A : Bytes) (t : Tree) (ff : Word) (f' : FF) (Z : SDec → Prop) (K : SDec → Answer → Prop) (m : Mount)
    (l : Answer) (ref : Errno → Prop) : Mount × Res Unit → Prop
  | failed {m' e} : Z (on m'.dec) → l = .notFile ∨ ref e → Went q A t ff f' Z K m l ref (m', .err e)
  | ok {m'} : K (on m'.dec) l → m'.eof = false → (on m.dec = m.dec → on m'.dec = m'.dec) → Went q A t ff f' Z K m l ref (m', .ok ())

theorem seekWith_good (S : Sys q A t ff f' Z K N G Ref) {m : Mount} (hz : Z (on m.dec)) (size : Option Errno) (p : Bytes) (g : Goal) (hg : G g) {f : SDec → SDec × Res Bool}
    (hf : f m.dec = seekInternal m.dec p g.sibling g.pay) :
    Went q A t ff f' Z K m (t.answer (stopDepth m.dec) (components p) g) (fun e => e ∈ size.toList ∨ Ref p g e) (seekWith m size f) := by
  have key : Went q A t ff f' Z K m (t.answer (stopDepth m.dec) (components p) g) (fun e => e ∈ size.toList ∨ Ref p g e)
      (let r := f m.dec
       match r.2 with
       | .ok _ => ({ dec := r.1, eof := false, sized := true }, .ok ())
       | .err e => ({ m with dec := r.1, sized := true }, .err e)
       | .ub => ({ m with dec := r.1, sized := true }, .ub)) := by
    have h := S.seek hz p g hg
    rw [seekInternal_on] at h
    have hw := fun hw => seek_wants (d := m.dec) hw p g.sibling g.pay
    rw [← hf] at h hw
    generalize f m.dec = r at h hw
    obtain ⟨d', r⟩ := r
    simp only [onR] at h
    generalize hd : on d' = d'' at h
    cases h with
    | ok h1 => subst hd; exact .ok h1 rfl hw
    | refused h1 h2 =>
      subst hd
      exact .failed h1 (h2.imp id .inr)
  unfold seekWith
  cases hs : m.sized with
  | true => exact key
  | false =>
    cases size with
    | none => exact key
    | some e => exact .failed hz (.inr (.inl (List.mem_singleton.2 rfl)))

/-! ### Looking at an object -/

/-- The answer to a seek to a path, or what is left of it: the object itself is still to come. -/
def Ahead (t : Tree) (P : List Bytes) (l : Answer) : Prop :=
  (t.find P = none ∧ l = .missing) ∨
  ∃ s, t.find P = some s ∧ (l = .see (.found P :: (events P s).map .seen) ∨ l = .see ((events P s).map .seen))

theorem ahead_start (t : Tree) (b : Nat) (P : List Bytes) : Ahead t P (t.answer b P .object) := by
  unfold Ahead Tree.answer
  cases h : t.find P with
  | none => exact .inl ⟨rfl, rfl⟩
  | some s => exact .inr ⟨s, rfl, .inl rfl⟩

theorem ahead_plain {P : List Bytes} {l : Answer} (h : Ahead t P l) : l ≠ .notFile ∧ ¬ Starts l := by
  rcases h with ⟨_, h⟩ | ⟨s, _, h | h⟩
  · rw [h]; exact ⟨by simp, fun ⟨_, _, h⟩ => by cases h⟩
  · rw [h]; refine ⟨by simp, fun ⟨_, _, h⟩ => ?_⟩; injection h with h; injection h with h; cases h
  · obtain ⟨r, hr⟩ := events_head P s
    rw [h, hr]
    refine ⟨by simp, fun ⟨_, _, h⟩ => ?_⟩
    injection h with h
    injection h with h
    injection h with h
    cases h

/-- What a turn does before the object has been reported. -/
theorem ahead_turn (hc : Ctx q A t ff f') (hrep : normalize (normalizeMask ff) = .ok f'.replay) (S : Sys q A t ff f' Z K N G Ref) {m : Mount} {l : Answer} {P : List Bytes} {env : Env}
    (hl : Ahead t P l) {r : Mount × Res Out} (h : Turn (Base q A t ff f') Z K N env l r) :
    (∃ e, r.2 = .err e ∧ e ∈ env.errs ∧ Base q A t ff f' (on r.1.dec)) ∨
    (r.2 = .ok .notFound ∧ t.find P = none ∧ Z (on r.1.dec)) ∨
    (∃ s, r.2 = .ok .nextFile ∧ t.find P = some s ∧ Sees r.1.dec P s ∧ Z (on r.1.dec) ∧ N (on r.1.dec) (.see ((events P s).tail.map .seen)) ∧ r.1.eof = false) ∨
    ((r.2 = .ok .go ∨ r.2 = .ok .found ∨ r.2 = .ok .payload) ∧ ∃ l', Ahead t P l' ∧ K (on r.1.dec) l' ∧ r.1.eof = false) := by
  cases h with
  | fail h1 h2 => exact .inl ⟨_, rfl, h2, h1⟩
  | go h1 h2 => exact .inr (.inr (.inr ⟨.inl rfl, l, hl, h1, h2⟩))
  | @found m p l' h1 h2 h3 =>
    refine .inr (.inr (.inr ⟨.inr (.inl rfl), .see l', ?_, h2, h3⟩))
    rcases hl with ⟨_, h⟩ | ⟨s, hs, h | h⟩
    · rw [h1] at h; cases h
    · rw [h1] at h
      injection h with h
      injection h with _ h
      exact .inr ⟨s, hs, .inr (by rw [h])⟩
    · obtain ⟨r, hr⟩ := events_head P s
      rw [h1, hr] at h
      injection h with h
      injection h with h
      cases h
  | @nextFile m l' h1 h2 h3 h4 h5 =>
    obtain ⟨p1, e1, a1, s1, hob⟩ := at_observe h4
    rcases hl with ⟨_, h⟩ | ⟨s, hs, h | h⟩
    · rw [h1] at h; cases h
    · rw [h1, hob] at h
      injection h with h
      injection h with h
      cases h
    · obtain ⟨r, hr⟩ := events_head P s
      rw [h1, hr] at h
      injection h with h
      have := at_sees hc hrep h4 (S.next h2) hs h
      refine .inr (.inr (.inl ⟨s, rfl, hs, this.1, h5, ?_, h3⟩))
      rw [hr, List.tail_cons]
      rw [this.2] at h2
      exact h2
  | @doneFile m l' h1 h2 h3 =>
    rcases hl with ⟨_, h⟩ | ⟨s, hs, h | h⟩
    · rw [h1] at h; cases h
    · rw [h1] at h
      injection h with h
      injection h with h
      cases h
    · obtain ⟨r, hr⟩ := events_head P s
      rw [h1, hr] at h
      injection h with h
      injection h with h
      injection h with h
      cases h
  | @payload m l' h1 h2 h3 h4 =>
    have h0 : getPayload m.dec.core = [] := by
      cases hg : getPayload m.dec.core with
      | nil => rfl
      | cons b bs =>
        exfalso
        exact (ahead_plain hl).2 ⟨b, _, by rw [h1, hg]; rfl⟩
    rw [h0] at h1
    have h1 : l = .see l' := h1
    exact .inr (.inr (.inr ⟨.inr (.inr rfl), l, hl, by rw [h1]; exact h2, h3⟩))
  | notFound h1 h2 =>
    refine .inr (.inl ⟨rfl, ?_, h2⟩)
    rcases hl with ⟨h, _⟩ | ⟨s, hs, h | h⟩
    · exact h
    · rw [h1] at h; cases h
    · rw [h1] at h; cases h
  | finished h1 h2 =>
    rcases hl with ⟨_, h⟩ | ⟨s, hs, h | h⟩
    · rw [h1] at h; cases h
    · rw [h1] at h; cases h
    · obtain ⟨r, hr⟩ := events_head P s
      rw [h1, hr] at h
      cases h

/-- The result of a loop that looks for an object. -/
inductive Looked (q : List Goodbye.NameItem → List Goodbye.NameItem) (A : Bytes) (t : Tree) (ff : Word) (f' : FF) (Z : SDec → Prop) (P : List Bytes) (es : List Env) :
    Mount × Option (Res Unit) → Prop
  | running {m} : Looked q A t ff f' Z P es (m, none)
  | failed {m e} : e ∈ es.flatMap Env.errs → Base q A t ff f' (on m.dec) → Looked q A t ff f' Z P es (m, some (.err e))
  | missing {m} : t.find P = none → Z (on m.dec) → Looked q A t ff f' Z P es (m, some (.err .ENOENT))
  | there {m s} : t.find P = some s → Sees m.dec P s → Z (on m.dec) → Looked q A t ff f' Z P es (m, some (.ok ()))

theorem Looked.more {P : List Bytes} {es : List Env} {e : Env} {r : Mount × Option (Res Unit)} (h : Looked q A t ff f' Z P es r) : Looked q A t ff f' Z P (e :: es) r := by
  cases h with
  | running => exact .running
  | failed h1 h2 => exact .failed (by rw [List.flatMap_cons]; exact List.mem_append_right _ h1) h2
  | missing h1 h2 => exact .missing h1 h2
  | there h1 h2 h3 => exact .there h1 h2 h3

theorem untilFile_good (hc : Ctx q A t ff f') (hrep : normalize (normalizeMask ff) = .ok f'.replay) (S : Sys q A t ff f' Z K N G Ref) {P : List Bytes} : ∀ (es : List Env) {m : Mount} {l : Answer},
    Ahead t P l → K (on m.dec) l → m.eof = false → Looked q A t ff f' Z P es (untilFile A es m)
  | [], m, l, _, _, _ => .running
  | e :: es, m, l, hl, hk, he => by
    have ht := sync_good hc S hk he (ahead_plain hl).1 (.inr (ahead_plain hl).2) e
    have := ahead_turn hc hrep S (m := m) hl ht
    rw [untilFile]
    generalize sync A m e = r at this
    obtain ⟨m', r⟩ := r
    simp only at this ⊢
    rcases this with ⟨e', h1, h2, h3⟩ | ⟨h1, h2, h3⟩ | ⟨s, h1, h2, h3, h4, _, _⟩ | ⟨h1, l', h2, h3, h4⟩
    · subst h1
      exact .failed (by rw [List.flatMap_cons]; exact List.mem_append_left _ h2) h3
    · subst h1
      exact .missing h2 h3
    · subst h1
      exact .there h2 h3 h4
    · have ih := untilFile_good hc hrep S es h2 h3 h4
      rcases h1 with h1 | h1 | h1 <;> subst h1 <;> exact ih.more

/-- A call that goes to a path. -/
inductive ToPath (q : List Goodbye.NameItem → List Goodbye.NameItem) (A : Bytes) (t : Tree) (ff : Word) (f' : FF) (Z : SDec → Prop) (P : List Bytes) (es : List Env)
    (ref : Errno → Prop) : Mount × Option (Res Unit) → Prop
  | looked {r} : Looked q A t ff f' Z P es r → ToPath q A t ff f' Z P es ref r
  | refused {m e} : ref e → Z (on m.dec) → ToPath q A t ff f' Z P es ref (m, some (.err e))

theorem toPath_good (hc : Ctx q A t ff f') (hrep : normalize (normalizeMask ff) = .ok f'.replay) (S : Sys q A t ff f' Z K N G Ref) {m : Mount} (hz : Z (on m.dec)) (hg : G .object) (p : Bytes)
    (size : Option Errno) (es : List Env) :
    ToPath q A t ff f' Z (components p) es (fun e => e ∈ size.toList ∨ Ref p .object e) (toPath A m p size es) := by
  have h := seekWith_good S hz size p .object hg (f := (seekPath · p)) rfl
  unfold toPath
  generalize seekWith m size (seekPath · p) = r at h
  have ha := ahead_start t (stopDepth m.dec) (components p)
  generalize t.answer (stopDepth m.dec) (components p) .object = l at h ha
  cases h with
  | failed h1 h2 =>
    rcases h2 with h2 | h2
    · exact absurd h2 (ahead_plain ha).1
    · exact .refused h2 h1
  | ok h1 h2 h3 => exact .looked (untilFile_good hc hrep S es ha h1 h2)

end Casync.Fuse
