import Verif.Lemmas.FuseAt
/-!
What one call of `ca_sync_step()` gives.
-/
namespace Casync.Fuse
open Casync Flags Archive

variable {q : List Goodbye.NameItem → List Goodbye.NameItem} {A : Bytes} {t : Tree} {ff : Word} {f' : FF}

/-- The next thing to be seen is a byte of a file. -/
def Starts (l : Answer) : Prop := ∃ b r, l = .see (.seen (.byte b) :: r)

theorem skip_starts (hc : Ctx q A t ff f') {d : SDec} {l : Answer} (h : OK q A t ff f' (on d) l) (hs : SkipsIn (sStep d) (sStep (on d))) : Starts l := by
  have hg := all_good hc h
  obtain ⟨h1, h2, h3, h4, n, ns, s, h5, h6, h7⟩ := hs
  generalize sStep (on d) = r' at *
  obtain ⟨d', r'⟩ := r'
  simp only at h2 h3 h4 h5 h7
  subst h2
  cases hg with
  | see h => simp at h
  | request _ hok =>
    rcases hok with ⟨r, hr, hp⟩ | hk
    · rw [hr]
      cases hp with
      | eof _ _ he => rw [he] at h3; cases h3
      | @at_ n' ns' x xs s' path y own hb hm hcur hpos =>
        have hn := hcur.nodes
        rw [h5] at hn
        injection hn with hn1 hn2
        subst hn1
        cases hpos with
        | enter hst => rw [h3] at hst; rcases hst with hst | hst <;> cases hst
        | entry hst => rw [h3] at hst; cases hst
        | dir hst => rw [h3] at hst; cases hst
        | goodbye hst => rw [h3] at hst; cases hst
        | finalize hst => rw [h3] at hst; cases hst
        | @payload e a api c hst hs hps hle hat =>
          obtain ⟨p, hp⟩ := Option.isSome_iff_exists.1 hps
          obtain ⟨n2, ns2, x2, xs2, e1, e2, hno⟩ := hcur.stack.head
          injection e1 with e1 _
          have hof := hno.parsed p (by rw [← e1]; exact hp)
          rw [hs] at hof
          have hsz := nodeSize_file hp hof
          rw [h6] at hsz
          injection hsz with hsz
          have hlt : d'.core.payloadOff + d'.core.stepSize < (stored api c).length := by omega
          rw [List.drop_eq_getElem_cons hlt]
          exact ⟨_, _, rfl⟩
    · cases hk with
      | nowhere _ hk => rw [hk] at h4; cases h4
      | prep hk => rw [hk] at h4; cases h4
      | seeking hk => rw [hk] at h4; cases h4
      | entered hk => rw [hk] at h4; cases h4

theorem step_same (hc : Ctx q A t ff f') {d : SDec} {l : Answer} (h : OK q A t ff f' (on d) l) (hw : on d = d ∨ ¬ Starts l) : sStep (on d) = onR (sStep d) := by
  rcases sStep_on d with hs | hs
  · exact hs
  rcases hw with hw | hw
  · rw [hw] at hs
    have := hs.skip
    rw [hs.asks] at this
    injection this with this
    injection this with this
    cases this
  · exact absurd (skip_starts hc h hs) hw

theorem step_wants {d : SDec} (hw : on d = d) : on (sStep d).1 = (sStep d).1 := by
  rcases sStep_on d with hs | hs
  · rw [hw] at hs
    have := congrArg Prod.fst hs
    exact this.symm
  · rw [hw] at hs
    have := hs.skip
    rw [hs.asks] at this
    injection this with this
    injection this with this
    cases this

theorem seek_wants {d : SDec} (hw : on d = d) (p : Bytes) (s : Bool) (k : Option Nat) : on (seekInternal d p s k).1 = (seekInternal d p s k).1 := by
  have := seekInternal_on d p s k
  rw [hw] at this
  exact (congrArg Prod.fst this).symm

/-- A decoder that has just reported an object. -/
structure At (d : SDec) : Prop where
  mode : d.mode = none
  reads : Reads d.core

theorem locate_errs {rows : List Goodbye.Item} {g o : Nat} {h : Nat} {i : Nat} {e : Errno} (hl : Goodbye.locate rows g o h i = .err e) : e = .EBADMSG := by
  unfold Goodbye.locate at hl
  repeat' split at hl
  all_goals first | (cases hl; done) | (injection hl with hl; exact hl.symm)

theorem seekInternal_errs (d : SDec) (p : Bytes) (s : Bool) (k : Option Nat) : ∀ e, (seekInternal d p s k).2 = .err e → e ∈ [Errno.EUNATCH, .ESPIPE, .ENODATA, .EBADMSG] := by
  intro e h
  unfold seekInternal doSeek seekHere seekDown at h
  simp only at h
  repeat' split at h
  all_goals first
    | (cases h; done)
    | (injection h with h; subst h; simp; done)
    | (rename_i hl; injection h with h; subst h; rw [locate_errs hl]; simp; done)

/-- A good result of a step of the decoder: `K` holds while it is being used, `N` when an object has been reported, `Z` when it can be put aside; `l` is what is to be seen. -/
inductive Good (Z : SDec → Prop) (K N : SDec → Answer → Prop) (l : Answer) : SDec × Res SEv → Prop
  | request {d'} : d'.core.eof = false → K d' l → Good Z K N l (d', .ok (.plain .request))
  | step {d'} : K d' l → Good Z K N l (d', .ok (.plain .step))
  | seek {d'} : K d' l → Good Z K N l (d', .ok .seek)
  | nextFile {d' l'} : l = .see ((atoms (observe d'.core .nextFile)).map .seen ++ l') → N d' (.see l') → Z d' → Good Z K N l (d', .ok (.plain .nextFile))
  | payload {d' l'} : l = .see ((atoms (observe d'.core .payload)).map .seen ++ l') → K d' (.see l') → Z d' → Good Z K N l (d', .ok (.plain .payload))
  | doneFile {d' l'} : l = .see ((atoms (observe d'.core .doneFile)).map .seen ++ l') → K d' (.see l') → Good Z K N l (d', .ok (.plain .doneFile))
  | found {d' l'} : l = .see (.found (currentPath d'.core) :: l') → K d' (.see l') → Good Z K N l (d', .ok .found)
  | refused {d'} : l = .notFile → Good Z K N l (d', .err .EUNATCH)
  | notFound {d'} : l = .missing → Z d' → Good Z K N l (d', .ok .notFound)
  | finished {d'} : l = .see [] → Z d' → Good Z K N l (d', .ok (.plain .finished))

/-- A result of a seek. -/
inductive Sought (Z : SDec → Prop) (K : SDec → Answer → Prop) (l : Answer) (Ref : Errno → Prop) : SDec × Res Bool → Prop
  | ok {d' b} : K d' l → Sought Z K l Ref (d', .ok b)
  | refused {d' e} : Z d' → l = .notFile ∨ Ref e → Sought Z K l Ref (d', .err e)

/-- What a decoder keeps. -/
structure Sys (q : List Goodbye.NameItem → List Goodbye.NameItem) (A : Bytes) (t : Tree) (ff : Word) (f' : FF) (Z : SDec → Prop) (K N : SDec → Answer → Prop)
    (G : Goal → Prop) (Ref : Bytes → Goal → Errno → Prop) : Prop where
  ok : ∀ {d l}, K d l → OK q A t ff f' d l
  next : ∀ {d l}, N d l → OK q A t ff f' d l
  base : ∀ {d}, Z d → Base q A t ff f' d
  good : ∀ {d l}, K d l → Good Z K N l (sStep d)
  buffer : ∀ {d l c}, K d l → SameBut d.core c → BufOK A c → K (withCore d c) l
  seek : ∀ {d}, Z d → ∀ p g, G g → Sought Z K (t.answer (stopDepth d) (components p) g) (Ref p g) (seekInternal d p g.sibling g.pay)

/-- A good result of `ca_sync_step()`; `l` is what is to be seen. -/
inductive Turn (B Z : SDec → Prop) (K N : SDec → Answer → Prop) (env : Env) (l : Answer) : Mount × Res Out → Prop
  | fail {m e} : B (on m.dec) → e ∈ env.errs → Turn B Z K N env l (m, .err e)
  | go {m} : K (on m.dec) l → m.eof = false → Turn B Z K N env l (m, .ok .go)
  | found {m p l'} : l = .see (.found p :: l') → K (on m.dec) (.see l') → m.eof = false → Turn B Z K N env l (m, .ok .found)
  | nextFile {m l'} : l = .see ((atoms (observe m.dec.core .nextFile)).map .seen ++ l') → N (on m.dec) (.see l') → m.eof = false → At m.dec → Z (on m.dec) →
      Turn B Z K N env l (m, .ok .nextFile)
  | doneFile {m l'} : l = .see (.seen (.doneFile (currentPath m.dec.core)) :: l') → K (on m.dec) (.see l') → m.eof = false →
      Turn B Z K N env l (m, .ok .doneFile)
  | payload {m l'} : l = .see ((getPayload m.dec.core).map (fun b => .seen (.byte b)) ++ l') → K (on m.dec) (.see l') → m.eof = false → Z (on m.dec) →
      Turn B Z K N env l (m, .ok .payload)
  | notFound {m} : l = .missing → Z (on m.dec) → Turn B Z K N env l (m, .ok .notFound)
  | finished {m} : l = .see [] → Z (on m.dec) → Turn B Z K N env l (m, .ok .finished)

theorem sync_good {Z : SDec → Prop} {K N : SDec → Answer → Prop} {G : Goal → Prop} {Ref : Bytes → Goal → Errno → Prop} (hc : Ctx q A t ff f') (S : Sys q A t ff f' Z K N G Ref) {m : Mount} {l : Answer}
    (h : K (on m.dec) l) (he : m.eof = false) (hl : l ≠ .notFile)
    (hw : on m.dec = m.dec ∨ ¬ Starts l) (env : Env) : Turn (Base q A t ff f') Z K N env l (sync A m env) := by
  cases env with
  | idle => exact .go h he
  | fail e => exact .fail (S.ok h).base (List.mem_singleton.2 rfl)
  | run src =>
    have hst := step_same hc (S.ok h) hw
    have hg := S.good h
    rw [hst] at hg
    unfold sync
    simp only [he, Bool.false_eq_true, if_false]
    generalize hr : sStep m.dec = r at hg
    obtain ⟨d', r⟩ := r
    simp only [onR] at hg
    have hmove : K (on d') l → Turn (Base q A t ff f') Z K N (.run src) l (move (put m d') src) := by
      intro h2
      cases src with
      | fail e => exact .fail (S.ok h2).base (List.mem_singleton.2 rfl)
      | bytes n => exact .go h2 he
      | later => exact .go h2 he
    generalize hd : on d' = d'' at hg
    cases hg with
    | step h2 => subst hd; exact .go h2 he
    | seek h2 => subst hd; exact hmove h2
    | nextFile h3 h2 hz => subst hd; exact .nextFile h3 h2 he ⟨(sStep_nextFile hr).1, (sStep_nextFile hr).2⟩ hz
    | @doneFile _ l' h3 h2 =>
      subst hd
      refine .doneFile ?_ h2 he
      rw [h3]
      rfl
    | @payload _ l' h3 h2 hz =>
      subst hd
      refine .payload ?_ h2 he hz
      rw [h3]
      show Answer.see ((atoms [Obs.payload (getPayload (on d').core)]).map SAtom.seen ++ l') = _
      rw [atoms_one, Obs.atoms, List.map_map]
      rfl
    | found h2 h3 => subst hd; exact .found h2 h3 he
    | refused h2 => exact absurd h2 hl
    | notFound h2 h3 => subst hd; exact .notFound h2 h3
    | finished h2 h3 => subst hd; exact .finished h2 h3
    | request h2 h3 =>
      subst hd
      show Turn (Base q A t ff f') Z K N (.run src) l (feed A (put m d') src)
      cases src with
      | fail e => exact .fail (S.ok h3).base (List.mem_singleton.2 rfl)
      | later => exact .go h3 he
      | bytes n =>
        unfold feed
        simp only
        have hq : requestOffset (put m d').dec = requestOffset (on d') := rfl
        rw [hq]
        by_cases hp : (A.drop (requestOffset (on d'))).take (n + 1) = []
        · rw [if_pos hp]
          have hnil : A.drop (requestOffset (on d')) = [] := by
            cases hA : A.drop (requestOffset (on d')) with
            | nil => rfl
            | cons a b => rw [hA] at hp; cases hp
          refine .go (m := put (put m d') (withCore (put m d').dec (putEof (put m d').dec.core))) ?_ he
          have := S.buffer (c := putEof (on d').core) h3 (.eof _) ((S.ok h3).base.buf.putEof hnil)
          exact this
        · rw [if_neg hp]
          have hput : putData (put m d').dec.core ((A.drop (requestOffset (on d'))).take (n + 1)) = .ok { d'.core with buf := d'.core.buf ++ (A.drop (requestOffset (on d'))).take (n + 1) } := by
            unfold putData
            rw [if_neg hp, if_neg (show ¬ (put m d').dec.core.eof = true by rw [show (put m d').dec.core.eof = (on d').core.eof from rfl, h2]; simp)]
            rfl
          have hput2 : putData (on d').core ((A.drop (requestOffset (on d'))).take (n + 1)) = .ok (onC { d'.core with buf := d'.core.buf ++ (A.drop (requestOffset (on d'))).take (n + 1) }) := by
            unfold putData
            rw [if_neg hp, if_neg (by rw [h2]; simp)]
            rfl
          rw [hput]
          have := S.buffer h3 (.put hput2) ((S.ok h3).base.buf.put (List.take_prefix ..) hput2)
          exact .go this he

/-- The states of a decoder, without more. -/
theorem sys_ok (hc : Ctx q A t ff f') : Sys q A t ff f' (Base q A t ff f') (OK q A t ff f') (OK q A t ff f') (fun _ => True) (fun _ _ e => e ∈ [Errno.EUNATCH, .ESPIPE, .ENODATA, .EBADMSG]) where
  ok := id
  next := id
  base := id
  good := by
    intro d l h
    have hg := all_good hc h
    generalize sStep d = r at hg
    cases hg with
    | request a b => exact .request a b
    | step b => exact .step b
    | seek b => exact .seek b
    | see hev h2 h3 =>
      simp only [List.mem_cons, List.not_mem_nil, or_false] at hev
      rcases hev with rfl | rfl | rfl
      · exact .nextFile h3 h2 h2.base
      · exact .doneFile h3 h2
      · exact .payload h3 h2 h2.base
    | found a b => exact .found a b
    | refused a => exact .refused a
    | notFound a b => exact .notFound a b.base
    | finished a b => exact .finished a b.base
  buffer := fun h1 h2 h3 => h1.buffer h2 h3
  seek := by
    intro d h p g _
    obtain ⟨d1, h1, h2⟩ := seekInternal_good hc h p g
    have he := seekInternal_errs d p g.sibling g.pay
    generalize seekInternal d p g.sibling g.pay = r at h2 he
    cases h2 with
    | go h => exact .ok (.inr h)
    | gone _ h => exact .ok (.inr h)
    | refused h => exact .refused h1 (.inl h)
    | failed _ => exact .refused h1 (.inr (he _ rfl))

theorem onC_buf {c : Dec} (h : onC c = c) (b : Bytes) : onC { c with buf := b } = { c with buf := b } := by
  have h1 : { c.cfg with wantPayload := true } = c.cfg := congrArg Dec.cfg h
  show { c with buf := b, cfg := { c.cfg with wantPayload := true } } = _
  rw [h1]

theorem sync_wants {m : Mount} (hw : on m.dec = m.dec) (env : Env) : on (sync A m env).1.dec = (sync A m env).1.dec := by
  cases env with
  | idle => exact hw
  | fail e => exact hw
  | run src =>
    unfold sync
    simp only
    by_cases he : m.eof = true
    · rw [if_pos he]; exact hw
    rw [if_neg he]
    have h := step_wants hw
    generalize sStep m.dec = r at h
    obtain ⟨d', r⟩ := r
    simp only at h ⊢
    have hmove : on (move (put m d') src).1.dec = (move (put m d') src).1.dec := by cases src <;> exact h
    have hfeed : on (feed A (put m d') src).1.dec = (feed A (put m d') src).1.dec := by
      unfold feed
      cases src with
      | fail e => exact h
      | later => exact h
      | bytes n =>
        simp only
        split
        · show on (withCore d' (putEof d'.core)) = withCore d' (putEof d'.core)
          rw [on_put]
          show withCore (on d') (onC (putEof d'.core)) = _
          have : onC (putEof d'.core) = putEof d'.core := by
            have h2 : onC d'.core = d'.core := congrArg SDec.core h
            exact congrArg putEof h2
          rw [this, h]
        · have h2 : onC d'.core = d'.core := congrArg SDec.core h
          unfold putData
          split
          · rename_i c hc
            split at hc
            · injection hc with hc
              subst hc
              show on (withCore d' _) = withCore d' _
              rw [on_put, h, show onC (put m d').dec.core = (put m d').dec.core from h2]
            split at hc
            · cases hc
            · injection hc with hc
              subst hc
              show on (withCore d' { d'.core with buf := _ }) = withCore d' { d'.core with buf := _ }
              rw [on_put, h]
              exact congrArg (withCore d') (onC_buf h2 _)
          · exact h
          · exact h
    cases r with
    | err e => exact h
    | ub => exact h
    | ok ev =>
      cases ev with
      | seek => exact hmove
      | found => exact h
      | notFound => exact h
      | plain ev => cases ev <;> first | exact hmove | exact hfeed | exact h

end Casync.Fuse
