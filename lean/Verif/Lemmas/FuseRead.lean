import Verif.Lemmas.FuseLoop
/-!
The loop of `casync_read()`.
-/
namespace Casync.Fuse
open Casync Flags Archive

variable {q : List Goodbye.NameItem → List Goodbye.NameItem} {A : Bytes} {t : Tree} {ff : Word} {f' : FF} {Z : SDec → Prop} {K N : SDec → Answer → Prop}
  {G : Goal → Prop} {Ref : Bytes → Goal → Errno → Prop}

/-- The result of reading: `W` is the content from the offset on, `none` if there is none. -/
inductive Copied (q : List Goodbye.NameItem → List Goodbye.NameItem) (A : Bytes) (t : Tree) (ff : Word) (f' : FF) (Z : SDec → Prop) (W : Option Bytes) (n : Nat) (es : List Env) :
    Mount × Option (Res Bytes) → Prop
  | running {m} : Copied q A t ff f' Z W n es (m, none)
  | failed {m e} : e ∈ es.flatMap Env.errs → Base q A t ff f' (on m.dec) → Copied q A t ff f' Z W n es (m, some (.err e))
  | missing {m} : W = none → Z (on m.dec) → Copied q A t ff f' Z W n es (m, some (.err .ENOENT))
  | there {m w b} : W = some w → b.length ≤ n → w.take n <+: b → Z (on m.dec) → Copied q A t ff f' Z W n es (m, some (.ok b))

theorem Copied.more {W : Option Bytes} {n : Nat} {es : List Env} {e : Env} {r : Mount × Option (Res Bytes)} (h : Copied q A t ff f' Z W n es r) : Copied q A t ff f' Z W n (e :: es) r := by
  cases h with
  | running => exact .running
  | failed h1 h2 => exact .failed (by rw [List.flatMap_cons]; exact List.mem_append_right _ h1) h2
  | missing h1 h2 => exact .missing h1 h2
  | there h1 h2 h3 h4 => exact .there h1 h2 h3 h4

/-- Nothing there. -/
theorem content_missing (hc : Ctx q A t ff f') (S : Sys q A t ff f' Z K N G Ref) (n : Nat) (left : Nat) : ∀ (es : List Env) {m : Mount}, left + 1 ≤ n + 1 →
    K (on m.dec) .missing → m.eof = false → on m.dec = m.dec → Copied q A t ff f' Z none n es (content A es m (left + 1) [])
  | [], m, _, _, _, _ => by rw [content]; rw [if_neg (by omega)]; exact .running
  | e :: es, m, hn, hk, he, hw => by
    have ht := sync_good hc S hk he (by simp) (.inl hw) e
    have hw' := sync_wants (A := A) hw e
    rw [content]
    rw [if_neg (by omega)]
    generalize sync A m e = r at ht hw'
    cases ht with
    | fail h1 h2 => exact .failed (by rw [List.flatMap_cons]; exact List.mem_append_left _ h2) h1
    | go h1 h2 => exact (content_missing hc S n left es hn h1 h2 hw').more
    | found h1 => cases h1
    | nextFile h1 => cases h1
    | doneFile h1 => cases h1
    | payload h1 => cases h1
    | notFound h1 h2 => exact .missing rfl h2
    | finished h1 => cases h1

/-- The bytes that are shown are those that are to come. -/
theorem cut_bytes {P : List Bytes} {l' : List SAtom} {L : List Atom} : ∀ (bs w : Bytes),
    (w.map Atom.byte ++ .doneFile P :: L).map SAtom.seen = bs.map (fun b => SAtom.seen (.byte b)) ++ l' →
    ∃ w', w = bs ++ w' ∧ l' = (w'.map Atom.byte ++ .doneFile P :: L).map .seen
  | [], w, h => ⟨w, rfl, h.symm⟩
  | b :: bs, [], h => by
    rw [List.map_nil, List.nil_append, List.map_cons, List.map_cons, List.cons_append] at h
    injection h with h
    injection h with h
    cases h
  | b :: bs, c :: w, h => by
    rw [List.map_cons, List.cons_append, List.map_cons, List.map_cons, List.cons_append] at h
    injection h with h h2
    injection h with h
    injection h with h
    obtain ⟨w', h3, h4⟩ := cut_bytes bs w h2
    exact ⟨w', by rw [h, h3]; rfl, h4⟩

/-- What has been copied. -/
inductive Copying (W : Bytes) (P : List Bytes) (acc : Bytes) (left : Nat) (l : Answer) : Prop
  | within (w : Bytes) (L : List Atom) : acc ++ w = W → l = .see ((w.map Atom.byte ++ .doneFile P :: L).map .seen) → Copying W P acc left l
  | past (l' : List SAtom) : W <+: acc → l = .see l' → Copying W P acc left l
  | full : left = 0 → acc <+: W → Copying W P acc left l

theorem Copying.done {W : Bytes} {P : List Bytes} {acc : Bytes} {n : Nat} {l : Answer} (h : Copying W P acc 0 l) (hn : acc.length = n) : W.take n <+: acc := by
  cases h with
  | within w L h1 => rw [← h1, ← hn, List.take_left]; exact List.prefix_refl _
  | past l' h1 => exact List.IsPrefix.trans (List.take_prefix ..) h1
  | full h0 h1 =>
    obtain ⟨w, h1⟩ := h1
    rw [← h1, ← hn, List.take_left]
    exact List.prefix_refl _

/-- After a piece of the content. -/
theorem Copying.piece {W : Bytes} {P : List Bytes} {acc : Bytes} {left : Nat} {l : Answer} {bs : Bytes} {l' : List SAtom} (h : Copying W P acc (left + 1) l)
    (hl : l = .see (bs.map (fun b => .seen (.byte b)) ++ l')) : Copying W P (acc ++ bs.take (left + 1)) (left + 1 - (bs.take (left + 1)).length) (.see l') := by
  cases h with
  | within w L h1 h2 =>
    rw [h2] at hl
    injection hl with hl
    obtain ⟨w', h3, h4⟩ := cut_bytes bs w hl
    by_cases hb : bs.length ≤ left + 1
    · rw [List.take_of_length_le hb]
      exact .within w' L (by rw [List.append_assoc, ← h3, h1]) (by rw [h4])
    · refine .full (by rw [List.length_take]; omega) ⟨bs.drop (left + 1) ++ w', ?_⟩
      rw [← h1, h3, List.append_assoc, ← List.append_assoc (bs.take _), List.take_append_drop]
  | past l'' h1 => exact .past l' (List.IsPrefix.trans h1 (List.prefix_append ..)) rfl
  | full h0 => omega

/-- After anything else that is seen. -/
theorem Copying.other {W : Bytes} {P : List Bytes} {acc : Bytes} {left : Nat} {l : Answer} {x : SAtom} {l' : List SAtom} (h : Copying W P acc (left + 1) l)
    (hl : l = .see (x :: l')) (hx : ∀ b, x ≠ .seen (.byte b)) : Copying W P acc (left + 1) (.see l') := by
  cases h with
  | within w L h1 h2 =>
    cases w with
    | nil => exact .past l' ⟨[], by rw [← h1, List.append_nil, List.append_nil]⟩ rfl
    | cons b w =>
      rw [h2] at hl
      injection hl with hl
      injection hl with hl
      exact absurd hl.symm (hx b)
  | past l'' h1 => exact .past l' h1 rfl
  | full h0 => omega

theorem content_good (hc : Ctx q A t ff f') (S : Sys q A t ff f' Z K N G Ref) (hN : ∀ d l, N d l → K d l) {W : Bytes} {P : List Bytes} {n : Nat} : ∀ (es : List Env) {m : Mount} {l : Answer} {left : Nat} {acc : Bytes},
    Copying W P acc left l → acc.length + left = n → (left = 0 → Z (on m.dec)) → K (on m.dec) l → m.eof = false → on m.dec = m.dec →
    Copied q A t ff f' Z (some W) n es (content A es m left acc)
  | es, m, l, 0, acc, hl, hn, hz, hk, he, hw => by
    rw [content.eq_def]
    simp only [if_true]
    exact .there rfl (by omega) (hl.done (by omega)) (hz rfl)
  | [], m, l, left + 1, acc, hl, hn, hz, hk, he, hw => by rw [content]; rw [if_neg (by omega)]; exact .running
  | e :: es, m, l, left + 1, acc, hl, hn, hz, hk, he, hw => by
    have hsee : ∃ x, l = .see x := by
      cases hl with
      | within w L h1 h2 => exact ⟨_, h2⟩
      | past l' h1 h2 => exact ⟨_, h2⟩
      | full h0 => omega
    have ht := sync_good hc S hk he (by obtain ⟨x, hx⟩ := hsee; rw [hx]; simp) (.inl hw) e
    have hw' := sync_wants (A := A) hw e
    rw [content]
    rw [if_neg (by omega)]
    generalize sync A m e = r at ht hw'
    cases ht with
    | fail h1 h2 => exact .failed (by rw [List.flatMap_cons]; exact List.mem_append_left _ h2) h1
    | go h1 h2 => exact (content_good hc S hN es hl hn (fun h => by omega) h1 h2 hw').more
    | found h1 h2 h3 => exact (content_good hc S hN es (hl.other h1 (by intro b; simp)) hn (fun h => by omega) h2 h3 hw').more
    | nextFile h1 h2 h3 h4 =>
      obtain ⟨p1, e1, a1, s1, hob⟩ := at_observe h4
      rw [hob] at h1
      exact (content_good hc S hN es (hl.other h1 (by intro b; simp)) hn (fun h => by omega) (hN _ _ h2) h3 hw').more
    | doneFile h1 h2 h3 => exact (content_good hc S hN es (hl.other h1 (by intro b; simp)) hn (fun h => by omega) h2 h3 hw').more
    | @payload m' l' h1 h2 h3 h4 =>
      refine (content_good hc S hN es (hl.piece h1) ?_ (fun _ => h4) h2 h3 hw').more
      rw [List.length_append]
      have := List.length_take_le (left + 1) (getPayload m'.dec.core)
      omega
    | notFound h1 h2 =>
      obtain ⟨x, hx⟩ := hsee
      rw [hx] at h1
      cases h1
    | finished h1 h2 =>
      refine .there rfl (by omega) ?_ h2
      cases hl with
      | within w L h3 h4 =>
        rw [h1] at h4
        injection h4 with h4
        cases w <;> cases h4
      | past l' h3 h4 => exact List.IsPrefix.trans (List.take_prefix ..) h3
      | full h0 => omega

/-- `casync_read()`. -/
inductive ReadAt (q : List Goodbye.NameItem → List Goodbye.NameItem) (A : Bytes) (t : Tree) (ff : Word) (f' : FF) (Z : SDec → Prop) (W : Option Bytes) (n : Nat) (es : List Env)
    (ref : Errno → Prop) : Mount × Option (Res Bytes) → Prop
  | copied {r} : Copied q A t ff f' Z W n es r → ReadAt q A t ff f' Z W n es ref r
  | refused {m e} : ref e → Z (on m.dec) → ReadAt q A t ff f' Z W n es ref (m, some (.err e))

/-- The content of a file from an offset on, if it is there. -/
def contentFrom (t : Tree) (P : List Bytes) (off : Nat) : Option Bytes :=
  match t.find P with
  | some (.file _ _ api c) => if (stored api c).length < off then none else some ((stored api c).drop off)
  | _ => none

theorem read_good (hc : Ctx q A t ff f') (S : Sys q A t ff f' Z K N G Ref) (hN : ∀ d l, N d l → K d l) (hG : ∀ k, G (.content k)) {m : Mount} (hz : Z (on m.dec)) (p : Bytes) {n off : Nat}
    (hs : Sensible t (.read p n off)) (size : Option Errno) (es : List Env) :
    ReadAt q A t ff f' Z (contentFrom t (components p) off) n es (fun e => e ∈ size.toList ∨ Ref p (.content off) e) (read A m p n off size es) := by
  obtain ⟨hn, hoff, hfile⟩ := hs
  have h := seekWith_good S (m := setPayload m true) hz size p (.content off) (hG off) (f := (seekPathOffset · p off)) rfl
  unfold read
  rw [if_neg (by unfold u64max; omega)]
  generalize seekWith (setPayload m true) size (seekPathOffset · p off) = r at h
  have hans : (contentFrom t (components p) off = none ∧ t.answer (stopDepth (setPayload m true).dec) (components p) (.content off) = .missing) ∨
      ∃ (W : Bytes) (L : List Atom), contentFrom t (components p) off = some W ∧
        t.answer (stopDepth (setPayload m true).dec) (components p) (.content off) = .see ((W.map Atom.byte ++ .doneFile (components p) :: L).map .seen) := by
    unfold contentFrom Tree.answer
    cases hf : t.find (components p) with
    | none => exact .inl ⟨rfl, rfl⟩
    | some s =>
      obtain ⟨e, a, api, c, rfl⟩ := hfile s hf
      simp only
      by_cases hlt : (stored api c).length < off
      · rw [if_pos hlt, if_pos hlt]; exact .inl ⟨rfl, rfl⟩
      · rw [if_neg hlt, if_neg hlt]; exact .inr ⟨_, _, rfl, rfl⟩
  generalize t.answer (stopDepth (setPayload m true).dec) (components p) (.content off) = l at h hans
  cases h with
  | failed h1 h2 =>
    rcases h2 with h2 | h2
    · subst h2
      rcases hans with ⟨_, h⟩ | ⟨_, _, _, h⟩ <;> cases h
    · exact .refused h2 h1
  | ok h1 h2 h3 =>
    refine .copied ?_
    have h3 := h3 rfl
    rcases hans with ⟨h4, h5⟩ | ⟨W, L, h4, h5⟩
    · rw [h4]
      subst h5
      cases n with
      | zero => omega
      | succ n => exact content_missing hc S (n + 1) n es (by omega) h1 h2 h3
    · rw [h4]
      exact content_good hc S hN es (.within W L rfl h5) (by simp) (fun h => by omega) h1 h2 h3

end Casync.Fuse
