import Verif.Lemmas.FuseRead
import Verif.Props.Seek
/-!
The loop of `casync_readdir()`.
-/
namespace Casync.Fuse
open Casync Flags Archive

variable {q : List Goodbye.NameItem → List Goodbye.NameItem} {A : Bytes} {t : Tree} {ff : Word} {f' : FF} {Z : SDec → Prop} {K N : SDec → Answer → Prop}
  {G : Goal → Prop} {Ref : Bytes → Goal → Errno → Prop}

theorem baseName_end {a x : Bytes} (hx : (47 : UInt8) ∉ x) : baseName (a ++ 47 :: x) = x := by
  unfold baseName
  rw [List.reverse_append, List.reverse_cons, List.append_assoc, List.takeWhile_append_of_pos]
  · rw [List.singleton_append, List.takeWhile_cons_of_neg (by decide), List.append_nil, List.reverse_reverse]
  · intro b hb
    rw [List.mem_reverse] at hb
    simp only [bne_iff_ne, ne_eq]
    intro e
    subst e
    exact hx hb

theorem baseName_self {x : Bytes} (hx : (47 : UInt8) ∉ x) : baseName x = x := by
  unfold baseName
  have := List.takeWhile_append_of_pos (p := fun b : UInt8 => b != 47) (l₁ := x.reverse) (l₂ := []) (by
    intro b hb
    rw [List.mem_reverse] at hb
    simp only [bne_iff_ne, ne_eq]
    intro e
    subst e
    exact hx hb)
  rw [List.append_nil] at this
  rw [this, List.takeWhile_nil, List.append_nil, List.reverse_reverse]

theorem pathString_end : ∀ (P : List Bytes) (x : Bytes), P ≠ [] → ∃ a, pathString (P ++ [x]) = a ++ 47 :: x
  | [], _, h => absurd rfl h
  | [a], x, _ => ⟨a, by rw [List.singleton_append, pathString, pathString]⟩
  | a :: b :: r, x, _ => by
    obtain ⟨c, hc⟩ := pathString_end (b :: r) x (by simp)
    rw [List.cons_append] at hc
    exact ⟨a ++ 47 :: c, by rw [List.cons_append, List.cons_append, pathString, hc, List.append_assoc, List.cons_append]⟩

theorem baseName_path (P : List Bytes) {x : Bytes} (hx : (47 : UInt8) ∉ x) : baseName (pathString (P ++ [x])) = x := by
  by_cases h : P = []
  · rw [h, List.nil_append, pathString, baseName_self hx]
  · obtain ⟨a, ha⟩ := pathString_end P x h
    rw [ha, baseName_end hx]

/-- What is still to be seen of a directory. -/
inductive Rest (P : List Bytes) : List (Bytes × Tree) → Answer → Prop
  | here (rest) : Rest P rest (.see ((listedEvents P rest ++ [Atom.doneFile P]).map .seen))
  | found (x xs) : Rest P (x :: xs) (.see (.found (P ++ [x.1]) :: (listedEvents P (x :: xs) ++ [Atom.doneFile P]).map .seen))
  | done : Rest P [] (.see [])

theorem Rest.plain {P : List Bytes} {rest : List (Bytes × Tree)} {l : Answer} (h : Rest P rest l) : l ≠ .notFile ∧ ¬ Starts l := by
  cases h with
  | done => exact ⟨by simp, fun ⟨_, _, h⟩ => by cases h⟩
  | found x xs => refine ⟨by simp, fun ⟨_, _, h⟩ => ?_⟩; injection h with h; injection h with h; cases h
  | here rest =>
    refine ⟨by simp, fun ⟨_, _, h⟩ => ?_⟩
    injection h with h
    cases rest with
    | nil => injection h with h; injection h with h; cases h
    | cons x xs =>
      obtain ⟨r, hr⟩ := events_head (P ++ [x.1]) x.2
      rw [show listedEvents P (x :: xs) = events (P ++ [x.1]) x.2 ++ listedEvents P xs from rfl, hr] at h
      injection h with h
      injection h with h
      cases h

theorem after_mem {l1 l2 : List (Bytes × Tree)} {x : Bytes × Tree} (hn : ((l1 ++ x :: l2).map Prod.fst).Nodup) :
    ((l1 ++ x :: l2).dropWhile (fun z => z.1 != x.1)).tail = l2 := by
  induction l1 with
  | nil => rw [List.nil_append, List.dropWhile_cons_of_neg (by simp)]; rfl
  | cons y l1 ih =>
    rw [List.cons_append, List.map_cons, List.nodup_cons] at hn
    have hne : y.1 ≠ x.1 := fun e => hn.1 (List.mem_map.2 ⟨x, List.mem_append_right _ (List.mem_cons_self ..), e.symm⟩)
    rw [List.cons_append, List.dropWhile_cons_of_pos (by simpa using hne)]
    exact ih hn.2

theorem kids_unique_mem {x : Bytes × Tree} : ∀ {k : Kids}, k.Unique → x ∈ k.listed → x.2.Unique
  | .nil, _, h => by rw [Kids.listed] at h; cases h
  | .cons true n t r, hu, h => by
    rw [Kids.Unique] at hu
    rw [Kids.listed] at h
    rcases List.mem_cons.1 h with h | h
    · rw [h]; exact hu.1
    · exact kids_unique_mem hu.2 h
  | .cons false n t r, hu, h => by
    rw [Kids.Unique] at hu
    rw [Kids.listed] at h
    exact kids_unique_mem hu.2 h

/-- The unique subtree at a path. -/
theorem find_unique {t : Tree} (hu : t.Unique) : ∀ {P : List Bytes} {s : Tree}, t.find P = some s → s.Unique := by
  intro P
  induction P generalizing t with
  | nil => intro s h; rw [Tree.find] at h; injection h with h; rw [← h]; exact hu
  | cons c P ih =>
    intro s h
    rw [Tree.find] at h
    cases hf : t.entries.find? (fun x => x.1 == c) with
    | none => rw [hf] at h; cases h
    | some x =>
      rw [hf] at h
      have hm := List.mem_of_find?_eq_some hf
      rw [Tree.entries_eq] at hm
      exact ih (kids_unique_mem (Tree.kids_unique hu).2 hm) h

theorem seen_inj {a b : List Atom} (h : a.map SAtom.seen = b.map SAtom.seen) : a = b := by
  induction a generalizing b with
  | nil => cases b with | nil => rfl | cons y b => cases h
  | cons x a ih =>
    cases b with
    | nil => cases h
    | cons y b =>
      injection h with h1 h2
      injection h1 with h1
      rw [h1, ih h2]

/-- The names in a directory. -/
theorem entries_nodup (hc : Ctx q A t ff f') {P : List Bytes} {s : Tree} (hs : t.find P = some s) : (s.entries.map Prod.fst).Nodup := by
  rw [Tree.entries_eq]
  exact (Tree.kids_unique (find_unique hc.unique hs)).1

theorem find_child (hc : Ctx q A t ff f') {P : List Bytes} {s : Tree} (hs : t.find P = some s) {x : Bytes × Tree} (hx : x ∈ s.entries) : t.find (P ++ [x.1]) = some x.2 := by
  rw [find_append hs]
  rw [Tree.entries_eq] at hx
  rw [find_step (find_unique hc.unique hs) hx]
  rfl

/-- The next entry is looked for while the decoder is at an entry of a directory. -/
theorem child_next (hc : Ctx q A t ff f') {d : SDec} (hat : At d) {l' : List SAtom} (hok : OK q A t ff f' (on d) (.see l')) {P : List Bytes} {s : Tree}
    (hs : t.find P = some s) {prev : List (Bytes × Tree)} {x : Bytes × Tree} {xs : List (Bytes × Tree)} (he : s.entries = prev ++ x :: xs) (hp : currentPath d.core = P ++ [x.1])
    (hl : l' = ((events (P ++ [x.1]) x.2).tail ++ (listedEvents P xs ++ [Atom.doneFile P])).map .seen) :
    Rest P xs (t.answer (stopDepth d) (P ++ [x.1]) .next) := by
  have hx := find_child hc hs (x := x) (by rw [he]; exact List.mem_append_right _ (List.mem_cons_self ..))
  have hnd := entries_nodup hc hs
  have htl : ∀ {p1 y ys}, s.entries = p1 ++ y :: ys → (s.entries.dropWhile (fun z => z.1 != y.1)).tail = ys := by
    intro p1 y ys e
    rw [e] at hnd ⊢
    exact after_mem hnd
  have hafter : ∀ {b p1 y ys}, s.entries = p1 ++ y :: ys → b ≤ P.length →
      t.after b (P ++ [y.1]).reverse = listedEvents P ys ++ .doneFile P :: t.after b P.reverse := by
    intro b p1 y ys e hb
    rw [List.reverse_append, List.reverse_singleton, List.singleton_append, Tree.after, List.length_reverse, if_neg (by omega), List.reverse_reverse, hs]
    simp only
    rw [htl e]
    rfl
  have hrest : t.after (stopDepth d) (P ++ [x.1]).reverse = listedEvents P xs ++ [Atom.doneFile P] := by
    rcases hok with ⟨r, hr, hok⟩ | hok
    · cases hok with
      | @at_ n ns z zs s' path y own hb hm hcur hpos =>
        have hpath : path = P ++ [x.1] := by
          have h1 := (hcur.stack.facts hc).names
          rw [← hp, ← h1, ← hcur.nodes]
          rfl
        have hs' : s' = x.2 := by
          have h1 := (hcur.stack.facts hc).find
          rw [hpath, hx] at h1
          injection h1 with h1
          exact h1.symm
        have hst : (on d).core.state = .entry := hat.reads.state
        injection hr with hr
        cases hpos with
        | entry h1 h2 h3 h4 =>
          rw [hl] at hr
          have := seen_inj hr
          rw [hpath, hs'] at this
          exact (List.append_cancel_left this).symm
        | enter h1 => rw [hst] at h1; rcases h1 with h1 | h1 <;> cases h1
        | payload h1 => rw [hst] at h1; cases h1
        | dir h1 => rw [hst] at h1; cases h1
        | goodbye h1 => rw [hst] at h1; cases h1
        | finalize h1 => rw [hst] at h1; cases h1
      | eof h1 h2 h3 => rw [show (on d).core.state = .entry from hat.reads.state] at h3; cases h3
    · have hmode : (on d).mode = none := hat.mode
      generalize Answer.see l' = l at hok
      cases hok with
      | nowhere h1 h2 => rw [hmode] at h2; cases h2
      | prep h2 => rw [hmode] at h2; cases h2
      | seeking h2 => rw [hmode] at h2; cases h2
      | entered h2 => rw [hmode] at h2; cases h2
  have hb : stopDepth d ≤ P.length := by
    apply Classical.byContradiction
    intro hb
    rw [after_stop (by rw [List.length_append]; simp; omega)] at hrest
    cases hq : listedEvents P xs with
    | nil => rw [hq] at hrest; cases hrest
    | cons a b => rw [hq] at hrest; cases hrest
  have hend : t.after (stopDepth d) P.reverse = [] := by
    rw [hafter he hb] at hrest
    have := List.append_cancel_left hrest
    injection this
  have hgl : (P ++ [x.1]).getLast? = some x.1 := by simp
  unfold Tree.answer
  simp only
  rw [if_neg (by rw [List.length_append]; simp; omega), List.dropLast_concat, hx, hs, hgl]
  simp only
  rw [htl he]
  cases xs with
  | nil =>
    simp only
    rw [hend]
    exact .here []
  | cons y ys =>
    simp only
    rw [hafter (p1 := prev ++ [x]) (y := y) (ys := ys) (by rw [he]; simp) hb, hend, ← List.append_assoc]
    exact .found y ys

/-- The result of listing the object at `P`. -/
inductive Listed (q : List Goodbye.NameItem → List Goodbye.NameItem) (A : Bytes) (t : Tree) (ff : Word) (f' : FF) (Z : SDec → Prop) (P : List Bytes) (room : Nat) (es : List Env)
    (ref : Errno → Prop) : Mount × Option (Res Listing) → Prop
  | running {m} : Listed q A t ff f' Z P room es ref (m, none)
  | failed {m e} : e ∈ es.flatMap Env.errs → Base q A t ff f' (on m.dec) → Listed q A t ff f' Z P room es ref (m, some (.err e))
  | refused {m e} : ref e → Z (on m.dec) → Listed q A t ff f' Z P room es ref (m, some (.err e))
  | missing {m} : t.find P = none → Z (on m.dec) → Listed q A t ff f' Z P room es ref (m, some (.err .ENOENT))
  | full {m s} : t.find P = some s → room < s.entries.length + 2 → Z (on m.dec) → Listed q A t ff f' Z P room es ref (m, some (.err .ENOBUFS))
  | there {m s} : t.find P = some s → ¬ room < s.entries.length + 2 → Z (on m.dec) → Listed q A t ff f' Z P room es ref (m, some (.ok (listingOf s)))

theorem Listed.more {P : List Bytes} {room : Nat} {es : List Env} {ref : Errno → Prop} {e : Env} {r : Mount × Option (Res Listing)} (h : Listed q A t ff f' Z P room es ref r) :
    Listed q A t ff f' Z P room (e :: es) ref r := by
  cases h with
  | running => exact .running
  | failed h1 h2 => exact .failed (by rw [List.flatMap_cons]; exact List.mem_append_right _ h1) h2
  | refused h1 h2 => exact .refused h1 h2
  | missing h1 h2 => exact .missing h1 h2
  | full h1 h2 h3 => exact .full h1 h2 h3
  | there h1 h2 h3 => exact .there h1 h2 h3

/-- The errors of a seek to the next entry. -/
def RefNext (t : Tree) (Ref : Bytes → Goal → Errno → Prop) (P : List Bytes) (e : Errno) : Prop :=
  ∃ p nm s, components p = P ++ [nm] ∧ t.find (P ++ [nm]) = some s ∧ Ref p .next e

/-- The entries so far. -/
def listedSo (prev : List (Bytes × Tree)) : Listing := [([46], none), ([46, 46], none)] ++ prev.map fun x => (x.1, some (statOf x.2))

/-- Only the entries of a directory are still to come. -/
def DirRest (t : Tree) (l : Answer) : Prop := ∃ P s, t.find P = some s ∧ s.isDir = true ∧ l = .see ((listedEvents P s.entries ++ [Atom.doneFile P]).map .seen)

theorem listing_rest (hc : Ctx q A t ff f') (hrep : normalize (normalizeMask ff) = .ok f'.replay) (S : Sys q A t ff f' Z K N G Ref) (hG : G .next) {P : List Bytes} {s : Tree} (hs : t.find P = some s)
    {room : Nat} : ∀ (es : List Env) {m : Mount} {l : Answer} {prev rest : List (Bytes × Tree)}, s.entries = prev ++ rest → prev.length + 2 ≤ room → Rest P rest l → K (on m.dec) l → m.eof = false →
    Listed q A t ff f' Z P room es (RefNext t Ref P) (listing A room es m true (listedSo prev))
  | [], m, l, prev, rest, _, _, _, _, _ => .running
  | e :: es, m, l, prev, rest, hen, hroom, hl, hk, he => by
    have ht := sync_good hc S hk he hl.plain.1 (.inr hl.plain.2) e
    rw [listing]
    generalize sync A m e = r at ht
    cases ht with
    | fail h1 h2 => exact .failed (by rw [List.flatMap_cons]; exact List.mem_append_left _ h2) h1
    | go h1 h2 => exact (listing_rest hc hrep S hG hs es hen hroom hl h1 h2).more
    | @found m' p l' h1 h2 h3 =>
      refine Listed.more ?_
      cases hl with
      | done => cases h1
      | found x xs =>
        injection h1 with h1
        injection h1 with h0 h1
        rw [← h1] at h2
        exact listing_rest hc hrep S hG hs es hen hroom (.here _) h2 h3
      | here rest =>
        exfalso
        injection h1 with h1
        cases rest with
        | nil => injection h1 with h1; cases h1
        | cons x xs =>
          obtain ⟨r, hr⟩ := events_head (P ++ [x.1]) x.2
          rw [show listedEvents P (x :: xs) = events (P ++ [x.1]) x.2 ++ listedEvents P xs from rfl, hr] at h1
          injection h1 with h1
          cases h1
    | @doneFile m' l' h1 h2 h3 =>
      refine Listed.more ?_
      cases hl with
      | done => cases h1
      | found x xs => injection h1 with h1; injection h1 with h1; cases h1
      | here rest =>
        injection h1 with h1
        cases rest with
        | nil =>
          injection h1 with h0 h1
          have h1 : l' = [] := h1.symm
          rw [h1] at h2
          exact listing_rest hc hrep S hG hs es hen hroom .done h2 h3
        | cons x xs =>
          exfalso
          obtain ⟨r, hr⟩ := events_head (P ++ [x.1]) x.2
          rw [show listedEvents P (x :: xs) = events (P ++ [x.1]) x.2 ++ listedEvents P xs from rfl, hr] at h1
          injection h1 with h1
          injection h1 with h1
          cases h1
    | @payload m' l' h1 h2 h3 h4 =>
      have h0 : getPayload m'.dec.core = [] := by
        cases hg : getPayload m'.dec.core with
        | nil => rfl
        | cons b bs =>
          exfalso
          exact hl.plain.2 ⟨b, _, by rw [h1, hg]; rfl⟩
      rw [h0] at h1
      have h1 : l = .see l' := h1
      rw [← h1] at h2
      exact (listing_rest hc hrep S hG hs es hen hroom hl h2 h3).more
    | notFound h1 => rw [h1] at hl; cases hl
    | finished h1 h2 =>
      subst h1
      generalize hls : Answer.see [] = ls at hl
      cases hl with
      | done =>
        rw [List.append_nil] at hen
        show Listed q A t ff f' Z P room (e :: es) _ (_, some (.ok (listedSo prev)))
        rw [show listedSo prev = listingOf s by unfold listedSo listingOf; rw [hen]]
        exact .there hs (by rw [hen]; omega) h2
      | found x xs => injection hls with hls; cases hls
      | here rest =>
        injection hls with hls
        cases hq : listedEvents P rest with
        | nil => rw [hq] at hls; cases hls
        | cons a b => rw [hq] at hls; cases hls
    | @nextFile m' l' h1 h2 h3 h4 h5 =>
      obtain ⟨p1, e1, a1, s1, hob⟩ := at_observe h4
      cases hl with
      | done => rw [hob] at h1; injection h1 with h1; cases h1
      | found x xs => rw [hob] at h1; injection h1 with h1; injection h1 with h1; cases h1
      | here rest =>
        injection h1 with h1
        cases rest with
        | nil =>
          exfalso
          rw [hob] at h1
          injection h1 with h1
          injection h1 with h1
          cases h1
        | cons x xs =>
          obtain ⟨r, hr⟩ := events_head (P ++ [x.1]) x.2
          have hx := find_child hc hs (x := x) (by rw [hen]; exact List.mem_append_right _ (List.mem_cons_self ..))
          have htl : (listedEvents P (x :: xs) ++ [Atom.doneFile P]).map SAtom.seen =
              .seen (.nextFile (P ++ [x.1]) x.2.entry x.2.attrs x.2.shown) :: ((events (P ++ [x.1]) x.2).tail ++ (listedEvents P xs ++ [Atom.doneFile P])).map .seen := by
            rw [show listedEvents P (x :: xs) = events (P ++ [x.1]) x.2 ++ listedEvents P xs from rfl, hr, List.append_assoc]
            rfl
          rw [htl] at h1
          obtain ⟨hsee, hl'⟩ := at_sees hc hrep h4 (S.next h2) hx h1.symm
          have hnext := child_next hc h4 (S.next h2) hs hen hsee.path hl'
          simp only [Bool.not_true, Bool.false_eq_true, if_false]
          rw [hsee.stat]
          simp only
          by_cases hr : (listedSo prev).length ≥ room
          · rw [if_pos hr]
            refine .full hs ?_ h5
            rw [hen, List.length_append, List.length_cons]
            unfold listedSo at hr
            rw [List.length_append, List.length_map] at hr
            simp at hr
            omega
          · rw [if_neg hr]
            have hcp := current_components hc (S.base h5)
            rw [show currentPath (on m'.dec).core = currentPath m'.dec.core from rfl, hsee.path] at hcp
            have hsk := seekWith_good S h5 none (pathString (currentPath m'.dec.core)) .next hG (f := seekNextSibling) rfl
            rw [hsee.path, hcp] at hsk
            generalize seekWith m' none seekNextSibling = w at hsk
            generalize t.answer (stopDepth m'.dec) (P ++ [x.1]) Goal.next = ans at hsk hnext
            cases hsk with
            | failed k1 k2 =>
              rcases k2 with k2 | k2 | k2
              · exact absurd k2 hnext.plain.1
              · cases k2
              · exact .refused ⟨_, _, _, hcp, hx, k2⟩ k1
            | ok k1 k2 k3 =>
              have hsafe : (47 : UInt8) ∉ x.1 := by
                obtain ⟨s', path, y, hst⟩ := (S.base h5).cur
                have h1 := (hst.facts hc).names
                have h2 : currentPath m'.dec.core = path := h1
                rw [hsee.path] at h2
                exact (hst.safe hc x.1 (by rw [← h2]; simp)).noSlash
              simp only
              rw [hsee.path, baseName_path P hsafe]
              rw [show listedSo prev ++ [(x.1, some (statOf x.2))] = listedSo (prev ++ [x]) by unfold listedSo; rw [List.map_append, List.append_assoc]; rfl]
              refine (listing_rest hc hrep S hG hs es (by rw [hen]; simp) ?_ hnext k1 k2).more
              unfold listedSo at hr
              rw [List.length_append, List.length_map] at hr
              simp at hr ⊢
              omega

theorem listing_good (hc : Ctx q A t ff f') (hrep : normalize (normalizeMask ff) = .ok f'.replay) (S : Sys q A t ff f' Z K N G Ref) (hG : G .next) (hN : ∀ d l, N d l → DirRest t l → K d l) {P : List Bytes}
    (hdir : ∀ s, t.find P = some s → s.isDir = true) {room : Nat} (hroom : 2 ≤ room) : ∀ (es : List Env) {m : Mount} {l : Answer}, Ahead t P l → K (on m.dec) l → m.eof = false →
    Listed q A t ff f' Z P room es (RefNext t Ref P) (listing A room es m false (listedSo []))
  | [], m, l, _, _, _ => .running
  | e :: es, m, l, hl, hk, he => by
    have ht := sync_good hc S hk he (ahead_plain hl).1 (.inr (ahead_plain hl).2) e
    have := ahead_turn hc hrep S (m := m) hl ht
    rw [listing]
    generalize sync A m e = r at this
    obtain ⟨m', r⟩ := r
    simp only at this ⊢
    rcases this with ⟨e', h1, h2, h3⟩ | ⟨h1, h2, h3⟩ | ⟨s, h1, h2, h3, h4, h5, h6⟩ | ⟨h1, l', h2, h3, h4⟩
    · subst h1
      exact .failed (by rw [List.flatMap_cons]; exact List.mem_append_left _ h2) h3
    · subst h1
      exact .missing h2 h3
    · subst h1
      rw [events_dir (hdir s h2), List.tail_cons, ← Tree.entries_eq] at h5
      exact Listed.more (listing_rest hc hrep S hG h2 es (prev := []) (rest := s.entries) rfl hroom (.here _) (hN _ _ h5 ⟨P, s, h2, hdir s h2, rfl⟩) h6)
    · have ih := listing_good hc hrep S hG hN hdir hroom es h2 h3 h4
      rcases h1 with h1 | h1 | h1 <;> subst h1 <;> exact ih.more

theorem Listed.ref {P : List Bytes} {room : Nat} {es : List Env} {ref ref' : Errno → Prop} {r : Mount × Option (Res Listing)} (h : Listed q A t ff f' Z P room es ref r)
    (hi : ∀ e, ref e → ref' e) : Listed q A t ff f' Z P room es ref' r := by
  cases h with
  | running => exact .running
  | failed h1 h2 => exact .failed h1 h2
  | refused h1 h2 => exact .refused (hi _ h1) h2
  | missing h1 h2 => exact .missing h1 h2
  | full h1 h2 h3 => exact .full h1 h2 h3
  | there h1 h2 h3 => exact .there h1 h2 h3

/-- `casync_readdir()`. -/
theorem readdir_good (hc : Ctx q A t ff f') (hrep : normalize (normalizeMask ff) = .ok f'.replay) (S : Sys q A t ff f' Z K N G Ref) (hG1 : G .object) (hG2 : G .next) (hN : ∀ d l, N d l → DirRest t l → K d l) {m : Mount} (hz : Z (on m.dec)) (p : Bytes) {room : Nat}
    (hsen : Sensible t (.readdir p room)) (size : Option Errno) (es : List Env) :
    Listed q A t ff f' Z (components p) room es (fun e => (e ∈ size.toList ∨ Ref p .object e) ∨ RefNext t Ref (components p) e) (readdir A m p room size es) := by
  obtain ⟨hroom, hdir⟩ := hsen
  have h := seekWith_good S (m := setPayload m false) hz size p .object hG1 (f := (seekPath · p)) rfl
  unfold readdir
  rw [if_neg (by omega)]
  generalize seekWith (setPayload m false) size (seekPath · p) = r at h
  have ha := ahead_start t (stopDepth (setPayload m false).dec) (components p)
  generalize t.answer (stopDepth (setPayload m false).dec) (components p) .object = l at h ha
  cases h with
  | failed h1 h2 =>
    rcases h2 with h2 | h2
    · exact absurd h2 (ahead_plain ha).1
    · exact .refused (.inl h2) h1
  | ok h1 h2 h3 =>
    refine Listed.ref (listing_good hc hrep S hG2 hN ?_ hroom es ha h1 h2) (fun _ => .inr)
    intro s hs
    obtain ⟨e, a, api, k, rfl⟩ := hdir s hs
    rfl

end Casync.Fuse
