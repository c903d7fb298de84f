import Verif.Model.Match
import Verif.Spec.Match
/-!
Rule trees as sets of chains.
-/
namespace Casync.Match
open Casync Casync.MatchSpec

/-! ### Orders -/

/-- A comparison function of a total order. -/
structure LinOrd {α : Type} (c : α → α → Ordering) : Prop where
  eqv : ∀ a b, c a b = .eq → a = b
  swap : ∀ a b, c b a = (c a b).swap
  trans : ∀ a b d, c a b = .lt → c b d = .lt → c a d = .lt

theorem LinOrd.refl {α : Type} {c : α → α → Ordering} (h : LinOrd c) (a : α) : c a a = .eq := by
  have := h.swap a a
  cases hc : c a a <;> rw [hc] at this <;> simp_all [Ordering.swap]

theorem natOrd : LinOrd (fun a b : Nat => compare a b) where
  eqv a b h := by simpa [Nat.compare_eq_eq] using h
  swap a b := by simp [Nat.compare_swap]
  trans a b d h1 h2 := by simp only [Nat.compare_eq_lt] at *; omega

theorem then_eq {a b : Ordering} : a.then b = .eq ↔ a = .eq ∧ b = .eq := by cases a <;> cases b <;> simp [Ordering.then]
theorem then_lt {a b : Ordering} : a.then b = .lt ↔ a = .lt ∨ (a = .eq ∧ b = .lt) := by cases a <;> cases b <;> simp [Ordering.then]
theorem then_swap (a b : Ordering) : (a.then b).swap = a.swap.then b.swap := by cases a <;> cases b <;> rfl

theorem cmpName_eqv : ∀ a b, cmpName a b = .eq → a = b
  | [], [], _ => rfl
  | [], _ :: _, h => by simp [cmpName] at h
  | _ :: _, [], h => by simp [cmpName] at h
  | a :: as, b :: bs, h => by
    rw [cmpName, then_eq, Nat.compare_eq_eq] at h
    rw [UInt8.toNat_inj.mp h.1, cmpName_eqv as bs h.2]

theorem cmpName_swap : ∀ a b, cmpName b a = (cmpName a b).swap
  | [], [] => rfl
  | [], _ :: _ => rfl
  | _ :: _, [] => rfl
  | a :: as, b :: bs => by rw [cmpName, cmpName, then_swap, cmpName_swap as bs, Nat.compare_swap]

theorem cmpName_refl : ∀ a, cmpName a a = .eq
  | [] => rfl
  | a :: as => by rw [cmpName, then_eq]; exact ⟨by simp, cmpName_refl as⟩

theorem cmpName_trans : ∀ a b d, cmpName a b = .lt → cmpName b d = .lt → cmpName a d = .lt
  | [], _, [], h1, h2 => by rename_i b; cases b <;> simp [cmpName] at h1 h2
  | [], _, _ :: _, _, _ => rfl
  | _ :: _, [], _, h1, _ => by simp [cmpName] at h1
  | _ :: _, _ :: _, [], _, h2 => by simp [cmpName] at h2
  | a :: as, b :: bs, d :: ds, h1, h2 => by
    rw [cmpName, then_lt, Nat.compare_eq_lt, Nat.compare_eq_eq] at *
    rcases h1 with h1 | ⟨h1, h1'⟩ <;> rcases h2 with h2 | ⟨h2, h2'⟩
    · left; omega
    · left; omega
    · left; omega
    · right; exact ⟨by omega, cmpName_trans as bs ds h1' h2'⟩

theorem nameOrd : LinOrd cmpName := ⟨cmpName_eqv, cmpName_swap, cmpName_trans⟩

/-- The lexicographic product. -/
theorem LinOrd.lex {α β γ : Type} {c : β → β → Ordering} {d : γ → γ → Ordering} (hc : LinOrd c) (hd : LinOrd d) (f : α → β) (g : α → γ)
    (hinj : ∀ x y, f x = f y → g x = g y → x = y) : LinOrd (fun x y => (c (f x) (f y)).then (d (g x) (g y))) where
  eqv a b h := by
    simp only [then_eq] at h
    exact hinj _ _ (hc.eqv _ _ h.1) (hd.eqv _ _ h.2)
  swap a b := by simp only [then_swap, hc.swap (f a), hd.swap (g a)]
  trans a b e h1 h2 := by
    simp only [then_lt] at *
    rcases h1 with h1 | ⟨h1, h1'⟩ <;> rcases h2 with h2 | ⟨h2, h2'⟩
    · exact .inl (hc.trans _ _ _ h1 h2)
    · rw [← hc.eqv _ _ h2]; exact .inl h1
    · rw [hc.eqv _ _ h1]; exact .inl h2
    · rw [hc.eqv _ _ h1]; exact .inr ⟨h2, hd.trans _ _ _ h1' h2'⟩

theorem headOrd : LinOrd cmpHead := by
  have key := (natOrd).lex ((nameOrd).lex ((natOrd).lex (natOrd) (fun p : Nat × Nat => p.1) (fun p => p.2)
      (fun x y h1 h2 => Prod.ext h1 h2)) (fun p : Bytes × Nat × Nat => p.1) (fun p => p.2) (fun x y h1 h2 => Prod.ext h1 h2))
    (fun h : Head => h.kind.rank) (fun h => (h.name, h.anchored.toNat, h.dirOnly.toNat)) (by
      rintro ⟨k, n, a, d⟩ ⟨k', n', a', d'⟩ h1 h2
      simp only [Prod.mk.injEq] at h2
      obtain ⟨rfl, h3, h4⟩ := h2
      have : k = k' := by revert h1; cases k <;> cases k' <;> simp [Kind.rank]
      have : a = a' := by revert h3; cases a <;> cases a' <;> simp
      have : d = d' := by revert h4; cases d <;> cases d' <;> simp
      simp [*])
  exact key

mutual
theorem cmp_eqv : ∀ a b, cmp a b = .eq → a = b
  | .node h cs, .node h' cs', e => by
    rw [cmp, then_eq] at e
    rw [headOrd.eqv _ _ e.1, cmpL_eqv cs cs' e.2]
theorem cmpL_eqv : ∀ a b, cmpL a b = .eq → a = b
  | [], [], _ => rfl
  | [], _ :: _, h => by simp [cmpL] at h
  | _ :: _, [], h => by simp [cmpL] at h
  | x :: xs, y :: ys, e => by
    rw [cmpL, then_eq] at e
    rw [cmp_eqv x y e.1, cmpL_eqv xs ys e.2]
end

mutual
theorem cmp_swap : ∀ a b, cmp b a = (cmp a b).swap
  | .node h cs, .node h' cs' => by rw [cmp, cmp, then_swap, cmpL_swap cs cs', headOrd.swap]
theorem cmpL_swap : ∀ a b, cmpL b a = (cmpL a b).swap
  | [], [] => by simp [cmpL]
  | [], _ :: _ => by simp [cmpL]
  | _ :: _, [] => by simp [cmpL]
  | x :: xs, y :: ys => by rw [cmpL, cmpL, then_swap, cmp_swap x y, cmpL_swap xs ys]
end

mutual
theorem cmp_trans : ∀ a b d, cmp a b = .lt → cmp b d = .lt → cmp a d = .lt
  | .node h cs, .node h' cs', .node h'' cs'', h1, h2 => by
    rw [cmp, then_lt] at *
    rcases h1 with h1 | ⟨h1, h1'⟩ <;> rcases h2 with h2 | ⟨h2, h2'⟩
    · exact .inl (headOrd.trans _ _ _ h1 h2)
    · rw [← headOrd.eqv _ _ h2]; exact .inl h1
    · rw [headOrd.eqv _ _ h1]; exact .inl h2
    · rw [headOrd.eqv _ _ h1]; exact .inr ⟨h2, cmpL_trans cs cs' cs'' h1' h2'⟩
theorem cmpL_trans : ∀ a b d, cmpL a b = .lt → cmpL b d = .lt → cmpL a d = .lt
  | [], [], _, h1, _ => by simp [cmpL] at h1
  | [], _ :: _, _, h1, _ => by simp [cmpL] at h1
  | _ :: _, [], [], _, h2 => by simp [cmpL] at h2
  | _ :: _, [], _ :: _, _, h2 => by simp [cmpL] at h2
  | _ :: _, _ :: _, [], _, _ => by simp [cmpL]
  | x :: xs, y :: ys, z :: zs, h1, h2 => by
    rw [cmpL, then_lt] at *
    rcases h1 with h1 | ⟨h1, h1'⟩ <;> rcases h2 with h2 | ⟨h2, h2'⟩
    · exact .inl (cmp_trans x y z h1 h2)
    · rw [← cmp_eqv _ _ h2]; exact .inl h1
    · rw [cmp_eqv _ _ h1]; exact .inl h2
    · rw [cmp_eqv _ _ h1]; exact .inr ⟨h2, cmpL_trans xs ys zs h1' h2'⟩
end

theorem matchOrd : LinOrd cmp := ⟨cmp_eqv, cmp_swap, cmp_trans⟩

theorem LinOrd.le_trans {α : Type} {c : α → α → Ordering} (h : LinOrd c) {a b d : α} (h1 : c a b ≠ .gt) (h2 : c b d ≠ .gt) :
    c a d ≠ .gt := by
  cases e1 : c a b with
  | gt => exact absurd e1 h1
  | eq => rw [h.eqv _ _ e1]; exact h2
  | lt =>
    cases e2 : c b d with
    | gt => exact absurd e2 h2
    | eq => rw [← h.eqv _ _ e2, e1]; simp
    | lt => rw [h.trans _ _ _ e1 e2]; simp

theorem LinOrd.lt_of_lt_of_le {α : Type} {c : α → α → Ordering} (h : LinOrd c) {a b d : α} (h1 : c a b = .lt) (h2 : c b d ≠ .gt) :
    c a d = .lt := by
  cases e2 : c b d with
  | gt => exact absurd e2 h2
  | eq => rw [← h.eqv _ _ e2, h1]
  | lt => exact h.trans _ _ _ h1 e2

/-! ### Chains -/

mutual
/-- The paths from a node to the leaves below it. -/
def chains : Match → List (List Head)
  | .node h [] => [[h]]
  | .node h (c :: cs) => (chainsL (c :: cs)).map (h :: ·)
/-- The paths from the nodes of a list to the leaves. -/
def chainsL : List Match → List (List Head)
  | [] => []
  | m :: ms => chains m ++ chainsL ms
end

mutual
/-- Trees as the parser makes them: a leaf has a sign, an inner node has children, is anchored and applies to directories, and so on. -/
def WF : Match → Prop
  | .node h [] => h.kind ≠ .inner
  | .node h (c :: cs) => h.kind = .inner ∧ h.anchored = true ∧ h.dirOnly = true ∧ WFL (c :: cs) ∧ (∀ x ∈ c :: cs, x.head.anchored = true)
/-- Lists of such trees. -/
def WFL : List Match → Prop
  | [] => True
  | m :: ms => WF m ∧ WFL ms
end

mutual
/-- The normal form: siblings have different heads, in ascending order. -/
def NF : Match → Prop
  | .node _ cs => cs.Pairwise (fun a b => cmpHead a.head b.head = .lt) ∧ NFL cs
/-- All trees in a list are in normal form. -/
def NFL : List Match → Prop
  | [] => True
  | m :: ms => NF m ∧ NFL ms
end

theorem WFL_iff : ∀ l, WFL l ↔ ∀ x ∈ l, WF x
  | [] => by simp [WFL]
  | m :: ms => by simp [WFL, WFL_iff ms]

theorem NFL_iff : ∀ l, NFL l ↔ ∀ x ∈ l, NF x
  | [] => by simp [NFL]
  | m :: ms => by simp [NFL, NFL_iff ms]

theorem mem_chainsL : ∀ l c, c ∈ chainsL l ↔ ∃ m ∈ l, c ∈ chains m
  | [], c => by simp [chainsL]
  | m :: ms, c => by simp [chainsL, mem_chainsL ms]

theorem chainsL_append : ∀ a b, chainsL (a ++ b) = chainsL a ++ chainsL b
  | [], b => rfl
  | m :: ms, b => by simp [chainsL, chainsL_append ms b]

theorem depthL_le : ∀ l n, depthL l ≤ n ↔ ∀ x ∈ l, depth x ≤ n
  | [], n => by simp [depthL]
  | m :: ms, n => by simp [depthL, Nat.max_le, depthL_le ms n]

theorem WF_leaf {h : Head} {cs : List Match} (w : WF (.node h cs)) : cs = [] ↔ h.kind ≠ .inner := by
  cases cs with
  | nil => exact ⟨fun _ => w, fun _ => rfl⟩
  | cons c cs => rw [WF] at w; simp [w.1]

theorem mem_chains (h : Head) (cs : List Match) (c : List Head) :
    c ∈ chains (.node h cs) ↔ (cs = [] ∧ c = [h]) ∨ ∃ t ∈ chainsL cs, c = h :: t := by
  cases cs with
  | nil => simp [chains, chainsL]
  | cons x xs => rw [chains]; simp [eq_comm]

mutual
theorem chains_ne : ∀ m, chains m ≠ []
  | .node h [] => by simp [chains]
  | .node h (c :: cs) => by
    rw [chains, Ne, List.map_eq_nil_iff]
    exact chainsL_ne c cs
theorem chainsL_ne : ∀ c cs, chainsL (c :: cs) ≠ []
  | c, cs => by
    rw [chainsL]
    have := chains_ne c
    simp [this]
end

theorem chain_head {m : Match} {c : List Head} (h : c ∈ chains m) : ∃ t, c = m.head :: t := by
  cases m with
  | node hd cs =>
    rw [mem_chains] at h
    rcases h with ⟨_, h⟩ | ⟨t, _, h⟩
    · exact ⟨[], h⟩
    · exact ⟨t, h⟩

theorem chainsL_cons_mem {l : List Match} {c : List Head} (h : c ∈ chainsL l) : ∃ m ∈ l, ∃ t, c = m.head :: t := by
  rw [mem_chainsL] at h
  obtain ⟨m, hm, h⟩ := h
  exact ⟨m, hm, chain_head h⟩

theorem nil_not_chain {l : List Match} : [] ∉ chainsL l := by
  intro h
  obtain ⟨_, _, _, h⟩ := chainsL_cons_mem h
  cases h

/-! ### Normalization keeps the chains and gives the normal form -/

/-- What one normalization step has to do for a node. -/
structure Good (n : Nat) (m m' : Match) : Prop where
  head : m'.head = m.head
  wf : WF m'
  nf : NF m'
  depth : depth m' ≤ n
  chains : ∀ c, c ∈ chains m' ↔ c ∈ chains m

theorem merged_wf {h : Head} {a b : List Match} (wa : WF (.node h a)) (wb : WF (.node h b)) : WF (.node h (a ++ b)) := by
  cases a with
  | nil => exact wb
  | cons x xs =>
    have hk : h.kind = .inner := by rw [WF] at wa; exact wa.1
    cases b with
    | nil => exact absurd hk wb
    | cons y ys =>
      rw [WF] at wa wb
      show WF (.node h (x :: (xs ++ y :: ys)))
      rw [WF]
      refine ⟨hk, wa.2.1, wa.2.2.1, ?_, ?_⟩
      · rw [WFL_iff]; intro z hz
        have hz' : z ∈ (x :: xs) ++ (y :: ys) := hz
        rcases List.mem_append.mp hz' with hz' | hz'
        · exact (WFL_iff _).mp wa.2.2.2.1 z hz'
        · exact (WFL_iff _).mp wb.2.2.2.1 z hz'
      · intro z hz
        have hz' : z ∈ (x :: xs) ++ (y :: ys) := hz
        rcases List.mem_append.mp hz' with hz' | hz'
        · exact wa.2.2.2.2 z hz'
        · exact wb.2.2.2.2 z hz'

theorem merged_chains {h : Head} {a b : List Match} (wa : WF (.node h a)) (wb : WF (.node h b)) (c : List Head) :
    c ∈ chains (.node h (a ++ b)) ↔ c ∈ chains (.node h a) ∨ c ∈ chains (.node h b) := by
  have ha := WF_leaf wa
  have hb := WF_leaf wb
  simp only [mem_chains, chainsL_append, List.mem_append, List.append_eq_nil_iff]
  by_cases hk : h.kind = .inner
  · have ha' : a ≠ [] := fun e => (ha.mp e) hk
    have hb' : b ≠ [] := fun e => (hb.mp e) hk
    simp only [ha', hb', false_and, false_or]
    constructor
    · rintro ⟨t, ht | ht, rfl⟩
      · exact .inl ⟨t, ht, rfl⟩
      · exact .inr ⟨t, ht, rfl⟩
    · rintro (⟨t, ht, rfl⟩ | ⟨t, ht, rfl⟩)
      · exact ⟨t, .inl ht, rfl⟩
      · exact ⟨t, .inr ht, rfl⟩
  · have ha' : a = [] := ha.mpr hk
    have hb' : b = [] := hb.mpr hk
    subst ha' hb'
    simp [chainsL]

theorem depth_node (h : Head) (cs : List Match) (n : Nat) : depth (.node h cs) ≤ n ↔ depthL cs + 1 ≤ n := by rw [depth]

theorem depthL_append : ∀ a b, depthL (a ++ b) = max (depthL a) (depthL b)
  | [], b => by simp [depthL]
  | m :: ms, b => by simp [depthL, depthL_append ms b, Nat.max_assoc]

theorem mergeRuns_good {n : Nat} {renorm : Match → Match} (hr : ∀ m, WF m → depth m ≤ n → Good n m (renorm m)) :
    ∀ (xs : List Match) (prev : Match) (changed : Bool), WF prev → depth prev ≤ n → (changed = false → NF prev) →
      (∀ x ∈ xs, WF x ∧ NF x ∧ depth x ≤ n) → (∀ x ∈ xs, cmpHead prev.head x.head ≠ .gt) →
      xs.Pairwise (fun a b => cmpHead a.head b.head ≠ .gt) →
      let out := mergeRuns renorm prev changed xs
      (∀ x ∈ out, WF x ∧ NF x ∧ depth x ≤ n) ∧ out.Pairwise (fun a b => cmpHead a.head b.head = .lt) ∧
        (∀ x ∈ out, cmpHead prev.head x.head ≠ .gt) ∧ (∀ c, c ∈ chainsL out ↔ c ∈ chains prev ∨ c ∈ chainsL xs) ∧
        out ≠ [] := by
  intro xs
  induction xs with
  | nil =>
    intro prev changed wp dp np _ _ _
    have hgp : Good n prev (if changed then renorm prev else prev) := by
      cases changed with
      | true => exact hr prev wp dp
      | false => exact ⟨rfl, wp, np rfl, dp, fun c => Iff.rfl⟩
    simp only [mergeRuns]
    generalize (if changed then renorm prev else prev) = p' at hgp
    refine ⟨?_, by simp, ?_, ?_, by simp⟩
    · intro x hx; simp only [List.mem_singleton] at hx; subst hx; exact ⟨hgp.wf, hgp.nf, hgp.depth⟩
    · intro x hx; simp only [List.mem_singleton] at hx; subst hx; rw [hgp.head, headOrd.refl]; simp
    · intro c; simp only [chainsL, List.append_nil, List.not_mem_nil, or_false]; exact hgp.chains c
  | cons x xs ih =>
    intro prev changed wp dp np hx hle hs
    have hs' := List.pairwise_cons.mp hs
    simp only [mergeRuns]
    by_cases e : prev.head = x.head
    · rw [if_pos e]
      obtain ⟨h, a⟩ := prev
      obtain ⟨h', b⟩ := x
      simp only [Match.head] at e
      subst e
      have wx := (hx _ (List.mem_cons_self ..)).1
      have dx := (hx _ (List.mem_cons_self ..)).2.2
      simp only [Match.head, Match.children] at hle ⊢
      have := ih (.node h (a ++ b)) true (merged_wf wp wx) (by
          rw [depth_node] at *; rw [depthL_append]; omega) (by simp)
        (fun y hy => hx y (List.mem_cons_of_mem _ hy)) (fun y hy => hle y (List.mem_cons_of_mem _ hy)) hs'.2
      obtain ⟨r1, r2, r3, r4, r5⟩ := this
      refine ⟨r1, r2, r3, ?_, r5⟩
      intro c
      rw [r4, merged_chains wp wx, chainsL, List.mem_append, or_assoc]
    · rw [if_neg e]
      have hgp : Good n prev (if changed then renorm prev else prev) := by
        cases changed with
        | true => exact hr prev wp dp
        | false => exact ⟨rfl, wp, np rfl, dp, fun c => Iff.rfl⟩
      generalize (if changed then renorm prev else prev) = p' at hgp
      have wx := hx x (List.mem_cons_self ..)
      obtain ⟨r1, r2, r3, r4, r5⟩ := ih x false wx.1 wx.2.2 (fun _ => wx.2.1) (fun y hy => hx y (List.mem_cons_of_mem _ hy)) hs'.1 hs'.2
      have hlt : cmpHead prev.head x.head = .lt := by
        cases hc : cmpHead prev.head x.head with
        | lt => rfl
        | eq => exact absurd (headOrd.eqv _ _ hc) e
        | gt => exact absurd hc (hle x (List.mem_cons_self ..))
      refine ⟨?_, ?_, ?_, ?_, by simp⟩
      · intro y hy
        rcases List.mem_cons.mp hy with rfl | hy
        · exact ⟨hgp.wf, hgp.nf, hgp.depth⟩
        · exact r1 y hy
      · rw [List.pairwise_cons]
        refine ⟨fun y hy => ?_, r2⟩
        rw [hgp.head]
        exact headOrd.lt_of_lt_of_le hlt (r3 y hy)
      · intro y hy
        rcases List.mem_cons.mp hy with rfl | hy
        · rw [hgp.head, headOrd.refl]; simp
        · rw [headOrd.lt_of_lt_of_le hlt (r3 y hy)]; simp
      · intro c
        rw [chainsL, List.mem_append, hgp.chains, r4, chainsL, List.mem_append]

/-- What is assumed of `qsort()`: it permutes, and the result is ascending. -/
def SortsBy (qsort : List Match → List Match) : Prop :=
  ∀ l, (qsort l).Perm l ∧ (qsort l).Pairwise (fun a b => cmp a b ≠ .gt)

theorem cmp_head {a b : Match} (h : cmp a b ≠ .gt) : cmpHead a.head b.head ≠ .gt := by
  cases a; cases b
  rw [cmp] at h
  simp only [Match.head]
  intro e
  rw [e] at h
  simp [Ordering.then] at h

theorem chainsL_perm {a b : List Match} (h : a.Perm b) (c : List Head) : c ∈ chainsL a ↔ c ∈ chainsL b := by
  simp only [mem_chainsL, h.mem_iff]

theorem normList_good {qsort : List Match → List Match} (hq : SortsBy qsort) {n : Nat} {renorm : Match → Match}
    (hr : ∀ m, WF m → depth m ≤ n → Good n m (renorm m)) (cs : List Match) (hw : ∀ x ∈ cs, WF x ∧ depth x ≤ n) :
    let out := normList qsort renorm cs
    (∀ x ∈ out, WF x ∧ NF x ∧ depth x ≤ n) ∧ out.Pairwise (fun a b => cmpHead a.head b.head = .lt) ∧
      (∀ c, c ∈ chainsL out ↔ c ∈ chainsL cs) ∧ (out = [] ↔ cs = []) ∧ (∀ x ∈ out, ∃ y ∈ cs, x.head = y.head) := by
  have hm : ∀ x ∈ cs.map renorm, WF x ∧ NF x ∧ depth x ≤ n := by
    intro x hx
    obtain ⟨y, hy, rfl⟩ := List.mem_map.mp hx
    have := hr y (hw y hy).1 (hw y hy).2
    exact ⟨this.wf, this.nf, this.depth⟩
  have hc : ∀ c, c ∈ chainsL (cs.map renorm) ↔ c ∈ chainsL cs := by
    intro c
    simp only [mem_chainsL, List.mem_map]
    constructor
    · rintro ⟨m, ⟨y, hy, rfl⟩, h⟩
      exact ⟨y, hy, ((hr y (hw y hy).1 (hw y hy).2).chains c).mp h⟩
    · rintro ⟨y, hy, h⟩
      exact ⟨_, ⟨y, hy, rfl⟩, ((hr y (hw y hy).1 (hw y hy).2).chains c).mpr h⟩
  have heads : ∀ out : List Match, (∀ c, c ∈ chainsL out ↔ c ∈ chainsL cs) → ∀ x ∈ out, ∃ y ∈ cs, x.head = y.head := by
    intro out ho x hx
    obtain ⟨c, hcx⟩ := List.exists_mem_of_ne_nil _ (chains_ne x)
    obtain ⟨t, ht⟩ := chain_head hcx
    obtain ⟨y, hy, t', ht'⟩ := chainsL_cons_mem ((ho c).mp ((mem_chainsL _ _).mpr ⟨x, hx, hcx⟩))
    rw [ht] at ht'
    injection ht' with h1 _
    exact ⟨y, hy, h1⟩
  simp only [normList]
  by_cases hl : (cs.map renorm).length ≤ 1
  · rw [if_pos hl]
    refine ⟨hm, ?_, hc, by simp, heads _ hc⟩
    rcases hcs : cs.map renorm with _ | ⟨x, _ | ⟨y, ys⟩⟩
    · simp
    · simp
    · rw [hcs] at hl; simp at hl
  · rw [if_neg hl]
    obtain ⟨hp, hsort⟩ := hq (cs.map renorm)
    have hne : cs ≠ [] := by intro e; subst e; simp at hl
    cases hqs : qsort (cs.map renorm) with
    | nil =>
      rw [hqs] at hp
      have := hp.length_eq
      simp only [List.length_nil] at this
      omega
    | cons x xs =>
      rw [hqs] at hp hsort
      have hmem : ∀ y ∈ x :: xs, WF y ∧ NF y ∧ depth y ≤ n := fun y hy => hm y (hp.mem_iff.mp hy)
      have hs' := List.pairwise_cons.mp hsort
      have hx := hmem x (List.mem_cons_self ..)
      obtain ⟨r1, r2, _, r4, r5⟩ := mergeRuns_good hr xs x false hx.1 hx.2.2 (fun _ => hx.2.1)
        (fun y hy => hmem y (List.mem_cons_of_mem _ hy)) (fun y hy => cmp_head (hs'.1 y hy)) (hs'.2.imp cmp_head)
      have hch : ∀ c, c ∈ chainsL (mergeRuns renorm x false xs) ↔ c ∈ chainsL cs := by
        intro c
        rw [r4, ← List.mem_append, ← chainsL, chainsL_perm hp, hc]
      exact ⟨r1, r2, hch, by simp [r5, hne], heads _ hch⟩

theorem norm_good {qsort : List Match → List Match} (hq : SortsBy qsort) :
    ∀ n m, WF m → depth m ≤ n → Good n m (norm qsort n m) := by
  intro n
  induction n with
  | zero => intro m _ hd; cases m; rw [depth] at hd; omega
  | succ n ih =>
    intro m hw hd
    obtain ⟨h, cs⟩ := m
    rw [depth_node] at hd
    have hcs : ∀ x ∈ cs, WF x ∧ depth x ≤ n := by
      intro x hx
      refine ⟨?_, (depthL_le cs n).mp (by omega) x hx⟩
      cases cs with
      | nil => cases hx
      | cons c cs => rw [WF] at hw; exact (WFL_iff _).mp hw.2.2.2.1 x hx
    obtain ⟨r1, r2, r3, r4, r5⟩ := normList_good hq ih cs hcs
    rw [norm]
    generalize normList qsort (norm qsort n) cs = out at *
    refine ⟨rfl, ?_, ?_, ?_, ?_⟩
    · cases out with
      | nil =>
        have := r4.mp rfl
        subst this; exact hw
      | cons y ys =>
        cases cs with
        | nil => have := r4.mpr rfl; cases this
        | cons c cs =>
          rw [WF] at hw ⊢
          refine ⟨hw.1, hw.2.1, hw.2.2.1, (WFL_iff _).mpr (fun z hz => (r1 z hz).1), ?_⟩
          intro z hz
          obtain ⟨w, hw', e⟩ := r5 z hz
          rw [e]; exact hw.2.2.2.2 w hw'
    · rw [NF]; exact ⟨r2, (NFL_iff _).mpr fun z hz => (r1 z hz).2.1⟩
    · rw [depth_node]; have := (depthL_le out n).mpr fun z hz => (r1 z hz).2.2; omega
    · intro c; rw [mem_chains, mem_chains, r4]; simp only [r3]

/-! ### The normal form is unique -/

theorem depth_pos (m : Match) : 0 < depth m := by cases m; rw [depth]; omega

theorem chains_children {h : Head} {a b : List Match} (wa : WF (.node h a)) (wb : WF (.node h b))
    (e : ∀ c, c ∈ chains (.node h a) ↔ c ∈ chains (.node h b)) : ∀ c, c ∈ chainsL a ↔ c ∈ chainsL b := by
  by_cases hk : h.kind = .inner
  · have ha : a ≠ [] := fun e => ((WF_leaf wa).mp e) hk
    have hb : b ≠ [] := fun e => ((WF_leaf wb).mp e) hk
    intro c
    have := e (h :: c)
    simpa [mem_chains, ha, hb] using this
  · rw [(WF_leaf wa).mpr hk, (WF_leaf wb).mpr hk]; intro c; rfl

theorem nf_unique : ∀ n (a b : List Match), depthL a ≤ n → depthL b ≤ n → (∀ x ∈ a, WF x ∧ NF x) → (∀ x ∈ b, WF x ∧ NF x) →
    a.Pairwise (fun x y => cmpHead x.head y.head = .lt) → b.Pairwise (fun x y => cmpHead x.head y.head = .lt) →
    (∀ c, c ∈ chainsL a ↔ c ∈ chainsL b) → a = b := by
  intro n
  induction n with
  | zero =>
    intro a b ha hb _ _ _ _ _
    cases a with
    | cons x xs => have := (depthL_le _ 0).mp ha x (List.mem_cons_self ..); have := depth_pos x; omega
    | nil =>
      cases b with
      | nil => rfl
      | cons x xs => have := (depthL_le _ 0).mp hb x (List.mem_cons_self ..); have := depth_pos x; omega
  | succ n ihn =>
    intro a
    induction a with
    | nil =>
      intro b _ _ _ _ _ _ hc
      cases b with
      | nil => rfl
      | cons x xs =>
        obtain ⟨c, hcx⟩ := List.exists_mem_of_ne_nil _ (chainsL_ne x xs)
        have := (hc c).mpr hcx
        simp [chainsL] at this
    | cons x xs iha =>
      intro b da db ga gb sa sb hc
      cases b with
      | nil =>
        obtain ⟨c, hcx⟩ := List.exists_mem_of_ne_nil _ (chainsL_ne x xs)
        have := (hc c).mp hcx
        simp [chainsL] at this
      | cons y ys =>
        have sa' := List.pairwise_cons.mp sa
        have sb' := List.pairwise_cons.mp sb
        -- the smallest heads agree
        have hxy : x.head = y.head := by
          have key : ∀ (x y : Match) (xs ys : List Match), (∀ c, c ∈ chainsL (x :: xs) → c ∈ chainsL (y :: ys)) →
              (∀ z ∈ ys, cmpHead y.head z.head = .lt) → cmpHead y.head x.head ≠ .gt := by
            intro x y xs ys hsub hlt
            obtain ⟨c, hcx⟩ := List.exists_mem_of_ne_nil _ (chains_ne x)
            obtain ⟨t, ht⟩ := chain_head hcx
            obtain ⟨z, hz, t', ht'⟩ := chainsL_cons_mem (hsub c ((mem_chainsL _ _).mpr ⟨x, List.mem_cons_self .., hcx⟩))
            rw [ht] at ht'
            injection ht' with h1 _
            rw [h1]
            rcases List.mem_cons.mp hz with rfl | hz
            · rw [headOrd.refl]; simp
            · rw [hlt z hz]; simp
          have h1 := key x y xs ys (fun c h => (hc c).mp h) sb'.1
          have h2 := key y x ys xs (fun c h => (hc c).mpr h) sa'.1
          have h3 := headOrd.swap x.head y.head
          cases e : cmpHead x.head y.head with
          | eq => exact headOrd.eqv _ _ e
          | gt => exact absurd e h2
          | lt => rw [e] at h3; exact absurd h3 h1
        -- chains with that head
        have split : ∀ (x : Match) (xs : List Match), (∀ z ∈ xs, cmpHead x.head z.head = .lt) → ∀ c,
            (c ∈ chains x ↔ c ∈ chainsL (x :: xs) ∧ c.head? = some x.head) ∧
            (c ∈ chainsL xs ↔ c ∈ chainsL (x :: xs) ∧ c.head? ≠ some x.head) := by
          intro x xs hlt c
          have h1 : c ∈ chains x → c.head? = some x.head := by
            intro h; obtain ⟨t, rfl⟩ := chain_head h; rfl
          have h2 : c ∈ chainsL xs → c.head? ≠ some x.head := by
            intro h e
            obtain ⟨z, hz, t, rfl⟩ := chainsL_cons_mem h
            simp only [List.head?_cons, Option.some.injEq] at e
            have := hlt z hz
            rw [e, headOrd.refl] at this
            cases this
          rw [chainsL, List.mem_append]
          constructor
          · exact ⟨fun h => ⟨.inl h, h1 h⟩, fun ⟨h, e⟩ => h.resolve_right fun h => h2 h e⟩
          · exact ⟨fun h => ⟨.inr h, h2 h⟩, fun ⟨h, e⟩ => h.resolve_left fun h => e (h1 h)⟩
        have hcx : ∀ c, c ∈ chains x ↔ c ∈ chains y := by
          intro c; rw [((split x xs sa'.1) c).1, ((split y ys sb'.1) c).1, hc, hxy]
        have hcxs : ∀ c, c ∈ chainsL xs ↔ c ∈ chainsL ys := by
          intro c; rw [((split x xs sa'.1) c).2, ((split y ys sb'.1) c).2, hc, hxy]
        have hrest := iha ys (by simp only [depthL] at da; omega) (by simp only [depthL] at db; omega)
          (fun z hz => ga z (List.mem_cons_of_mem _ hz)) (fun z hz => gb z (List.mem_cons_of_mem _ hz)) sa'.2 sb'.2 hcxs
        have hfirst : x = y := by
          have gx := ga x (List.mem_cons_self ..)
          have gy := gb y (List.mem_cons_self ..)
          have dx := (depthL_le _ _).mp da x (List.mem_cons_self ..)
          have dy := (depthL_le _ _).mp db y (List.mem_cons_self ..)
          obtain ⟨h, ca⟩ := x
          obtain ⟨h', cb⟩ := y
          simp only [Match.head] at hxy
          subst hxy
          have wfc : ∀ {cs : List Match}, WF (.node h cs) → NF (.node h cs) → ∀ z ∈ cs, WF z ∧ NF z := by
            intro cs w nf z hz
            rw [NF] at nf
            refine ⟨?_, (NFL_iff _).mp nf.2 z hz⟩
            cases cs with
            | nil => cases hz
            | cons c cs => rw [WF] at w; exact (WFL_iff _).mp w.2.2.2.1 z hz
          rw [depth_node] at dx dy
          have nfa := gx.2; have nfb := gy.2
          rw [NF] at nfa nfb
          rw [ihn ca cb (by omega) (by omega) (wfc gx.1 gx.2) (wfc gy.1 gy.2) nfa.1 nfb.1 (chains_children gx.1 gy.1 hcx)]
        rw [hfirst, hrest]

end Casync.Match
