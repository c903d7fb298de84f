import Verif.Lemmas.Match
/-!
C20: what exclusion rules exclude, and that normalization changes nothing and does not depend on the order of the rules.
-/
namespace Casync.Match
open Casync Casync.MatchSpec

/-- The rule a chain of nodes stands for. -/
def toRule (ch : List Head) : Rule :=
  ⟨decide (ch.getLast?.map (·.kind) = some .negative), (ch.head?.map (·.anchored)).getD true, ch.map fun h => ⟨h.name, h.dirOnly⟩⟩

/-- The rules in a rule tree: one for every leaf. -/
def rulesOf (rs : Rules) (r : Rule) : Prop := ∃ c ∈ chainsL rs, toRule c = r

/-- Some rule of the set, with the given sign, applies to the path. -/
def HitIn (fnm : Bytes → Bytes → Bool) (rs : Rules) (k : Bool) (path : List Bytes) (d : Bool) : Prop :=
  ∃ r, rulesOf rs r ∧ r.negative = k ∧ Applies fnm r path d

variable {qsort : List Match → List Match} {fnm : Bytes → Bytes → Bool}

theorem applies_single (c : Comp) (k a : Bool) (n : Bytes) (d : Bool) :
    Applies fnm ⟨k, a, [c]⟩ [n] d ↔ fnm c.pattern n = true ∧ (c.dirOnly = true → d = true) := by
  cases a with
  | true => simp [Applies, MatchesAll]
  | false =>
    simp only [Applies, Bool.false_eq_true, if_false]
    constructor
    · rintro ⟨c', n', pre, hc, hp, h⟩
      injection hc with hc _
      cases pre with
      | nil => injection hp with hp _; subst hc hp; exact h
      | cons => simp at hp
    · intro h; exact ⟨c, n, [], rfl, rfl, h⟩

theorem toRule_leaf (h : Head) : toRule [h] = ⟨decide (h.kind = .negative), h.anchored, [⟨h.name, h.dirOnly⟩]⟩ := by
  simp [toRule]

theorem toRule_cons (h : Head) (t : List Head) (ht : t ≠ []) :
    toRule (h :: t) = ⟨(toRule t).negative, h.anchored, ⟨h.name, h.dirOnly⟩ :: (toRule t).comps⟩ := by
  cases t with
  | nil => exact absurd rfl ht
  | cons x xs => simp [toRule, List.getLast?_cons_cons]

theorem hits_node (n : Bytes) (d : Bool) (k : Kind) (h : Head) (cs : List Match) :
    hits fnm n d k (.node h cs) = (!(h.dirOnly && !d) && fnm h.name n && decide (h.kind = k)) := rfl

theorem subtreePart_node (n : Bytes) (d : Bool) (h : Head) (cs : List Match) : subtreePart fnm n d (.node h cs) =
    (if !h.anchored && d then [.node h cs] else []) ++
    (if (h.dirOnly && !d) || !fnm h.name n then [] else if h.kind = .inner then cs else []) := rfl

/-- A test of a name finds exactly the rules that apply to it. -/
theorem hits_iff {m : Match} (w : WF m) (n : Bytes) (d k : Bool) :
    (∃ c ∈ chains m, (toRule c).negative = k ∧ Applies fnm (toRule c) [n] d) ↔
      hits fnm n d (if k then .negative else .positive) m = true := by
  obtain ⟨h, cs⟩ := m
  by_cases hk : h.kind = .inner
  · have hne : cs ≠ [] := fun e => ((WF_leaf w).mp e) hk
    constructor
    · rintro ⟨c, hc, _, ha⟩
      rw [mem_chains] at hc
      rcases hc with ⟨e, _⟩ | ⟨t, ht, rfl⟩
      · exact absurd e hne
      · have hnt : t ≠ [] := fun e => nil_not_chain (e ▸ ht)
        rw [toRule_cons _ _ hnt] at ha
        have han : h.anchored = true := by
          cases cs with
          | nil => exact absurd rfl hne
          | cons c cs => rw [WF] at w; exact w.2.1
        cases t with
        | nil => exact absurd rfl hnt
        | cons x xs => simp [Applies, han, toRule, MatchesAll] at ha
    · intro hh
      rw [hits_node, hk] at hh
      simp only [Bool.and_eq_true, decide_eq_true_eq] at hh
      cases k <;> simp at hh
  · have hne : cs = [] := (WF_leaf w).mpr hk
    subst hne
    simp only [chains, List.mem_singleton, exists_eq_left, toRule_leaf, applies_single, hits_node, Bool.and_eq_true,
      decide_eq_true_eq, Bool.not_eq_true', Bool.and_eq_false_iff]
    cases hkk : h.kind with
    | inner => exact absurd hkk hk
    | positive => cases k <;> cases h.dirOnly <;> cases d <;> simp
    | negative => cases k <;> cases h.dirOnly <;> cases d <;> simp

/-- The subtree object holds exactly what is left of the rules after one directory. -/
theorem subtree_iff {m : Match} (w : WF m) (n : Bytes) (p : List Bytes) (hp : p ≠ []) (d k : Bool) :
    (∃ c ∈ chains m, (toRule c).negative = k ∧ Applies fnm (toRule c) (n :: p) d) ↔
      ∃ c ∈ chainsL (subtreePart fnm n true m), (toRule c).negative = k ∧ Applies fnm (toRule c) p d := by
  obtain ⟨h, cs⟩ := m
  by_cases hk : h.kind = .inner
  · have hne : cs ≠ [] := fun e => ((WF_leaf w).mp e) hk
    have ⟨han, hall⟩ : h.anchored = true ∧ ∀ x ∈ cs, x.head.anchored = true := by
      cases cs with
      | nil => exact absurd rfl hne
      | cons c cs => rw [WF] at w; exact ⟨w.2.1, w.2.2.2.2⟩
    have hpart : subtreePart fnm n true (.node h cs) = if fnm h.name n then cs else [] := by
      rw [subtreePart_node]
      simp only [han, hk]
      cases fnm h.name n <;> simp
    rw [hpart]
    have key : ∀ t ∈ chainsL cs, (Applies fnm (toRule (h :: t)) (n :: p) d ↔ fnm h.name n = true ∧ Applies fnm (toRule t) p d) ∧
        (toRule (h :: t)).negative = (toRule t).negative := by
      intro t ht
      have hnt : t ≠ [] := fun e => nil_not_chain (e ▸ ht)
      obtain ⟨x, hx, t', rfl⟩ := chainsL_cons_mem ht
      rw [toRule_cons _ _ hnt]
      refine ⟨?_, rfl⟩
      cases p with
      | nil => exact absurd rfl hp
      | cons n' ns =>
        simp [Applies, han, toRule, MatchesAll, hall x hx]
    constructor
    · rintro ⟨c, hc, hn, ha⟩
      rw [mem_chains] at hc
      rcases hc with ⟨e, _⟩ | ⟨t, ht, rfl⟩
      · exact absurd e hne
      · obtain ⟨k1, k2⟩ := key t ht
        rw [k1] at ha
        rw [if_pos ha.1]
        exact ⟨t, ht, k2 ▸ hn, ha.2⟩
    · rintro ⟨t, ht, hn, ha⟩
      cases hf : fnm h.name n with
      | false => rw [hf] at ht; simp [chainsL] at ht
      | true =>
        rw [hf] at ht
        simp only [if_true] at ht
        obtain ⟨k1, k2⟩ := key t ht
        exact ⟨h :: t, by rw [mem_chains]; exact .inr ⟨t, ht, rfl⟩, k2.trans hn, k1.mpr ⟨hf, ha⟩⟩
  · have hne : cs = [] := (WF_leaf w).mpr hk
    subst hne
    have hpart : subtreePart fnm n true (.node h []) = if h.anchored then [] else [.node h []] := by
      rw [subtreePart_node]
      simp only [if_neg hk]
      cases h.anchored <;> simp
    rw [hpart]
    cases p with
    | nil => exact absurd rfl hp
    | cons n' ns =>
      cases han : h.anchored with
      | true => simp [chainsL, chains, toRule_leaf, Applies, han, MatchesAll]
      | false =>
        simp only [chains, chainsL, Bool.false_eq_true, if_false, List.append_nil, List.mem_singleton, exists_eq_left, toRule_leaf, Applies, han]
        apply and_congr_right
        intro _
        constructor
        · rintro ⟨c, x, pre, hc, hpx, hh⟩
          cases pre with
          | nil => simp at hpx
          | cons y ys => injection hpx with _ hpx; exact ⟨c, x, ys, hc, hpx, hh⟩
        · rintro ⟨c, x, pre, hc, hpx, hh⟩
          exact ⟨c, x, n :: pre, hc, by rw [hpx]; rfl, hh⟩

theorem hitIn_chains (rs : Rules) (k : Bool) (path : List Bytes) (d : Bool) :
    HitIn fnm rs k path d ↔ ∃ m ∈ rs, ∃ c ∈ chains m, (toRule c).negative = k ∧ Applies fnm (toRule c) path d := by
  unfold HitIn rulesOf
  simp only [mem_chainsL]
  constructor
  · rintro ⟨r, ⟨c, ⟨m, hm, hc⟩, rfl⟩, h⟩; exact ⟨m, hm, c, hc, h⟩
  · rintro ⟨m, hm, c, hc, h⟩; exact ⟨_, ⟨c, ⟨m, hm, hc⟩, rfl⟩, h⟩

theorem wfl_append {a b : List Match} : WFL (a ++ b) ↔ WFL a ∧ WFL b := by
  simp only [WFL_iff, List.mem_append]
  exact ⟨fun h => ⟨fun x hx => h x (.inl hx), fun x hx => h x (.inr hx)⟩, fun h x hx => hx.elim (h.1 x) (h.2 x)⟩

theorem normalize_facts (hq : SortsBy qsort) {rs : Rules} (w : WFL rs) :
    WFL (normalize qsort rs) ∧ NFL (normalize qsort rs) ∧
      (normalize qsort rs).Pairwise (fun a b => cmpHead a.head b.head = .lt) ∧ (depthL (normalize qsort rs) ≤ depthL rs) ∧
      (∀ c, c ∈ chainsL (normalize qsort rs) ↔ c ∈ chainsL rs) := by
  unfold normalize
  by_cases e : rs = []
  · subst e; simp [WFL, NFL]
  · rw [if_neg e]
    have h := normList_good hq (norm_good hq (depthL rs)) rs
      (fun x hx => ⟨(WFL_iff _).mp w x hx, (depthL_le _ _).mp (Nat.le_refl _) x hx⟩)
    obtain ⟨r1, r2, r3, _, _⟩ := h
    exact ⟨(WFL_iff _).mpr fun x hx => (r1 x hx).1, (NFL_iff _).mpr fun x hx => (r1 x hx).2.1, r2,
      (depthL_le _ _).mpr fun x hx => (r1 x hx).2.2, r3⟩

theorem subtreePart_wf {m : Match} (w : WF m) (n : Bytes) (d : Bool) : WFL (subtreePart fnm n d m) := by
  obtain ⟨h, cs⟩ := m
  rw [subtreePart, wfl_append]
  constructor
  · split
    · simp [WFL, w]
    · trivial
  · split
    · trivial
    · split
      · cases cs with
        | nil => trivial
        | cons c cs => rw [WF] at w; exact w.2.2.2.1
      · trivial

/-- **C20** (one directory).  The answer about a name is exactly whether a positive rule and no negative rule applies to it, and the rules
handed on to a subdirectory say the same about every path below as the rules here. -/
theorem C20_test (hq : SortsBy qsort) {rs : Rules} (w : WFL rs) (n : Bytes) (d : Bool) (hn : n ≠ [] ∧ n ≠ [46] ∧ n ≠ [46, 46]) :
    ∃ ans sub, test qsort fnm rs n d = .ok (ans, sub) ∧ WFL sub ∧
      (ans = true ↔ HitIn fnm rs false [n] d ∧ ¬ HitIn fnm rs true [n] d) ∧
      (d = true → ∀ k p d', p ≠ [] → (HitIn fnm sub k p d' ↔ HitIn fnm rs k (n :: p) d')) := by
  unfold test
  rw [if_neg (by simp [hn])]
  have wsub : WFL (rs.flatMap (subtreePart fnm n d)) := by
    rw [WFL_iff]; intro x hx
    obtain ⟨m, hm, hx⟩ := List.mem_flatMap.mp hx
    exact (WFL_iff _).mp (subtreePart_wf ((WFL_iff _).mp w m hm) n d) x hx
  have hany : ∀ k, HitIn fnm rs k [n] d ↔ rs.any (hits fnm n d (if k then .negative else .positive)) = true := by
    intro k
    rw [hitIn_chains, List.any_eq_true]
    constructor
    · rintro ⟨m, hm, h⟩; exact ⟨m, hm, (hits_iff ((WFL_iff _).mp w m hm) n d k).mp h⟩
    · rintro ⟨m, hm, h⟩; exact ⟨m, hm, (hits_iff ((WFL_iff _).mp w m hm) n d k).mpr h⟩
  have hsub : d = true → ∀ k p d', p ≠ [] → (HitIn fnm (rs.flatMap (subtreePart fnm n d)) k p d' ↔ HitIn fnm rs k (n :: p) d') := by
    rintro rfl k p d' hp
    rw [hitIn_chains rs]
    unfold HitIn rulesOf
    constructor
    · rintro ⟨r, ⟨c, hc, rfl⟩, h⟩
      obtain ⟨x, hx, hc⟩ := (mem_chainsL _ _).mp hc
      obtain ⟨m, hm, hx⟩ := List.mem_flatMap.mp hx
      exact ⟨m, hm, (subtree_iff ((WFL_iff _).mp w m hm) n p hp d' k).mpr ⟨c, (mem_chainsL _ _).mpr ⟨x, hx, hc⟩, h⟩⟩
    · rintro ⟨m, hm, h⟩
      obtain ⟨c, hc, h⟩ := (subtree_iff ((WFL_iff _).mp w m hm) n p hp d' k).mp h
      obtain ⟨x, hx, hc⟩ := (mem_chainsL _ _).mp hc
      exact ⟨_, ⟨c, (mem_chainsL _ _).mpr ⟨x, List.mem_flatMap.mpr ⟨m, hm, hx⟩, hc⟩, rfl⟩, h⟩
  refine ⟨_, _, rfl, ?_, ?_, ?_⟩
  · split
    · exact (normalize_facts hq wsub).1
    · exact wsub
  · rw [hany, hany]
    simp only [Bool.false_eq_true, if_false, if_true]
    cases rs.any (hits fnm n d .negative) <;> cases rs.any (hits fnm n d .positive) <;> simp
  · intro hd k p d' hp
    rw [← hsub hd k p d' hp]
    split
    · unfold HitIn rulesOf
      simp only [(normalize_facts hq wsub).2.2.2.2]
    · rfl

theorem hitIn_append (a b : Rules) (k : Bool) (p : List Bytes) (d : Bool) :
    HitIn fnm (merge a b) k p d ↔ HitIn fnm a k p d ∨ HitIn fnm b k p d := by
  simp only [hitIn_chains, merge, List.mem_append]
  constructor
  · rintro ⟨m, hm | hm, h⟩
    · exact .inl ⟨m, hm, h⟩
    · exact .inr ⟨m, hm, h⟩
  · rintro (⟨m, hm, h⟩ | ⟨m, hm, h⟩)
    · exact ⟨m, .inl hm, h⟩
    · exact ⟨m, .inr hm, h⟩

theorem applies_nonempty {r : Rule} {d : Bool} : ¬ Applies fnm r [] d := by
  unfold Applies
  split
  · cases r.comps with
    | nil => simp [MatchesAll]
    | cons c cs => cases cs <;> simp [MatchesAll]
  · rintro ⟨_, _, pre, _, h, _⟩; cases pre <;> simp at h

/-- `walk`, from any directory. -/
theorem walk_spec (hq : SortsBy qsort) (files : List Bytes → Rules) (wf : ∀ d, WFL (files d)) (isDir : Bool) :
    ∀ (path here : List Bytes) (inherited : Rules), WFL inherited →
      (∀ k p d, p ≠ [] → (HitIn fnm (merge inherited (files here)) k p d ↔ Hit fnm (fun dir => rulesOf (files dir)) k (here ++ p) d ∧
        ∃ dir rel r, here ++ p = dir ++ rel ∧ dir.length ≤ here.length ∧ rulesOf (files dir) r ∧ r.negative = k ∧ Applies fnm r rel d)) →
      (∀ n ∈ path, n ≠ [] ∧ n ≠ [46] ∧ n ≠ [46, 46]) →
      ∃ b, walk qsort fnm files here inherited path isDir = .ok b ∧
        (b = true ↔ ∃ pre post, path = pre ++ post ∧ pre ≠ [] ∧
          Excluded fnm (fun dir => rulesOf (files dir)) (here ++ pre) (if post = [] then isDir else true)) := by
  intro path
  induction path with
  | nil =>
    intro here inh _ _ _
    refine ⟨false, rfl, ?_⟩
    simp only [Bool.false_eq_true, false_iff]
    rintro ⟨pre, post, h, hne, _⟩
    have := List.append_eq_nil_iff.mp h.symm
    exact hne this.1
  | cons n rest ih =>
    intro here inh winh hinv hnames
    have hn := hnames n (List.mem_cons_self ..)
    have wm : WFL (merge inh (files here)) := wfl_append.mpr ⟨winh, wf here⟩
    obtain ⟨ans, sub, ht, wsub, hans, hsub⟩ := C20_test (fnm := fnm) hq wm n (if rest = [] then isDir else true) hn
    -- rules for a single name come from this directory or above
    have hone : ∀ k p d, HitIn fnm (merge inh (files here)) k [p] d ↔ Hit fnm (fun dir => rulesOf (files dir)) k (here ++ [p]) d := by
      intro k p d
      rw [hinv k [p] d (by simp)]
      constructor
      · exact fun h => h.1
      · rintro ⟨dir, rel, r, he, hr, hk, ha⟩
        refine ⟨⟨dir, rel, r, he, hr, hk, ha⟩, dir, rel, r, he, ?_, hr, hk, ha⟩
        have hrel : rel ≠ [] := by rintro rfl; exact applies_nonempty ha
        have := congrArg List.length he
        have hl := List.length_pos_iff.mpr hrel
        simp at this
        omega
    have hexc : ans = true ↔ Excluded fnm (fun dir => rulesOf (files dir)) (here ++ [n]) (if rest = [] then isDir else true) := by
      rw [hans, hone, hone]; rfl
    rw [walk, ht]
    cases ans with
    | true =>
      refine ⟨true, by simp, ?_⟩
      simp only [true_iff]
      exact ⟨[n], rest, rfl, by simp, hexc.mp rfl⟩
    | false =>
      simp only [Bool.false_eq_true, if_false]
      have hne : ¬ Excluded fnm (fun dir => rulesOf (files dir)) (here ++ [n]) (if rest = [] then isDir else true) := by
        intro h; have := hexc.mpr h; cases this
      by_cases hr : rest = []
      · subst hr
        refine ⟨false, by simp [walk], ?_⟩
        simp only [Bool.false_eq_true, false_iff]
        rintro ⟨pre, post, he, hp, hx⟩
        cases pre with
        | nil => exact hp rfl
        | cons a as =>
          injection he with h1 h2
          have := List.append_eq_nil_iff.mp h2.symm
          rw [this.1, this.2, ← h1] at hx
          exact hne hx
      · rw [if_neg hr] at hsub
        obtain ⟨b, hb, hbs⟩ := ih (here ++ [n]) (merge [] sub) (by simpa [merge] using wsub) (by
          intro k p d hp
          rw [hitIn_append, show merge [] sub = sub from rfl, hsub rfl k p d hp, hinv k (n :: p) d (by simp)]
          simp only [List.append_assoc, List.singleton_append]
          constructor
          · rintro (⟨h, dir, rel, r, he, hl, hx⟩ | ⟨r, hr', hk, ha⟩)
            · exact ⟨h, dir, rel, r, he, by simp; omega, hx⟩
            · have hh : ∃ dir rel r, here ++ n :: p = dir ++ rel ∧ dir.length ≤ (here ++ [n]).length ∧ rulesOf (files dir) r ∧
                  r.negative = k ∧ Applies fnm r rel d := ⟨here ++ [n], p, r, by simp, by simp, hr', hk, ha⟩
              refine ⟨⟨here ++ [n], p, r, by simp, hr', hk, ha⟩, hh⟩
          · rintro ⟨h, dir, rel, r, he, hl, hx⟩
            by_cases hlen : dir.length ≤ here.length
            · exact .inl ⟨h, dir, rel, r, he, hlen, hx⟩
            · have hl' : dir.length = (here ++ [n]).length := by simp at hl ⊢; omega
              have he' : (here ++ [n]) ++ p = dir ++ rel := by simpa using he
              obtain ⟨h1, h2⟩ := List.append_inj he' hl'.symm
              subst h1 h2
              exact .inr ⟨r, hx⟩) (fun x hx => hnames x (List.mem_cons_of_mem _ hx))
        refine ⟨b, hb, ?_⟩
        rw [hbs]
        constructor
        · rintro ⟨pre, post, he, hp, hx⟩
          refine ⟨n :: pre, post, by rw [he]; rfl, by simp, ?_⟩
          simpa using hx
        · rintro ⟨pre, post, he, hp, hx⟩
          cases pre with
          | nil => exact absurd rfl hp
          | cons a as =>
            injection he with h1 h2
            subst h1
            cases as with
            | nil =>
              have h2 : rest = post := h2
              subst h2
              exact absurd hx hne
            | cons c cs => exact ⟨c :: cs, post, h2, by simp, by simpa using hx⟩

/-- **C20** (what is excluded).  Whether the encoder leaves a path out depends only on the set of the rules in the exclude files: the path is
left out exactly if it, or a directory leading to it, has a positive rule that applies and no negative one. -/
theorem C20_walk (hq : SortsBy qsort) (files : List Bytes → Rules) (wf : ∀ d, WFL (files d)) (path : List Bytes) (isDir : Bool)
    (hnames : ∀ n ∈ path, n ≠ [] ∧ n ≠ [46] ∧ n ≠ [46, 46]) :
    ∃ b, walk qsort fnm files [] [] path isDir = .ok b ∧
      (b = true ↔ LeftOut fnm (fun dir => rulesOf (files dir)) path isDir) := by
  obtain ⟨b, hb, h⟩ := walk_spec (fnm := fnm) hq files wf isDir path [] [] trivial (by
    intro k p d hp
    simp only [List.nil_append, List.length_nil, Nat.le_zero, List.length_eq_zero_iff]
    constructor
    · rintro ⟨r, hr⟩
      exact ⟨⟨[], p, r, rfl, hr⟩, [], p, r, rfl, rfl, hr⟩
    · rintro ⟨_, dir, rel, r, he, rfl, hr⟩
      simp only [List.nil_append] at he
      subst he
      exact ⟨r, hr⟩) hnames
  exact ⟨b, hb, h⟩

/-! ### Parsing -/

theorem pieces_ne (sep : UInt8 → Bool) : ∀ l, pieces sep l ≠ []
  | [] => by simp [pieces]
  | b :: bs => by
    rw [pieces]
    split
    · simp
    · split <;> simp

theorem pieces_split (sep : UInt8 → Bool) : ∀ l, pieces sep l =
    match l.dropWhile (!sep ·) with
    | [] => [l.takeWhile (!sep ·)]
    | _ :: r => l.takeWhile (!sep ·) :: pieces sep r
  | [] => rfl
  | b :: bs => by
    rw [pieces]
    cases hb : sep b with
    | true => simp [hb]
    | false =>
      simp only [Bool.false_eq_true, if_false, List.dropWhile, List.takeWhile, hb, Bool.not_false]
      rw [pieces_split sep bs]
      cases bs.dropWhile (!sep ·) <;> rfl

/-- The components of a path. -/
theorem names_drop (p : Bytes) : (pieces (· = 47) (p.dropWhile (· = 47))).filter (· ≠ []) = (pieces (· = 47) p).filter (· ≠ []) := by
  induction p with
  | nil => rfl
  | cons b bs ih =>
    by_cases hb : b = 47
    · subst hb
      rw [List.dropWhile_cons_of_pos (by simp), ih, pieces]
      simp
    · rw [List.dropWhile_cons_of_neg (by simpa using hb)]

theorem getLast?_dropWhile {p : UInt8 → Bool} : ∀ l : Bytes, l.dropWhile p ≠ [] → (l.dropWhile p).getLast? = l.getLast?
  | [], h => by simp at h
  | b :: bs, h => by
    by_cases hb : p b = true
    · rw [List.dropWhile_cons_of_pos hb] at h ⊢
      rw [getLast?_dropWhile bs h]
      cases bs with
      | nil => simp at h
      | cons c cs => rfl
    · rw [List.dropWhile_cons_of_neg hb]

theorem all_of_dropWhile_nil {p : UInt8 → Bool} : ∀ l : Bytes, l.dropWhile p = [] → ∀ x ∈ l, p x = true
  | [], _ => by simp
  | b :: bs, h => by
    by_cases hb : p b = true
    · rw [List.dropWhile_cons_of_pos hb] at h
      intro x hx
      rcases List.mem_cons.mp hx with rfl | hx
      · exact hb
      · exact all_of_dropWhile_nil bs h x hx
    · rw [List.dropWhile_cons_of_neg hb] at h; cases h

theorem names_ne {p : Bytes} (hp : p ≠ []) (hh : p.head? ≠ some 47) : (pieces (· = 47) p).filter (· ≠ []) ≠ [] := by
  rw [pieces_split]
  cases p with
  | nil => exact absurd rfl hp
  | cons b bs =>
    have hb : b ≠ 47 := by simpa using hh
    rw [List.takeWhile_cons_of_pos (by simpa using hb)]
    cases List.dropWhile (fun x => !decide (x = 47)) (b :: bs) <;> simp

theorem not_mem_takeWhile {p : UInt8 → Bool} : ∀ (l : Bytes) x, x ∈ l.takeWhile p → p x = true
  | [], x, h => by simp at h
  | b :: bs, x, h => by
    by_cases hb : p b = true
    · rw [List.takeWhile_cons_of_pos hb] at h
      rcases List.mem_cons.mp h with rfl | h
      · exact hb
      · exact not_mem_takeWhile bs x h
    · rw [List.takeWhile_cons_of_neg hb] at h; cases h

theorem parseComponents_spec (kind : Kind) (hk : kind ≠ .inner) : ∀ (fuel : Nat) (anch : Bool) (p : Bytes), p.length < fuel →
    p.head? ≠ some 47 → (anch = false → 47 ∉ p) →
    let names := (pieces (· = 47) p).filter (· ≠ [])
    if names = [] ∨ [46] ∈ names ∨ [46, 46] ∈ names then parseComponents kind fuel anch p = .err .EINVAL
    else ∃ m ch, parseComponents kind fuel anch p = .ok m ∧ WF m ∧ m.head.anchored = anch ∧ chains m = [ch] ∧
      ch.map (fun h => (⟨h.name, h.dirOnly⟩ : Comp)) = toComps (p.getLast? = some 47) names ∧ ch.getLast?.map (·.kind) = some kind := by
  intro fuel
  induction fuel with
  | zero => intro _ p h; exact absurd h (Nat.not_lt_zero _)
  | succ fuel ih =>
    intro anch p hl hh hanch
    have e1 : (fun x : UInt8 => !decide (x = 47)) = (fun x => decide (x ≠ 47)) := by funext x; simp
    have hsplit := pieces_split (· = 47) p
    simp only [e1] at hsplit
    rw [parseComponents]
    simp only
    have happ : p.takeWhile (fun x => decide (x ≠ 47)) ++ p.dropWhile (fun x => decide (x ≠ 47)) = p := List.takeWhile_append_dropWhile
    generalize hname : p.takeWhile (fun x => decide (x ≠ 47)) = name at *
    generalize hr : p.dropWhile (fun x => decide (x ≠ 47)) = r at *
    by_cases hbad : name = [] ∨ name = [46] ∨ name = [46, 46]
    · rw [if_pos hbad]
      have hc : (pieces (fun x => decide (x = 47)) p).filter (· ≠ []) = [] ∨ [46] ∈ (pieces (fun x => decide (x = 47)) p).filter (· ≠ []) ∨
          [46, 46] ∈ (pieces (fun x => decide (x = 47)) p).filter (· ≠ []) := by
        rcases hbad with rfl | rfl | rfl
        · -- nothing before the first slash, and no slash in front: empty
          cases p with
          | nil => left; simp [pieces]
          | cons b bs =>
            have : b ≠ 47 := by simpa using hh
            rw [List.takeWhile_cons_of_pos (by simpa using this)] at hname
            cases hname
        · right; left; rw [hsplit]; cases r <;> simp
        · right; right; rw [hsplit]; cases r <;> simp
      rw [if_pos hc]
    · rw [if_neg hbad]
      have hb1 : name ≠ [] := fun h => hbad (.inl h)
      have hb2 : name ≠ [46] := fun h => hbad (.inr (.inl h))
      have hb3 : name ≠ [46, 46] := fun h => hbad (.inr (.inr h))
      -- the names of p
      have hnames : (pieces (fun x => decide (x = 47)) p).filter (· ≠ []) =
          name :: (pieces (fun x => decide (x = 47)) (r.dropWhile (· = 47))).filter (· ≠ []) := by
        rw [names_drop, hsplit]
        cases hrr : r with
        | nil => simp [hb1, pieces]
        | cons b bs =>
          have hb : b = 47 := by
            have hh := List.head?_dropWhile_not (fun x => decide (x ≠ 47)) p
            rw [hr, hrr] at hh
            simpa using hh
          subst hb
          rw [pieces]
          simp [hb1]
      rw [hnames]
      have hlen : (r.dropWhile (· = 47)).length < fuel := by
        have h1 := (List.dropWhile_suffix (l := r) (fun x => decide (x = 47))).length_le
        have h2 : 0 < name.length := List.length_pos_iff.mpr hb1
        have h3 : name.length + r.length = p.length := by rw [← happ, List.length_append]
        omega
      by_cases hrest : r.dropWhile (· = 47) = []
      · rw [if_pos hrest, hrest]
        have hnm : (pieces (fun x => decide (x = 47)) []).filter (· ≠ []) = [] := by simp [pieces]
        rw [hnm, if_neg (by simp [hb2.symm, hb3.symm])]
        have htr : decide (p.getLast? = some 47) = decide (r ≠ []) := by
          cases hrr : r with
          | nil =>
            rw [hrr, List.append_nil] at happ
            simp only [ne_eq, not_true_eq_false, decide_false, decide_eq_false_iff_not]
            intro e
            have hm : (47 : UInt8) ∈ p := List.mem_of_getLast? e
            rw [← happ, ← hname] at hm
            have := not_mem_takeWhile _ _ hm
            simp at this
          | cons b bs =>
            have : p.getLast? = r.getLast? := by
              rw [← happ, List.getLast?_append, hrr]
              simp [List.getLast?_cons]
            rw [this]
            have hall := all_of_dropWhile_nil r hrest
            have hm : r.getLast? = some (r.getLast (by simp [hrr])) := List.getLast?_eq_some_getLast _
            have := hall _ (List.getLast_mem (l := r) (by simp [hrr]))
            simp only [decide_eq_true_eq] at this
            rw [hm, this]; simp
        refine ⟨_, [⟨kind, name, anch, decide (r ≠ [])⟩], rfl, hk, rfl, by simp [chains], ?_, by simp⟩
        rw [htr]
        simp [toComps]
      · rw [if_neg hrest]
        have hslash : (47 : UInt8) ∈ p := by
          cases hrr : r with
          | nil => rw [hrr] at hrest; simp at hrest
          | cons b bs =>
            have hb : b = 47 := by
              have hh := List.head?_dropWhile_not (fun x => decide (x ≠ 47)) p
              rw [hr, hrr] at hh
              simpa using hh
            rw [← happ, hrr, hb]; simp
        have hat : anch = true := by
          cases anch with
          | true => rfl
          | false => exact absurd hslash (hanch rfl)
        have hrne : r ≠ [] := by rintro rfl; simp at hrest
        have hnh : (r.dropWhile (· = 47)).head? ≠ some 47 := by
          intro e
          have := List.head?_dropWhile_not (fun x => decide (x = 47)) r
          rw [e] at this
          simp at this
        have hnn := names_ne hrest hnh
        have hih := ih true (r.dropWhile (· = 47)) hlen hnh (by simp)
        have hlast : (r.dropWhile (· = 47)).getLast? = p.getLast? := by
          rw [getLast?_dropWhile r hrest, ← happ, List.getLast?_append]
          cases hrr : r with
          | nil => exact absurd hrr hrne
          | cons b bs => simp [List.getLast?_cons]
        simp only at hih
        rw [hlast] at hih
        generalize (pieces (fun x => decide (x = 47)) (r.dropWhile (· = 47))).filter (· ≠ []) = names' at *
        by_cases hc : names' = [] ∨ [46] ∈ names' ∨ [46, 46] ∈ names'
        · rw [if_pos hc] at hih
          rw [hih]
          by_cases hne : names' = []
          · exact absurd hne hnn
          · rw [if_pos (by rcases hc with h | h | h
                           · exact absurd h hne
                           · right; left; exact List.mem_cons_of_mem _ h
                           · right; right; exact List.mem_cons_of_mem _ h)]
        · rw [if_neg hc] at hih
          obtain ⟨m, ch, hm, wm, ham, hch, hmap, hlk⟩ := hih
          rw [if_neg (by
            intro h
            rcases h with h | h | h
            · cases h
            · rcases List.mem_cons.mp h with h | h
              · exact hb2 h.symm
              · exact hc (.inr (.inl h))
            · rcases List.mem_cons.mp h with h | h
              · exact hb3 h.symm
              · exact hc (.inr (.inr h)))]
          rw [hm]
          refine ⟨_, ⟨.inner, name, anch, decide (r ≠ [])⟩ :: ch, rfl, ?_, rfl, ?_, ?_, ?_⟩
          · rw [WF]
            refine ⟨rfl, hat, by simpa using hrne, by simp [WFL, wm], by simpa using ham⟩
          · simp [chains, chainsL, hch]
          · cases names' with
            | nil => exact absurd (.inl rfl) hc
            | cons x xs => rw [List.map_cons, hmap, toComps]; simp [hrne]
          · cases ch with
            | nil => simp at hlk
            | cons a as => rw [List.getLast?_cons_cons]; exact hlk

/-- **C20** (a line).  The parser accepts exactly the lines that have a rule, and the tree it makes has that rule and no other. -/
theorem C20_line (line : Bytes) :
    match lineRule line with
    | none => parseLine line = .err .EINVAL
    | some r => ∃ m, parseLine line = .ok m ∧ WF m ∧ ∀ r', rulesOf [m] r' ↔ r' = r := by
  have key : ∀ (neg : Bool) (p : Bytes),
      let names := (pieces (· = 47) p).filter (· ≠ [])
      let kind := if neg then Kind.negative else Kind.positive
      if names = [] ∨ [46] ∈ names ∨ [46, 46] ∈ names then
        parseComponents kind (p.length + 1) (p.contains 47) (p.dropWhile (· = 47)) = .err .EINVAL
      else ∃ m, parseComponents kind (p.length + 1) (p.contains 47) (p.dropWhile (· = 47)) = .ok m ∧ WF m ∧
        ∀ r', rulesOf [m] r' ↔ r' = ⟨neg, p.contains 47, toComps (p.getLast? = some 47) names⟩ := by
    intro neg p
    have h := parseComponents_spec (if neg then Kind.negative else Kind.positive) (by cases neg <;> simp) (p.length + 1) (p.contains 47)
      (p.dropWhile (· = 47)) (by
        have := (List.dropWhile_suffix (l := p) (fun x => decide (x = 47))).length_le
        omega)
      (by
        intro e
        have := List.head?_dropWhile_not (fun x => decide (x = 47)) p
        rw [e] at this
        simp at this)
      (by
        intro hc hm
        have : (47 : UInt8) ∈ p := (List.dropWhile_suffix (l := p) (fun x => decide (x = 47))).subset hm
        simp [this] at hc)
    simp only [names_drop] at h ⊢
    by_cases hn : (pieces (fun x => decide (x = 47)) p).filter (· ≠ []) = [] ∨
        [46] ∈ (pieces (fun x => decide (x = 47)) p).filter (· ≠ []) ∨ [46, 46] ∈ (pieces (fun x => decide (x = 47)) p).filter (· ≠ [])
    · rw [if_pos hn] at h ⊢; exact h
    · rw [if_neg hn] at h ⊢
      obtain ⟨m, ch, hm, wm, ham, hch, hmap, hlk⟩ := h
      refine ⟨m, hm, wm, ?_⟩
      have hne : p.dropWhile (· = 47) ≠ [] := by
        intro e
        apply hn
        left
        rw [← names_drop, e]
        simp [pieces]
      have hru : toRule ch = ⟨neg, p.contains 47, toComps (p.getLast? = some 47) ((pieces (fun x => decide (x = 47)) p).filter (· ≠ []))⟩ := by
        have hmem : ch ∈ chains m := by rw [hch]; simp
        obtain ⟨t, ht⟩ := chain_head hmem
        have h1 : (ch.head?.map (·.anchored)).getD true = p.contains 47 := by rw [ht]; simpa using ham
        have h2 : decide (ch.getLast?.map (·.kind) = some Kind.negative) = neg := by rw [hlk]; cases neg <;> simp
        unfold toRule
        rw [h1, h2, hmap, getLast?_dropWhile p hne]
      intro r'
      simp only [rulesOf, chainsL, hch, List.append_nil, List.mem_singleton, exists_eq_left, hru]
      exact eq_comm
  unfold lineRule parseLine
  by_cases hneg : line.head? = some 33
  · have h := key true (line.drop 1)
    simp only [hneg, if_true, decide_true] at h ⊢
    split at h
    · rename_i hn; rw [if_pos hn]; exact h
    · rename_i hn; rw [if_neg hn]; exact h
  · have h := key false line
    simp only [hneg, if_false, decide_false, Bool.false_eq_true] at h ⊢
    split at h
    · rename_i hn; rw [if_pos hn]; exact h
    · rename_i hn; rw [if_neg hn]; exact h

theorem line_ok {line : Bytes} {r : Rule} (h : lineRule line = some r) :
    ∃ m, parseLine line = .ok m ∧ WF m ∧ ∀ r', rulesOf [m] r' ↔ r' = r := by
  have := C20_line line; rw [h] at this; exact this

theorem line_err {line : Bytes} (h : lineRule line = none) : parseLine line = .err .EINVAL := by
  have := C20_line line; rw [h] at this; exact this

theorem rulesOf_cons (m : Match) (ms : Rules) (r : Rule) : rulesOf (m :: ms) r ↔ rulesOf [m] r ∨ rulesOf ms r := by
  simp only [rulesOf, chainsL, List.append_nil, List.mem_append]
  constructor
  · rintro ⟨c, hc | hc, h⟩
    · exact .inl ⟨c, hc, h⟩
    · exact .inr ⟨c, hc, h⟩
  · rintro (⟨c, hc, h⟩ | ⟨c, hc, h⟩)
    · exact ⟨c, .inl hc, h⟩
    · exact ⟨c, .inr hc, h⟩

/-- **C20** (a list of rules).  A list of rules is accepted exactly if every line has a rule; then the set of rules is that of the lines. -/
theorem C20_strings (ls : List Bytes) :
    ((∀ l ∈ ls, lineRule l ≠ none) → ∃ rs, newFromStrings ls = .ok rs ∧ WFL rs ∧ ∀ r, rulesOf rs r ↔ ∃ l ∈ ls, lineRule l = some r) ∧
    ((∃ l ∈ ls, lineRule l = none) → newFromStrings ls = .err .EINVAL) := by
  induction ls with
  | nil => exact ⟨fun _ => ⟨[], rfl, trivial, by simp [rulesOf, chainsL]⟩, by simp⟩
  | cons l ls ih =>
    cases hl : lineRule l with
    | none =>
      refine ⟨fun h => absurd hl (h l (List.mem_cons_self ..)), fun _ => ?_⟩
      rw [newFromStrings, line_err hl]
    | some r =>
      obtain ⟨m, hm, wm, hr⟩ := line_ok hl
      constructor
      · intro h
        obtain ⟨rs, h1, h2, h3⟩ := ih.1 fun x hx => h x (List.mem_cons_of_mem _ hx)
        refine ⟨m :: rs, by rw [newFromStrings, hm, h1], ⟨wm, h2⟩, fun r' => ?_⟩
        rw [rulesOf_cons, hr, h3]
        simp only [List.mem_cons, exists_eq_or_imp, hl, Option.some.injEq]
        rw [@eq_comm _ r' r]
      · rintro ⟨x, hx, h⟩
        have hx' : x ∈ ls := by
          rcases List.mem_cons.mp hx with rfl | hx
          · rw [hl] at h; cases h
          · exact hx
        rw [newFromStrings, hm, ih.2 ⟨x, hx', h⟩]

theorem newFromFile_spec : ∀ (fuel : Nat) (c : Bytes), c.length < fuel →
    ((∀ p ∈ pieces (fun b => b = 10 || b = 0) c, p.length < 65536) → (∀ l ∈ ruleLines c, lineRule l ≠ none) →
      ∃ rs, newFromFile fuel c = .ok rs ∧ WFL rs ∧ ∀ r, rulesOf rs r ↔ ∃ l ∈ ruleLines c, lineRule l = some r) ∧
    ((∃ p ∈ pieces (fun b => b = 10 || b = 0) c, 65536 ≤ p.length) ∨ (∃ l ∈ ruleLines c, lineRule l = none) →
      newFromFile fuel c = .err .EINVAL ∨ newFromFile fuel c = .err .ENOBUFS) := by
  intro fuel
  induction fuel with
  | zero => intro c h; exact absurd h (Nat.not_lt_zero _)
  | succ fuel ih =>
    intro c hlen
    rw [newFromFile]
    simp only
    by_cases hc : c = []
    · subst hc
      have hp : pieces (fun b => b = 10 || b = 0) [] = [[]] := rfl
      have hr : ruleLines [] = [] := by simp [ruleLines, pieces, strip]
      rw [hp, hr]
      constructor
      · intro _ _; exact ⟨[], by simp, trivial, by simp [rulesOf, chainsL]⟩
      · rintro (⟨p, hp, hl⟩ | ⟨l, hl, _⟩)
        · simp only [List.mem_singleton] at hp; subst hp; simp at hl
        · cases hl
    · -- the first line and the rest
      have e1 : (fun b : UInt8 => !(decide (b = 10) || decide (b = 0))) = inLine := rfl
      have hsp := pieces_split (fun b => b = 10 || b = 0) c
      rw [e1] at hsp
      have happ : c.takeWhile inLine ++ c.dropWhile inLine = c := List.takeWhile_append_dropWhile
      generalize hline : c.takeWhile inLine = line at *
      have hdrop : c.dropWhile inLine = c.drop line.length := by
        conv => rhs; rw [← happ]
        simp
      -- either the last line, or the rest starts after one separator
      have hpieces : ∃ more, pieces (fun b => b = 10 || b = 0) c = line :: more ∧
          (more = [] ∧ c.drop (line.length + 1) = [] ∨ more = pieces (fun b => b = 10 || b = 0) (c.drop (line.length + 1))) := by
        cases hd : c.dropWhile inLine with
        | nil =>
          rw [hd] at hsp
          refine ⟨[], hsp, .inl ⟨rfl, ?_⟩⟩
          rw [hd] at hdrop
          have := List.drop_eq_nil_iff.mp hdrop.symm
          exact List.drop_eq_nil_iff.mpr (by omega)
        | cons b r =>
          rw [hd] at hsp
          refine ⟨_, hsp, .inr ?_⟩
          rw [← List.drop_drop, ← hdrop, hd]
          rfl
      obtain ⟨more, hp, hmore⟩ := hpieces
      have hlen' : (c.drop (line.length + 1)).length < fuel := by
        have := List.length_pos_iff.mpr hc
        rw [List.length_drop]; omega
      have hih := ih (c.drop (line.length + 1)) hlen'
      have hrl : ∀ l, l ∈ ruleLines c ↔ (l = strip line ∧ (l ≠ [] ∧ l.head? ≠ some 35)) ∨ l ∈ ruleLines (c.drop (line.length + 1)) := by
        intro l
        have hnil : ruleLines [] = [] := by simp [ruleLines, pieces, strip]
        unfold ruleLines
        rw [hp]
        rcases hmore with ⟨rfl, hnil'⟩ | hm
        · rw [hnil']
          have hnil' : ((pieces (fun b => decide (b = 10) || decide (b = 0)) []).map strip).filter
            (fun l => decide (l ≠ [] ∧ l.head? ≠ some 35)) = [] := hnil
          rw [hnil']
          simp only [List.map_cons, List.map_nil, List.mem_filter, List.mem_singleton, decide_eq_true_eq, List.not_mem_nil, or_false]
        · rw [hm]
          simp only [List.map_cons, List.mem_filter, List.mem_cons, decide_eq_true_eq, or_and_right]
      have hpl : ∀ q, q ∈ pieces (fun b => b = 10 || b = 0) c → q = line ∨ q = [] ∨ q ∈ pieces (fun b => b = 10 || b = 0) (c.drop (line.length + 1)) := by
        intro q hq
        rw [hp] at hq
        rcases List.mem_cons.mp hq with h | h
        · exact .inl h
        · rcases hmore with ⟨rfl, _⟩ | hm
          · cases h
          · exact .inr (.inr (hm ▸ h))
      have hpl' : ∀ q, q ∈ pieces (fun b => b = 10 || b = 0) (c.drop (line.length + 1)) → q = [] ∨ q ∈ pieces (fun b => b = 10 || b = 0) c := by
        intro q hq
        rcases hmore with ⟨rfl, hn⟩ | hm
        · rw [hn] at hq; left; simpa [pieces] using hq
        · right; rw [hp, hm]; exact List.mem_cons_of_mem _ hq
      have hstrip : strstrip line = strip line := rfl
      rw [hstrip]
      by_cases hbig : line.length ≥ 65536
      · rw [if_pos hbig]
        refine ⟨fun h _ => ?_, fun _ => .inr rfl⟩
        have := h line (by rw [hp]; exact List.mem_cons_self ..)
        omega
      · rw [if_neg hbig, if_neg hc]
        by_cases hskip : strip line = [] ∨ (strip line).head? = some 35
        · rw [if_pos hskip]
          have hno : ∀ l, l ∈ ruleLines c ↔ l ∈ ruleLines (c.drop (line.length + 1)) := by
            intro l
            rw [hrl]
            constructor
            · rintro (⟨rfl, h1, h2⟩ | h)
              · rcases hskip with h | h
                · exact absurd h h1
                · exact absurd h h2
              · exact h
            · exact .inr
          constructor
          · intro h1 h2
            obtain ⟨rs, r1, r2, r3⟩ := hih.1 (fun q hq => by
              rcases hpl' q hq with rfl | h
              · simp
              · exact h1 q h) (fun l hl => h2 l ((hno l).mpr hl))
            exact ⟨rs, r1, r2, fun r => by rw [r3]; simp only [hno]⟩
          · intro h
            apply hih.2
            rcases h with ⟨q, hq, hl⟩ | ⟨l, hl, hn⟩
            · rcases hpl q hq with rfl | rfl | h
              · exact absurd hl hbig
              · simp at hl
              · exact .inl ⟨q, h, hl⟩
            · exact .inr ⟨l, (hno l).mp hl, hn⟩
        · rw [if_neg hskip]
          have hns : strip line ≠ [] ∧ (strip line).head? ≠ some 35 := ⟨fun h => hskip (.inl h), fun h => hskip (.inr h)⟩
          have hin : strip line ∈ ruleLines c := (hrl _).mpr (.inl ⟨rfl, hns⟩)
          cases hl : lineRule (strip line) with
          | none =>
            rw [line_err hl]
            exact ⟨fun _ h2 => absurd hl (h2 _ hin), fun _ => .inl rfl⟩
          | some r0 =>
            obtain ⟨m, hm, wm, hr⟩ := line_ok hl
            rw [hm]
            simp only
            constructor
            · intro h1 h2
              obtain ⟨rs, r1, r2, r3⟩ := hih.1 (fun q hq => by
                rcases hpl' q hq with rfl | h
                · simp
                · exact h1 q h) (fun l hl => h2 l ((hrl l).mpr (.inr hl)))
              refine ⟨m :: rs, by rw [r1], ⟨wm, r2⟩, fun r => ?_⟩
              rw [rulesOf_cons, hr, r3]
              constructor
              · rintro (rfl | ⟨l, hl', h⟩)
                · exact ⟨_, hin, hl⟩
                · exact ⟨l, (hrl l).mpr (.inr hl'), h⟩
              · rintro ⟨l, hl', h⟩
                rcases (hrl l).mp hl' with ⟨rfl, _⟩ | hl'
                · rw [hl] at h; injection h with h; exact .inl h.symm
                · exact .inr ⟨l, hl', h⟩
            · intro h
              have h' : newFromFile fuel (c.drop (line.length + 1)) = .err .EINVAL ∨ newFromFile fuel (c.drop (line.length + 1)) = .err .ENOBUFS := by
                apply hih.2
                rcases h with ⟨q, hq, hlq⟩ | ⟨l, hl', hn⟩
                · rcases hpl q hq with rfl | rfl | h
                  · exact absurd hlq hbig
                  · simp at hlq
                  · exact .inl ⟨q, h, hlq⟩
                · rcases (hrl l).mp hl' with ⟨rfl, _⟩ | hl'
                  · rw [hl] at hn; cases hn
                  · exact .inr ⟨l, hl', hn⟩
              rcases h' with h' | h' <;> rw [h'] <;> simp

/-- **C20** (an exclude file).  A file is accepted exactly if no line is too long and every line that is neither empty nor a comment has a
rule; then its rules are those of these lines. -/
theorem C20_file (c : Bytes) :
    ((∀ p ∈ pieces (fun b => b = 10 || b = 0) c, p.length < 65536) ∧ (∀ l ∈ ruleLines c, lineRule l ≠ none) →
      ∃ rs, newFromFile (c.length + 1) c = .ok rs ∧ WFL rs ∧ ∀ r, rulesOf rs r ↔ ∃ l ∈ ruleLines c, lineRule l = some r) ∧
    (¬ ((∀ p ∈ pieces (fun b => b = 10 || b = 0) c, p.length < 65536) ∧ (∀ l ∈ ruleLines c, lineRule l ≠ none)) →
      newFromFile (c.length + 1) c = .err .EINVAL ∨ newFromFile (c.length + 1) c = .err .ENOBUFS) := by
  have h := newFromFile_spec (c.length + 1) c (Nat.lt_succ_self _)
  refine ⟨fun hh => h.1 hh.1 hh.2, fun hn => h.2 ?_⟩
  by_cases h1 : ∀ p ∈ pieces (fun b => b = 10 || b = 0) c, p.length < 65536
  · right
    refine Classical.byContradiction fun hc => hn ⟨h1, fun l hl e => hc ⟨l, hl, e⟩⟩
  · left
    refine Classical.byContradiction fun hc => h1 fun p hp => ?_
    exact Nat.lt_of_not_le fun hle => hc ⟨p, hp, hle⟩

/-- **C20** (end to end).  With the contents of the exclude files of all directories (each of them well formed), the encoder leaves a path
out exactly if the rules written in the files say so. -/
theorem C20_exclude_files (hq : SortsBy qsort) (content : List Bytes → Bytes)
    (hok : ∀ d, (∀ p ∈ pieces (fun b => b = 10 || b = 0) (content d), p.length < 65536) ∧ (∀ l ∈ ruleLines (content d), lineRule l ≠ none))
    (path : List Bytes) (isDir : Bool) (hnames : ∀ n ∈ path, n ≠ [] ∧ n ≠ [46] ∧ n ≠ [46, 46]) :
    ∃ files : List Bytes → Rules, (∀ d, newFromFile ((content d).length + 1) (content d) = .ok (files d)) ∧
      ∃ b, walk qsort fnm files [] [] path isDir = .ok b ∧
        (b = true ↔ LeftOut fnm (fun dir r => ∃ l ∈ ruleLines (content dir), lineRule l = some r) path isDir) := by
  have hall := fun d => (C20_file (content d)).1 (hok d)
  refine ⟨fun d => (hall d).choose, fun d => (hall d).choose_spec.1, ?_⟩
  obtain ⟨b, hb, h⟩ := C20_walk (fnm := fnm) hq (fun d => (hall d).choose) (fun d => (hall d).choose_spec.2.1) path isDir hnames
  refine ⟨b, hb, ?_⟩
  rw [h]
  have : (fun dir => rulesOf (hall dir).choose) = (fun dir r => ∃ l ∈ ruleLines (content dir), lineRule l = some r) := by
    funext dir r
    exact propext ((hall dir).choose_spec.2.2 r)
  rw [this]

/-! ### Normalization -/

/-- **C20** (normalizing changes nothing).  With every rule set normalized first, exactly the same paths are left out. -/
theorem C20_normalize_same (hq : SortsBy qsort) (files : List Bytes → Rules) (wf : ∀ d, WFL (files d)) (path : List Bytes) (isDir : Bool)
    (hnames : ∀ n ∈ path, n ≠ [] ∧ n ≠ [46] ∧ n ≠ [46, 46]) :
    walk qsort fnm (fun d => normalize qsort (files d)) [] [] path isDir = walk qsort fnm files [] [] path isDir ∧
    (∀ d r, rulesOf (normalize qsort (files d)) r ↔ rulesOf (files d) r) := by
  have hr : ∀ d r, rulesOf (normalize qsort (files d)) r ↔ rulesOf (files d) r := by
    intro d r
    unfold rulesOf
    simp only [(normalize_facts hq (wf d)).2.2.2.2]
  refine ⟨?_, hr⟩
  obtain ⟨b, hb, h⟩ := C20_walk (fnm := fnm) hq files wf path isDir hnames
  obtain ⟨b', hb', h'⟩ := C20_walk (fnm := fnm) hq (fun d => normalize qsort (files d)) (fun d => (normalize_facts hq (wf d)).1) path isDir hnames
  have : (fun dir => rulesOf (normalize qsort (files dir))) = (fun dir => rulesOf (files dir)) := by
    funext d r; exact propext (hr d r)
  rw [this] at h'
  rw [hb, hb']
  have : b' = true ↔ b = true := h'.trans h.symm
  cases b <;> cases b' <;> simp_all

theorem newFromStrings_chains : ∀ (ls : List Bytes) (rs : Rules), newFromStrings ls = .ok rs →
    ∀ c, c ∈ chainsL rs ↔ ∃ l ∈ ls, ∃ m, parseLine l = .ok m ∧ c ∈ chains m := by
  intro ls
  induction ls with
  | nil => intro rs h; cases h; simp [chainsL]
  | cons l ls ih =>
    intro rs h
    rw [newFromStrings] at h
    cases hp : parseLine l with
    | err e => rw [hp] at h; cases h
    | ub => rw [hp] at h; cases h
    | ok m =>
      rw [hp] at h
      cases hn : newFromStrings ls with
      | err e => rw [hn] at h; cases h
      | ub => rw [hn] at h; cases h
      | ok ms =>
        rw [hn] at h
        cases h
        intro c
        rw [chainsL, List.mem_append, ih ms hn c]
        simp [hp]

/-- **C20** (order and repetition).  Two lists with the same rule lines, in any order and with any repetitions, are either both refused or
give, once normalized, the same rule set — whatever sorting algorithm is behind `qsort()`. -/
theorem C20_order_independent {qsort' : List Match → List Match} (hq : SortsBy qsort) (hq' : SortsBy qsort') (ls ls' : List Bytes)
    (same : ∀ l, l ∈ ls ↔ l ∈ ls') :
    (newFromStrings ls = .err .EINVAL ∧ newFromStrings ls' = .err .EINVAL) ∨
    ∃ rs rs', newFromStrings ls = .ok rs ∧ newFromStrings ls' = .ok rs' ∧ normalize qsort rs = normalize qsort' rs' := by
  by_cases hbad : ∃ l ∈ ls, lineRule l = none
  · left
    refine ⟨(C20_strings ls).2 hbad, (C20_strings ls').2 ?_⟩
    obtain ⟨l, hl, h⟩ := hbad
    exact ⟨l, (same l).mp hl, h⟩
  · right
    have hgood : ∀ l ∈ ls, lineRule l ≠ none := fun l hl h => hbad ⟨l, hl, h⟩
    obtain ⟨rs, h1, w1, _⟩ := (C20_strings ls).1 hgood
    obtain ⟨rs', h2, w2, _⟩ := (C20_strings ls').1 fun l hl => hgood l ((same l).mpr hl)
    refine ⟨rs, rs', h1, h2, ?_⟩
    obtain ⟨a1, a2, a3, a4, a5⟩ := normalize_facts hq w1
    obtain ⟨b1, b2, b3, b4, b5⟩ := normalize_facts hq' w2
    refine nf_unique (max (depthL rs) (depthL rs')) _ _ (by omega) (by omega)
      (fun x hx => ⟨(WFL_iff _).mp a1 x hx, (NFL_iff _).mp a2 x hx⟩) (fun x hx => ⟨(WFL_iff _).mp b1 x hx, (NFL_iff _).mp b2 x hx⟩) a3 b3 ?_
    intro c
    rw [a5, b5, newFromStrings_chains ls rs h1, newFromStrings_chains ls' rs' h2]
    simp only [same]

/-- **C20** (normalizing twice is normalizing once). -/
theorem C20_idempotent (hq : SortsBy qsort) {rs : Rules} (w : WFL rs) :
    normalize qsort (normalize qsort rs) = normalize qsort rs := by
  obtain ⟨a1, a2, a3, a4, a5⟩ := normalize_facts hq w
  obtain ⟨b1, b2, b3, b4, b5⟩ := normalize_facts hq a1
  exact nf_unique (depthL rs) _ _ (by omega) (by omega)
    (fun x hx => ⟨(WFL_iff _).mp b1 x hx, (NFL_iff _).mp b2 x hx⟩) (fun x hx => ⟨(WFL_iff _).mp a1 x hx, (NFL_iff _).mp a2 x hx⟩) b3 a3 b5

/-- **C20** (exceptions win).  A name some negative rule applies to is kept, whatever the positive rules say. -/
theorem C20_negative_wins (hq : SortsBy qsort) {rs : Rules} (w : WFL rs) (n : Bytes) (d : Bool) (hn : n ≠ [] ∧ n ≠ [46] ∧ n ≠ [46, 46])
    (r : Rule) (hr : rulesOf rs r) (hneg : r.negative = true) (ha : Applies fnm r [n] d) :
    ∃ sub, test qsort fnm rs n d = .ok (false, sub) := by
  obtain ⟨ans, sub, ht, _, hans, _⟩ := C20_test (fnm := fnm) hq w n d hn
  cases ans with
  | false => exact ⟨sub, ht⟩
  | true => exact absurd ⟨r, hr, hneg, ha⟩ (hans.mp rfl).2

/-! ### The hypotheses are met -/

/-- A sort as `qsort()` is assumed to be exists. -/
theorem sorts_exists : SortsBy (fun l => l.mergeSort fun a b => decide (cmp a b ≠ .gt)) := by
  intro l
  refine ⟨List.mergeSort_perm _ _, ?_⟩
  have := List.pairwise_mergeSort (le := fun a b => decide (cmp a b ≠ .gt)) (by
    intro a b c h1 h2
    simp only [decide_eq_true_eq] at *
    exact matchOrd.le_trans h1 h2) (by
    intro a b
    have := matchOrd.swap a b
    cases h : cmp a b <;> simp_all [Ordering.swap]) l
  exact this.imp fun h => by simpa using h

/-- "*.o" and "!/keep/x/" as rules. -/
example : lineRule [42, 46, 111] = some ⟨false, false, [⟨[42, 46, 111], false⟩]⟩ := by decide
example : lineRule [33, 47, 107, 47, 120, 47] = some ⟨true, true, [⟨[107], true⟩, ⟨[120], true⟩]⟩ := by decide
example : lineRule [97, 47, 46, 46] = none := by decide
/-- The rules "a/b", "!b" and "a/c" twice, in two orders. -/
example : ∃ rs, newFromStrings [[97, 47, 98], [33, 98], [97, 47, 99]] = .ok rs ∧ rs.length = 3 := ⟨_, rfl, rfl⟩

end Casync.Match
