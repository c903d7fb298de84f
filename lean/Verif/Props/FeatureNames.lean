import Verif.Spec.FeatureNames
import Verif.Props.Flags
/-!
C56: features by name.
-/
namespace Casync.FeatureNames
open Casync Flags FeatureNamesSpec

theorem words_ne (b : Bytes) : words b ≠ [] := by
  cases b with
  | nil => simp [words]
  | cons a r =>
    rw [words]
    split
    · simp
    · split <;> simp

theorem words_one {b : Bytes} (h : 32 ∉ b) : words b = [b] := by
  induction b with
  | nil => rfl
  | cons x r ih =>
    have h1 : x ≠ 32 := fun h' => h (by rw [h']; exact List.mem_cons_self ..)
    have h2 : 32 ∉ r := fun h' => h (List.mem_cons_of_mem _ h')
    rw [words, if_neg h1, ih h2]

theorem words_append {a : Bytes} {b : Bytes} (ha : 32 ∉ b) : words (a ++ [32] ++ b) = words a ++ [b] := by
  induction a with
  | nil =>
    show words (32 :: b) = [[]] ++ [b]
    unfold words
    rw [if_pos rfl, words_one ha]
    rfl
  | cons x r ih =>
    rw [List.cons_append, List.cons_append, words, words]
    split
    · rw [ih, List.cons_append]
    · rw [ih]
      cases h : words r with
      | nil => exact absurd h (words_ne r)
      | cons w ws => rfl

/-- All that the named sets have together. -/
def union (us : List Word) : Word := us.foldr (· ||| ·) 0#64

/-- The words of a text that may be missing. -/
def wordsOf : Option Bytes → List Bytes
  | none => []
  | some s => words s

theorem loop_left (map : List (Bytes × Word)) : ∀ (fs : Word) (s : Option Bytes) (i : Nat), (∃ x ∈ map, x.2 = BitVec.twoPow 64 i) → i < 64 →
    (formatLoop map fs s).2.getLsbD i = false := by
  induction map with
  | nil => rintro _ _ _ ⟨x, hx, _⟩; cases hx
  | cons x r ih =>
    obtain ⟨name, f⟩ := x
    intro fs s i hx hi
    rw [formatLoop]
    by_cases h0 : fs = 0#64
    · rw [if_pos h0, h0]; simp
    rw [if_neg h0]
    have hsub : ∀ (m : List (Bytes × Word)) (fs : Word) (s : Option Bytes), fs.getLsbD i = false → (formatLoop m fs s).2.getLsbD i = false := by
      intro m
      induction m with
      | nil => intro fs s h; exact h
      | cons y r' ih' =>
        obtain ⟨n', f'⟩ := y
        intro fs s h
        rw [formatLoop]
        split
        · exact h
        split
        · exact ih' _ _ h
        · exact ih' _ _ (by rw [BitVec.getLsbD_and, h]; rfl)
    obtain ⟨y, hy, hy2⟩ := hx
    rcases List.mem_cons.1 hy with rfl | hy
    · simp only at hy2
      subst hy2
      by_cases h1 : fs &&& BitVec.twoPow 64 i ≠ BitVec.twoPow 64 i
      · rw [if_pos h1]
        refine hsub _ _ _ ?_
        cases hb : fs.getLsbD i with
        | false => rfl
        | true =>
          exfalso
          refine h1 (BitVec.eq_of_getLsbD_eq ?_)
          intro j hj
          rw [BitVec.getLsbD_and, BitVec.getLsbD_twoPow]
          by_cases hij : i = j
          · subst hij; rw [hb]; simp
          · simp [hij]
      · rw [if_neg h1]
        refine hsub _ _ _ ?_
        rw [BitVec.getLsbD_and, BitVec.getLsbD_not, BitVec.getLsbD_twoPow]
        simp [hi]
    · split
      · exact ih _ _ _ ⟨y, hy, hy2⟩ hi
      · exact ih _ _ _ ⟨y, hy, hy2⟩ hi

theorem union_cons (u : Word) (us : List Word) : union (u :: us) = u ||| union us := rfl

theorem union_snoc (us : List Word) (u : Word) : union (us ++ [u]) = union us ||| u := by
  induction us with
  | nil => rw [List.nil_append]; unfold union; simp
  | cons v r ih => rw [List.cons_append, union_cons, union_cons, ih, BitVec.or_assoc]

/-- Each word of the text is the name of a set of features, and these are all together what has been taken away. -/
structure Told (all : List (Bytes × Word)) (start fs : Word) (s : Option Bytes) : Prop where
  names : ∃ us : List (Bytes × Word), us.map Prod.fst = wordsOf s ∧ (∀ x ∈ us, x ∈ all) ∧ union (us.map Prod.snd) ||| fs = start
  some_ : s = none → fs = start

theorem loop_told {all : List (Bytes × Word)} {start : Word} (hb : ∀ x ∈ all, 32 ∉ x.1) : ∀ (map : List (Bytes × Word)) (fs : Word) (s : Option Bytes), (∀ x ∈ map, x ∈ all) →
    Told all start fs s → Told all start (formatLoop map fs s).2 (formatLoop map fs s).1
  | [], fs, s, _, h => h
  | (name, f) :: r, fs, s, hm, h => by
    rw [formatLoop]
    have hr : ∀ x ∈ r, x ∈ all := fun x hx => hm x (List.mem_cons_of_mem _ hx)
    have hin := hm (name, f) (List.mem_cons_self ..)
    split
    · exact h
    by_cases h1 : fs &&& f ≠ f
    · rw [if_pos h1]; exact loop_told hb r _ _ hr h
    rw [if_neg h1]
    have h1 : fs &&& f = f := Decidable.not_not.1 h1
    refine loop_told hb r _ _ hr ⟨?_, fun h => by cases h⟩
    obtain ⟨us, e1, e2, e3⟩ := h.names
    refine ⟨us ++ [(name, f)], ?_, ?_, ?_⟩
    · rw [List.map_append, e1]
      cases s with
      | none => exact (words_one (hb _ hin)).symm
      | some t => exact (words_append (hb _ hin)).symm
    · intro x hx
      rcases List.mem_append.1 hx with hx | hx
      · exact e2 x hx
      · rw [List.mem_singleton.1 hx]; exact hin
    · rw [List.map_append, List.map_cons, List.map_nil, union_snoc, ← e3]
      apply BitVec.eq_of_getLsbD_eq
      intro i hi
      have hbit : f.getLsbD i = (fs.getLsbD i && f.getLsbD i) := by
        have := congrArg (fun w : Word => w.getLsbD i) h1
        simp only [BitVec.getLsbD_and] at this
        exact this.symm
      simp only [BitVec.getLsbD_or, BitVec.getLsbD_and, BitVec.getLsbD_not, hi, decide_true, Bool.true_and]
      revert hbit
      cases f.getLsbD i <;> cases fs.getLsbD i <;> cases (union (us.map Prod.snd)).getLsbD i <;> simp

theorem map_blanks : ∀ x ∈ featureMap, 32 ∉ x.1 := by decide +kernel

theorem map_names : (featureMap.map Prod.fst).Nodup := by decide +kernel

theorem map_bits : ∀ i : Fin 33, ∃ x ∈ featureMap, x.2 = BitVec.twoPow 64 i.1 := by decide +kernel

theorem map_nonzero : ∀ x ∈ featureMap, x.2 ≠ 0#64 := by decide +kernel

theorem map_known : ∀ x ∈ featureMap, x.2 &&& ~~~withMask = 0#64 := by decide +kernel

theorem parseOne_mem : ∀ {map : List (Bytes × Word)}, (map.map Prod.fst).Nodup → ∀ x ∈ map, parseOne map x.1 = .ok x.2
  | y :: r, hn, x, hx => by
    rw [List.map_cons, List.nodup_cons] at hn
    unfold parseOne
    rw [List.find?_cons]
    rcases List.mem_cons.1 hx with rfl | hx
    · simp
    · have : (y.1 == x.1) = false := by
        rw [beq_eq_false_iff_ne]
        intro h
        exact hn.1 (by rw [h]; exact List.mem_map.2 ⟨x, hx, rfl⟩)
      rw [this]
      exact parseOne_mem hn.2 x hx

theorem parseOne_ok {map : List (Bytes × Word)} {n : Bytes} {u : Word} (h : parseOne map n = .ok u) : (n, u) ∈ map := by
  unfold parseOne at h
  split at h
  · rename_i x hx
    injection h with h
    subst h
    have h1 := List.find?_some hx
    have h2 := List.mem_of_find?_eq_some hx
    rw [beq_iff_eq] at h1
    rw [← h1]
    exact h2
  · cases h

theorem mask_bit (i : Nat) (hi : i < 64) : withMask.getLsbD i = decide (i < 33) := by
  have : ∀ j : Fin 64, withMask.getLsbD j.1 = decide (j.1 < 33) := by decide +kernel
  exact this ⟨i, hi⟩

/-- C56: the names printed for a word of known feature flags are names the options understand, and together they stand for exactly the features of
the word; nothing is printed only if there are none. -/
theorem C56_printed_names_parse (f : Word) (hf : f &&& ~~~flagsMax = 0#64) :
    ∃ s, format f = .ok s ∧ (s = none ↔ f &&& withMask = 0#64) ∧
      ∃ us, (wordsOf s).map (parseOne featureMap) = us.map Res.ok ∧ union us = f &&& withMask := by
  have htold : Told featureMap (f &&& withMask) (formatLoop featureMap (f &&& withMask) none).2 (formatLoop featureMap (f &&& withMask) none).1 :=
    loop_told map_blanks featureMap _ _ (fun _ h => h) ⟨⟨[], rfl, by simp, by unfold union; simp⟩, fun _ => rfl⟩
  have hzero : (formatLoop featureMap (f &&& withMask) none).2 = 0#64 := by
    apply BitVec.eq_of_getLsbD_eq
    intro i hi
    rw [BitVec.getLsbD_zero]
    by_cases h33 : i < 33
    · exact loop_left _ _ _ _ (map_bits ⟨i, h33⟩) hi
    · obtain ⟨us, _, _, e3⟩ := htold.names
      have := congrArg (fun w : Word => w.getLsbD i) e3
      simp only [BitVec.getLsbD_or, BitVec.getLsbD_and] at this
      rw [mask_bit i hi, decide_eq_false h33, Bool.and_false, Bool.or_eq_false_iff] at this
      exact this.2
  obtain ⟨us, e1, e2, e3⟩ := htold.names
  rw [hzero] at e3
  refine ⟨(formatLoop featureMap (f &&& withMask) none).1, ?_, ?_, us.map Prod.snd, ?_, ?_⟩
  · unfold format
    rw [if_neg (fun h => h hf)]
    simp only
    rw [if_pos hzero]
  · constructor
    · intro h
      rw [← htold.some_ h, hzero]
    · intro h
      rw [h]
      unfold featureMap formatLoop
      rfl
  · rw [← e1, List.map_map, List.map_map]
    exact List.map_congr_left (fun x hx => parseOne_mem map_names x (e2 x hx))
  · rw [← e3]; simp

/-- C56: a word with unknown flags is refused. -/
theorem C56_unknown_refused (f : Word) (hf : f &&& ~~~flagsMax ≠ 0#64) : format f = .err .EINVAL := by
  unfold format
  rw [if_pos hf]

theorem parseArgs_spec : ∀ (opts : List Option_) (a b : Args), parseArgs opts a = .ok b → ∀ i,
    (b.with_.getLsbD i = true ↔ a.with_.getLsbD i = true ∨ ∃ n, .with_ n ∈ opts ∧ Stands n i) ∧
    (b.without.getLsbD i = true ↔ a.without.getLsbD i = true ∨ ∃ n, .without n ∈ opts ∧ Stands n i) ∧
    ((∃ n, .with_ n ∈ opts) ∨ a.with_ ≠ 0#64 ↔ b.with_ ≠ 0#64)
  | [], a, b, h, i => by
    injection h with h
    subst h
    simp
  | .with_ n :: r, a, b, h, i => by
    rw [parseArgs] at h
    cases hp : parseOne featureMap n with
    | err e => rw [hp] at h; cases h
    | ub => rw [hp] at h; cases h
    | ok u =>
      rw [hp] at h
      simp only at h
      obtain ⟨h1, h2, h3⟩ := parseArgs_spec r _ b h i
      have hu : u ≠ 0#64 := map_nonzero _ (parseOne_ok hp)
      refine ⟨?_, ?_, ?_⟩
      · rw [h1]
        simp only [BitVec.getLsbD_or, Bool.or_eq_true, List.mem_cons, Option_.with_.injEq]
        constructor
        · rintro ((h | h) | ⟨m, hm, hs⟩)
          · exact .inl h
          · exact .inr ⟨n, .inl rfl, u, hp, h⟩
          · exact .inr ⟨m, .inr hm, hs⟩
        · rintro (h | ⟨m, rfl | hm, hs⟩)
          · exact .inl (.inl h)
          · obtain ⟨w, hw, hs⟩ := hs
            rw [hp] at hw
            injection hw with hw
            subst hw
            exact .inl (.inr hs)
          · exact .inr ⟨m, hm, hs⟩
      · rw [h2]
        simp
      · rw [← h3]
        constructor
        · intro _
          right
          intro h0
          exact hu (BitVec.eq_of_getLsbD_eq (fun j _ => by
            have := congrArg (fun w : Word => w.getLsbD j) h0
            simp only [BitVec.getLsbD_or, BitVec.getLsbD_zero, Bool.or_eq_false_iff] at this
            rw [this.2, BitVec.getLsbD_zero]))
        · intro _
          exact .inl ⟨n, List.mem_cons_self ..⟩
  | .without n :: r, a, b, h, i => by
    rw [parseArgs] at h
    cases hp : parseOne featureMap n with
    | err e => rw [hp] at h; cases h
    | ub => rw [hp] at h; cases h
    | ok u =>
      rw [hp] at h
      simp only at h
      obtain ⟨h1, h2, h3⟩ := parseArgs_spec r _ b h i
      refine ⟨?_, ?_, ?_⟩
      · rw [h1]
        simp
      · rw [h2]
        simp only [BitVec.getLsbD_or, Bool.or_eq_true, List.mem_cons, Option_.without.injEq]
        constructor
        · rintro ((h | h) | ⟨m, hm, hs⟩)
          · exact .inl h
          · exact .inr ⟨n, .inl rfl, u, hp, h⟩
          · exact .inr ⟨m, .inr hm, hs⟩
        · rintro (h | ⟨m, rfl | hm, hs⟩)
          · exact .inl (.inl h)
          · obtain ⟨w, hw, hs⟩ := hs
            rw [hp] at hw
            injection hw with hw
            subst hw
            exact .inl (.inr hs)
          · exact .inr ⟨m, hm, hs⟩
      · rw [← h3]
        simp

/-- C56: `--with=` and `--without=` options select exactly the features that are named by a `--with=` (or are in the default if there is none) and by no
`--without=`, in whatever order and however often they are given. -/
theorem C56_selection (opts : List Option_) (dflt : Word) (a : Args) (h : parseArgs opts {} = .ok a) (i : Nat) (hi : i < 64) :
    (combined a dflt).getLsbD i = true ↔ Wanted opts dflt i := by
  obtain ⟨h1, h2, h3⟩ := parseArgs_spec opts {} a h i
  simp only [BitVec.getLsbD_zero, Bool.false_eq_true, false_or, ne_eq, not_true_eq_false, or_false] at h1 h2 h3
  unfold combined Wanted
  rw [BitVec.getLsbD_and, Bool.and_eq_true, BitVec.getLsbD_not, decide_eq_true hi, Bool.true_and, Bool.not_eq_true']
  have hwo : a.without.getLsbD i = false ↔ ∀ n, .without n ∈ opts → ¬ Stands n i := by
    rw [← Bool.not_eq_true, h2]
    constructor
    · intro hn n hm hs; exact hn ⟨n, hm, hs⟩
    · rintro hn ⟨n, hm, hs⟩; exact hn n hm hs
  rw [hwo]
  refine and_congr ?_ Iff.rfl
  by_cases h0 : a.with_ = 0#64
  · rw [if_pos h0]
    have hno : ∀ n, .with_ n ∉ opts := fun n hm => (h3.1 ⟨n, hm⟩) h0
    constructor
    · exact fun hd => .inr ⟨hno, hd⟩
    · rintro (⟨n, hm, _⟩ | ⟨_, hd⟩)
      · exact absurd hm (hno n)
      · exact hd
  · rw [if_neg h0, h1]
    constructor
    · exact .inl
    · rintro (hd | ⟨hno, _⟩)
      · exact hd
      · obtain ⟨n, hm⟩ := h3.2 h0
        exact absurd hm (hno n)

/-- C56: the options are refused exactly if one has a name that stands for nothing. -/
theorem C56_options_refused : ∀ (opts : List Option_) (a : Args),
    ((∃ b, parseArgs opts a = .ok b) ↔ ∀ n, (.with_ n ∈ opts ∨ .without n ∈ opts) → ∃ u, parseOne featureMap n = .ok u) ∧
    ∀ e, parseArgs opts a = .err e → e = .ENXIO
  | [], a => by
    refine ⟨⟨?_, fun _ => ⟨a, rfl⟩⟩, ?_⟩
    · rintro _ n (h | h) <;> cases h
    · intro e h; cases h
  | o :: r, a => by
    have key : ∀ (n : Bytes) (f : Word → Args), (∀ m, (.with_ m ∈ o :: r ∨ .without m ∈ o :: r) ↔ m = n ∨ (.with_ m ∈ r ∨ .without m ∈ r)) →
        parseArgs (o :: r) a = (match parseOne featureMap n with | .ok u => parseArgs r (f u) | .err e => .err e | .ub => .ub) →
        ((∃ b, parseArgs (o :: r) a = .ok b) ↔ ∀ n, (.with_ n ∈ o :: r ∨ .without n ∈ o :: r) → ∃ u, parseOne featureMap n = .ok u) ∧
        ∀ e, parseArgs (o :: r) a = .err e → e = .ENXIO := by
      intro n f hm he
      rw [he]
      simp only [hm]
      cases hp : parseOne featureMap n with
      | ok u =>
        simp only
        obtain ⟨h1, h2⟩ := C56_options_refused r (f u)
        refine ⟨?_, h2⟩
        rw [h1]
        constructor
        · rintro h m (rfl | hm')
          · exact ⟨u, hp⟩
          · exact h m hm'
        · exact fun h m hm' => h m (.inr hm')
      | err e =>
        have : e = .ENXIO := by
          unfold parseOne at hp
          split at hp
          · cases hp
          · injection hp with hp; exact hp.symm
        refine ⟨⟨?_, ?_⟩, ?_⟩
        · rintro ⟨b, h⟩; cases h
        · intro h
          obtain ⟨u, h⟩ := h n (.inl rfl)
          rw [hp] at h
          cases h
        · intro e' h
          injection h with h
          rw [← h, this]
      | ub =>
        unfold parseOne at hp
        split at hp <;> cases hp
    cases o with
    | with_ n => exact key n (fun u => { a with with_ := a.with_ ||| u }) (by intro m; simp [or_assoc]) (by rw [parseArgs.eq_def]; simp only; cases parseOne featureMap n <;> rfl)
    | without n => exact key n (fun u => { a with without := a.without ||| u }) (by intro m; simp [or_left_comm]) (by rw [parseArgs.eq_def]; simp only; cases parseOne featureMap n <;> rfl)

/-- C56: what the tool asks for with any accepted options is a word of known flags, so it is never refused later for unknown ones (`C17_succeeds_iff`). -/
theorem C56_asks_for_known (opts : List Option_) (dflt : Word) (a : Args) (h : parseArgs opts {} = .ok a) (hd : dflt &&& ~~~withMask = 0#64) (b1 b2 b3 b4 : Bool) :
    ∃ g, normalize (load a dflt b1 b2 b3 b4) = .ok g := by
  rw [C17_succeeds_iff]
  have hbit : ∀ (w : Word) (j : Nat), w &&& ~~~withMask = 0#64 → w.getLsbD j = true → j < 33 := by
    intro w j hw hj
    have hj64 : j < 64 := by
      apply Decidable.byContradiction
      intro hn
      rw [BitVec.getLsbD_of_ge _ _ (by omega)] at hj
      cases hj
    have := congrArg (fun w : Word => w.getLsbD j) hw
    simp only [BitVec.getLsbD_and, BitVec.getLsbD_not, hj64, decide_true, Bool.true_and, hj, BitVec.getLsbD_zero, mask_bit j hj64] at this
    simpa using this
  have hc : ∀ j, (combined a dflt).getLsbD j = true → j < 33 := by
    intro j hj
    have hj64 : j < 64 := by
      apply Decidable.byContradiction
      intro hn
      rw [BitVec.getLsbD_of_ge _ _ (by omega)] at hj
      cases hj
    rcases ((C56_selection opts dflt a h j hj64).1 hj).1 with ⟨n, _, u, hu, hs⟩ | ⟨_, hs⟩
    · exact hbit u j (map_known _ (parseOne_ok hu)) hs
    · exact hbit dflt j hd hs
  intro j hj
  have hj64 : j < 64 := by
    apply Decidable.byContradiction
    intro hn
    rw [BitVec.getLsbD_of_ge _ _ (by omega)] at hj
    cases hj
  have hex : ∀ k : Fin 64, (excludeNodump.getLsbD k.1 = true ∨ excludeSubmounts.getLsbD k.1 = true ∨ excludeFile.getLsbD k.1 = true ∨ sha512_256.getLsbD k.1 = true) → 60 ≤ k.1 := by
    decide +kernel
  have hex := hex ⟨j, hj64⟩
  unfold load at hj
  simp only at hj hex
  have := hc j
  by_cases h60 : 60 ≤ j
  · right; omega
  · left
    apply this
    have hno : ∀ w : Word, (w = excludeNodump ∨ w = excludeSubmounts ∨ w = excludeFile ∨ w = sha512_256) → w.getLsbD j = false := by
      rintro w (rfl | rfl | rfl | rfl)
      · cases hh : excludeNodump.getLsbD j with
        | false => rfl
        | true => exact absurd (hex (.inl hh)) h60
      · cases hh : excludeSubmounts.getLsbD j with
        | false => rfl
        | true => exact absurd (hex (.inr (.inl hh))) h60
      · cases hh : excludeFile.getLsbD j with
        | false => rfl
        | true => exact absurd (hex (.inr (.inr (.inl hh)))) h60
      · cases hh : sha512_256.getLsbD j with
        | false => rfl
        | true => exact absurd (hex (.inr (.inr (.inr hh)))) h60
    have n1 := hno excludeNodump (.inl rfl)
    have n2 := hno excludeSubmounts (.inr (.inl rfl))
    have n3 := hno excludeFile (.inr (.inr (.inl rfl)))
    have n4 := hno sha512_256 (.inr (.inr (.inr rfl)))
    clear hno hex
    generalize combined a dflt = w at *
    revert hj
    cases b1 <;> cases b2 <;> cases b3 <;> cases b4 <;> simp only [if_true, if_false, Bool.false_eq_true, BitVec.getLsbD_or, n1, n2, n3, n4, Bool.or_false] <;> exact id

/-- `--with=unix --without=fifos` and the names that are printed for it. -/
example : parseArgs [.with_ [117, 110, 105, 120], .without [102, 105, 102, 111, 115]] {} = .ok ⟨withUnix, withFifos⟩ ∧
    format (combined ⟨withUnix, withFifos⟩ withMask) = .ok (some ([49, 54, 98, 105, 116, 45, 117, 105, 100, 115, 32] ++ [115, 101, 99, 45, 116, 105, 109, 101, 32] ++
      [112, 101, 114, 109, 105, 115, 115, 105, 111, 110, 115, 32] ++ [115, 121, 109, 108, 105, 110, 107, 115, 32] ++ [100, 101, 118, 105, 99, 101, 45, 110, 111, 100, 101, 115, 32] ++
      [115, 111, 99, 107, 101, 116, 115])) := by decide +kernel

end Casync.FeatureNames
