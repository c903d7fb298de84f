import Verif.Spec.DeleteNames
import Verif.Props.Delete
import Verif.Props.Archive
/-!
**C28**: the names the deletion pass goes by are those the archive lists.
-/
namespace Casync.Delete
open Casync Archive Flags

theorem children_snoc (P : List Bytes) (H : List (List Bytes)) (Q : List Bytes) :
    children P (H ++ [Q]) = (if Q = P then [] else match Q.getLast? with
    | none => children P H
    | some n => if Q.dropLast = P then children P H ++ [n] else children P H) := by
  unfold children
  rw [List.foldl_append]
  rfl

theorem children_self (P : List Bytes) (H) : children P (H ++ [P]) = [] := by
  rw [children_snoc, if_pos rfl]

theorem children_child (P : List Bytes) (n : Bytes) (H) : children P (H ++ [P ++ [n]]) = children P H ++ [n] := by
  rw [children_snoc, if_neg (by intro h; have := congrArg List.length h; simp at this)]
  simp

theorem children_far (P Q : List Bytes) (H) (h : P.length + 1 < Q.length) : children P (H ++ [Q]) = children P H := by
  rw [children_snoc, if_neg (by rintro rfl; omega)]
  split
  · rfl
  · rw [if_neg (by
      intro h2
      have := congrArg List.length h2
      rw [List.length_dropLast] at this
      omega)]

/-- The path of the first of the nodes. -/
def pathOf (l : List DNode) : List Bytes := l.reverse.filterMap (·.name)

/-- The nodes above the root have names. -/
def Named : List DNode → Prop
  | [] => False
  | [n] => n.name = none
  | n :: m :: rest => n.name.isSome ∧ Named (m :: rest)

def Settled (H : List (List Bytes)) : List DNode → Prop
  | [] => True
  | n :: rest => n.dirents = children (pathOf (n :: rest)) H ∧ Settled H rest

theorem pathOf_cons (n : DNode) (l : List DNode) (x : Bytes) (h : n.name = some x) : pathOf (n :: l) = pathOf l ++ [x] := by
  simp [pathOf, h]

theorem Named.length : ∀ {l : List DNode}, Named l → (pathOf l).length + 1 = l.length
  | [], h => h.elim
  | [n], h => by simp [pathOf, show n.name = none from h]
  | n :: m :: rest, h => by
    obtain ⟨h1, h2⟩ := h
    obtain ⟨x, hx⟩ := Option.isSome_iff_exists.1 h1
    rw [pathOf_cons n _ x hx]
    have := Named.length h2
    simp only [List.length_append, List.length_cons, List.length_nil] at this ⊢
    omega

theorem Settled.far {H : List (List Bytes)} {Q : List Bytes} : ∀ {l : List DNode}, Settled H l → (l ≠ [] → Named l) → l.length < Q.length →
    Settled (H ++ [Q]) l
  | [], _, _, _ => trivial
  | n :: rest, ⟨h1, h2⟩, hn, hl => by
    have hn' := hn (by simp)
    have := hn'.length
    refine ⟨?_, h2.far ?_ ?_⟩
    · rw [children_far _ _ _ (by omega)]; exact h1
    · intro hr
      cases rest with
      | nil => exact absurd rfl hr
      | cons m r => exact hn'.2
    · simp only [List.length_cons] at hl; omega

/-- Where the names stand. -/
def NInv (d : Dec) (H : List (List Bytes)) : Prop :=
  d.cfg.delete = true ∧ Named d.nodes ∧
  match d.state with
  | .init => ∃ n, d.nodes = [n] ∧ n.dirents = [] ∧ H = []
  | .entered => ∃ c m rest x, d.nodes = c :: m :: rest ∧ c.name = some x ∧ c.dirents = [] ∧
      m.dirents = children (pathOf (m :: rest)) H ++ [x] ∧ Settled H rest
  | _ => Settled H d.nodes

/-- What one step may do to them. -/
def NStep (H : List (List Bytes)) (x : Dec × Res Ev) : Prop :=
  ∀ ev, x.2 = .ok ev → NInv x.1 (if ev = .nextFile then H ++ [currentPath x.1] else H)

theorem NInv.settled {d : Dec} {H} (hd : d.cfg.delete = true) (hn : Named d.nodes) (hs : Settled H d.nodes) (h1 : d.state ≠ .init) (h2 : d.state ≠ .entered) :
    NInv d H := by
  refine ⟨hd, hn, ?_⟩
  split
  · rename_i h; exact absurd h h1
  · rename_i h; exact absurd h h2
  · exact hs

theorem NInv.init {d : Dec} {H} (h : NInv d H) (hi : d.state = .init) : ∃ n, d.nodes = [n] ∧ n.dirents = [] ∧ H = [] := by
  have := h.2.2; rw [hi] at this; exact this

theorem stepFinalize_names {d : Dec} {H} (hd : d.cfg.delete = true) (hn : Named d.nodes) (hs : Settled H d.nodes) : NStep H (stepFinalize d) := by
  intro ev he
  unfold stepFinalize at he ⊢
  split at he
  · cases he
  rename_i n rest hnodes
  by_cases cb : rest.length ≤ d.cfg.boundary
  · rw [if_pos cb] at he ⊢
    cases he
    simp only [enterState]
    rw [if_neg (by simp)]
    exact NInv.settled hd hn hs (by simp) (by simp)
  · rw [if_neg cb] at he ⊢
    cases he
    simp only [enterState]
    rw [if_neg (by simp)]
    rw [hnodes] at hn hs
    cases rest with
    | nil => exact (cb (Nat.zero_le _)).elim
    | cons m r => exact NInv.settled hd hn.2 hs.2 (by simp) (by simp)

theorem stepPayload_names {d : Dec} {H} (hd : d.cfg.delete = true) (hn : Named d.nodes) (hs : Settled H d.nodes) (hst : d.state = .inPayload) :
    NStep H (stepPayload d) := by
  have hfin := stepFinalize_names (d := enterState d .finalize) hd hn hs
  have same : ∀ (d' : Dec) (ev : Ev), d'.cfg = d.cfg → d'.nodes = d.nodes → d'.state ≠ .init → d'.state ≠ .entered → ev ≠ .nextFile →
      NStep H (d', .ok ev) := by
    intro d' ev h1 h2 h3 h4 h5 ev' he
    cases he
    rw [if_neg h5]
    exact NInv.settled (by rw [h1]; exact hd) (by rw [h2]; exact hn) (by rw [h2]; exact hs) h3 h4
  have err : ∀ e, NStep H (d, .err e) := fun e ev he => by cases he
  unfold stepPayload
  split
  · exact err _
  split
  · exact err _
  split
  · intro ev he; cases he
  split
  · intro ev he; cases he
  split
  · exact same _ _ rfl rfl (by simp [enterState]) (by simp [enterState]) (by simp)
  split
  · split
    · exact same _ _ rfl rfl (by simp [setStep, hst]) (by simp [setStep, hst]) (by simp)
    · exact same _ _ rfl rfl (by simp [setStep, hst]) (by simp [setStep, hst]) (by simp)
  split
  · split
    · exact err _
    split
    · exact err _
    split
    · exact hfin
    · exact same _ _ rfl rfl (by simp [enterState]) (by simp [enterState]) (by simp)
  split
  · split
    · exact same _ _ rfl rfl (by simp [enterState]) (by simp [enterState]) (by simp)
    · exact same _ _ rfl rfl (by simp [hst]) (by simp [hst]) (by simp)
  · exact same _ _ rfl rfl (by simp [hst]) (by simp [hst]) (by simp)

theorem stepDirectory_names {d : Dec} {H} (hd : d.cfg.delete = true) (hn : Named d.nodes) (hs : Settled H d.nodes) (hst : d.state = .inDirectory) :
    NStep H (stepDirectory d) := by
  have err : ∀ e, NStep H (d, .err e) := fun e ev he => by cases he
  unfold stepDirectory
  split
  · exact err _
  rename_i n rest hnodes
  split
  · exact err _
  split
  · intro ev he; cases he
  split
  · intro ev he
    cases he
    rw [if_neg (by simp)]
    exact NInv.settled hd hn hs (by rw [hst]; simp) (by rw [hst]; simp)
  · exact err _
  · rename_i name l hrec
    simp only
    by_cases hl : d.nodes.length ≥ nodesMax
    · rw [if_pos hl]; exact err _
    · rw [if_neg hl]
      intro ev he
      cases he
      rw [if_neg (by simp)]
      rw [hnodes] at hn hs
      have hn' : Named ({ n with dirents := n.dirents ++ [name] } :: rest) := by
        cases rest with
        | nil => exact hn
        | cons m r => exact hn
      have hpath : pathOf ({ n with dirents := n.dirents ++ [name] } :: rest) = pathOf (n :: rest) := by
        simp only [pathOf, List.reverse_cons, List.filterMap_append, List.filterMap_cons, List.filterMap_nil]
      refine ⟨hd, ⟨rfl, hn'⟩, ?_⟩
      refine ⟨_, _, rest, name, rfl, rfl, rfl, ?_, hs.2⟩
      rw [hpath]
      show n.dirents ++ [name] = _
      rw [hs.1]
  · split
    · exact err _
    · intro ev he
      cases he
      rw [if_neg (by simp)]
      exact NInv.settled hd hn hs (by simp [setStep, enterState]) (by simp [setStep, enterState])

theorem pathOf_parsed (n : DNode) (p : Option Parsed) (l : List DNode) : pathOf ({ n with parsed := p } :: l) = pathOf (n :: l) := by
  simp only [pathOf, List.reverse_cons, List.filterMap_append, List.filterMap_cons, List.filterMap_nil]

theorem Named.parsed {n : DNode} {l : List DNode} (h : Named (n :: l)) (p : Option Parsed) : Named ({ n with parsed := p } :: l) := by
  cases l with
  | nil => exact h
  | cons m r => exact h

theorem stepParse_names {d : Dec} {H} (h : NInv d H) (hst : d.state = .init ∨ d.state = .entered) : NStep H (stepParse d) := by
  obtain ⟨hd, hn, hm⟩ := h
  intro ev he
  unfold stepParse at he ⊢
  split at he
  · cases he
  rename_i n rest hnodes
  rw [hnodes] at hn
  split at he
  · cases he
    rw [if_neg (by simp)]
    refine ⟨hd, hn.parsed _, ?_⟩
    rcases hst with hst | hst
    · rw [hst] at hm ⊢
      obtain ⟨m, h1, h2, h3⟩ := hm
      rw [hnodes] at h1
      injection h1 with h1 h4
      subst h1 h4
      exact ⟨_, rfl, h2, h3⟩
    · rw [hst] at hm ⊢
      obtain ⟨c, m, r, x, h1, h2, h3, h4, h5⟩ := hm
      rw [hnodes] at h1
      injection h1 with h1 h6
      subst h1 h6
      exact ⟨_, m, r, x, rfl, h2, h3, h4, h5⟩
  · cases he
  · rename_i ff p off hp
    cases he
    rw [if_pos rfl]
    have hcur : currentPath (setStep (enterState { d with ff := ff, nodes := { n with parsed := some p } :: rest } .entry) off) = pathOf (n :: rest) := by
      show pathOf ({ n with parsed := some p } :: rest) = _
      rw [pathOf_parsed]
    rw [hcur]
    refine NInv.settled hd (hn.parsed _) ?_ (by simp [setStep, enterState]) (by simp [setStep, enterState])
    show Settled _ ({ n with parsed := some p } :: rest)
    rcases hst with hst | hst
    · rw [hst] at hm
      obtain ⟨m, h1, h2, h3⟩ := hm
      rw [hnodes] at h1
      injection h1 with h1 h4
      subst h1 h4
      refine ⟨?_, trivial⟩
      rw [pathOf_parsed, children_self]
      exact h2
    · rw [hst] at hm
      obtain ⟨c, m, r, x, h1, h2, h3, h4, h5⟩ := hm
      rw [hnodes] at h1
      injection h1 with h1 h6
      subst h1 h6
      refine ⟨?_, ?_, ?_⟩
      · rw [pathOf_parsed, children_self]; exact h3
      · rw [pathOf_cons n _ x h2, children_child]; exact h4
      · have := hn.length
        have hnm := hn.2.length
        refine h5.far ?_ ?_
        · intro hr
          cases r with
          | nil => exact absurd rfl hr
          | cons m2 r2 => exact hn.2.2
        · simp only [List.length_cons] at this; omega

theorem stepNode_names {d : Dec} {H} (h : NInv d H) : NStep H (stepNode d) := by
  have hd := h.1
  have hn := h.2.1
  have keep : ∀ (s : DState) (a sk : Nat) (ev : Ev), Settled H d.nodes → s ≠ .init → s ≠ .entered → ev ≠ .nextFile →
      NStep H (enterState { d with archiveOff := a, skip := sk } s, .ok ev) := by
    intro s a sk ev hs h1 h2 h3 ev' he
    cases he
    rw [if_neg h3]
    exact NInv.settled hd hn hs h1 h2
  unfold stepNode
  have hm := h.2.2
  cases hst : d.state with
  | init =>
    simp only
    split
    · have : Settled H d.nodes := by
        obtain ⟨n, h1, h2, h3⟩ := h.init hst
        rw [h1]
        refine ⟨?_, trivial⟩
        rw [h3]
        exact h2
      exact stepPayload_names (d := enterState d .inPayload) hd hn this rfl
    · exact stepParse_names h (.inl hst)
  | entered => exact stepParse_names h (.inr hst)
  | entry =>
    rw [hst] at hm
    simp only
    split
    · intro ev he; cases he
    split
    · intro ev he; cases he
    split
    · exact stepPayload_names (d := enterState d .inPayload) hd hn hm rfl
    split
    · exact stepDirectory_names (d := enterState d .inDirectory) hd hn hm rfl
    · exact keep .finalize d.archiveOff d.skip .doneFile hm (by simp) (by simp) (by simp)
  | inPayload => rw [hst] at hm; exact stepPayload_names hd hn hm hst
  | inDirectory => rw [hst] at hm; exact stepDirectory_names hd hn hm hst
  | goodbye => rw [hst] at hm; exact keep .finalize d.archiveOff d.skip .doneFile hm (by simp) (by simp) (by simp)
  | finalize => rw [hst] at hm; exact stepFinalize_names hd hn hm
  | eof =>
    rw [hst] at hm
    intro ev he
    cases he
    show NInv d (if Ev.finished = .nextFile then _ else _)
    rw [if_neg (by simp)]
    exact h
  | skipping => rw [hst] at hm; exact keep .finalize _ _ .doneFile hm (by simp) (by simp) (by simp)

theorem step_names {d : Dec} {H} (h : NInv d H) : NStep H (step d) := by
  unfold step
  split
  · rename_i he
    intro ev hev
    cases hev
    rw [if_neg (by simp)]
    exact h
  split
  · intro ev hev; cases hev
  · exact stepNode_names (d := advance d) h

theorem Hist.inv {cfg : DCfg} (hc : cfg.delete = true) {d : Dec} {H} (h : Hist cfg d H) : NInv d H := by
  induction h with
  | new => exact ⟨hc, rfl, _, rfl, rfl, rfl⟩
  | data _ hp ih =>
    unfold putData at hp
    split at hp
    · cases hp; exact ih
    split at hp
    · cases hp
    · cases hp; exact ih
  | eof _ ih => exact ih
  | next _ hs ih =>
    have := step_names ih .nextFile (by rw [hs])
    rw [if_pos rfl, hs] at this
    exact this
  | other _ hs hne ih =>
    have := step_names ih _ (by rw [hs])
    rw [if_neg hne, hs] at this
    exact this

/-- **C28** Whatever the archive and however it arrives: when the decoder reports an object as done (which is when the deletion pass runs),
the names the pass goes by are the names below it that were reported since the object itself was, in that order. -/
theorem C28_names {cfg : DCfg} (hc : cfg.delete = true) {d d' : Dec} {H} (h : Hist cfg d H) (hs : step d = (d', .ok .doneFile)) :
    ∃ n rest, d'.nodes = n :: rest ∧ n.dirents = children (currentPath d') H := by
  have hi := step_names (h.inv hc) .doneFile (by rw [hs])
  rw [if_neg (by simp), hs] at hi
  have hstate : d'.state = .finalize := by
    unfold step at hs
    split at hs
    · cases hs
    split at hs
    · cases hs
    have fin : ∀ e : Dec, (stepFinalize e).2 ≠ .ok .doneFile := by
      intro e h
      unfold stepFinalize at h
      repeat' split at h
      all_goals cases h
    have pay : ∀ e : Dec, stepPayload e = (d', .ok .doneFile) → d'.state = .finalize := by
      intro e h
      unfold stepPayload at h
      repeat' (split at h)
      all_goals first | (cases h; done) | (cases h; rfl) | exact absurd (congrArg Prod.snd h) (fin _)
    have dir : ∀ e : Dec, (stepDirectory e).2 ≠ .ok .doneFile := by
      intro e h
      unfold stepDirectory at h
      repeat' (split at h)
      all_goals first | cases h
      all_goals (simp only at h; split at h <;> cases h)
    have par : ∀ e : Dec, (stepParse e).2 ≠ .ok .doneFile := by
      intro e h
      unfold stepParse at h
      repeat' (split at h)
      all_goals cases h
    unfold stepNode at hs
    cases hst : (advance d).state with
    | init =>
      rw [hst] at hs; simp only at hs
      split at hs
      · exact pay _ hs
      · exact absurd (congrArg Prod.snd hs) (par _)
    | entered => rw [hst] at hs; exact absurd (congrArg Prod.snd hs) (par _)
    | entry =>
      rw [hst] at hs; simp only at hs
      split at hs
      · cases hs
      split at hs
      · cases hs
      split at hs
      · exact pay _ hs
      split at hs
      · exact absurd (congrArg Prod.snd hs) (dir _)
      · cases hs; rfl
    | inPayload => rw [hst] at hs; exact pay _ hs
    | inDirectory => rw [hst] at hs; exact absurd (congrArg Prod.snd hs) (dir _)
    | goodbye => rw [hst] at hs; cases hs; rfl
    | finalize => rw [hst] at hs; exact absurd (congrArg Prod.snd hs) (fin _)
    | eof => rw [hst] at hs; cases hs
    | skipping => rw [hst] at hs; cases hs; rfl
  obtain ⟨_, hn, hm⟩ := hi
  rw [hstate] at hm
  cases hd : d'.nodes with
  | nil => rw [hd] at hn; exact hn.elim
  | cons n rest =>
    rw [hd] at hm
    refine ⟨n, rest, rfl, ?_⟩
    have := hm.1
    unfold currentPath
    rw [hd]
    exact this

/-- **C28** Put together: when a directory is reported as done and the names below it were reported in ascending order, the deletion pass,
if it succeeds, leaves exactly the entries of the target directory whose names were reported. -/
theorem C28_archive {cfg : DCfg} (hc : cfg.delete = true) {d d' : Dec} {H} (h : Hist cfg d H) (hs : step d = (d', .ok .doneFile))
    (hasc : Ascending (children (currentPath d') H)) :
    ∃ n rest, d'.nodes = n :: rest ∧ ∀ (fail : Fail) (undo : Bool) (target : Dir),
      (nodeDelete fail undo true (currentPath d') n.dirents target).2 = .ok () →
      (nodeDelete fail undo true (currentPath d') n.dirents target).1.list = kept (children (currentPath d') H) target := by
  obtain ⟨n, rest, h1, h2⟩ := C28_names hc h hs
  refine ⟨n, rest, h1, fun fail undo target hok => ?_⟩
  rw [h2] at hok ⊢
  exact C28_success fail undo _ _ hasc target hok

theorem started_append (a b : List Obs) : started (a ++ b) = started a ++ started b := List.filterMap_append

theorem stepParse_next {d d' : Dec} (h : stepParse d = (d', .ok .nextFile)) : ∃ (n : DNode) (p : Parsed) (rest : List DNode), d'.nodes = { n with parsed := some p } :: rest := by
  unfold stepParse at h
  repeat' (split at h)
  all_goals cases h
  exact ⟨_, _, _, rfl⟩

theorem step_next {d d' : Dec} (h : step d = (d', .ok .nextFile)) : ∃ (n : DNode) (p : Parsed) (rest : List DNode), d'.nodes = { n with parsed := some p } :: rest := by
  unfold step at h
  split at h
  · cases h
  split at h
  · cases h
  have fin : ∀ e : Dec, (stepFinalize e).2 ≠ .ok .nextFile := by
    intro e h
    unfold stepFinalize at h
    repeat' split at h
    all_goals cases h
  have pay : ∀ e : Dec, (stepPayload e).2 ≠ .ok .nextFile := by
    intro e h
    unfold stepPayload at h
    repeat' (split at h)
    all_goals first | (cases h; done) | exact absurd h (fin _)
  have dir : ∀ e : Dec, (stepDirectory e).2 ≠ .ok .nextFile := by
    intro e h
    unfold stepDirectory at h
    repeat' (split at h)
    all_goals first | cases h
    all_goals (simp only at h; split at h <;> cases h)
  unfold stepNode at h
  cases hst : (advance d).state with
  | init =>
    rw [hst] at h; simp only at h
    split at h
    · exact absurd (congrArg Prod.snd h) (pay _)
    · exact stepParse_next h
  | entered => rw [hst] at h; exact stepParse_next h
  | entry =>
    rw [hst] at h; simp only at h
    split at h
    · cases h
    split at h
    · cases h
    split at h
    · exact absurd (congrArg Prod.snd h) (pay _)
    split at h
    · exact absurd (congrArg Prod.snd h) (dir _)
    · cases h
  | inPayload => rw [hst] at h; exact absurd (congrArg Prod.snd h) (pay _)
  | inDirectory => rw [hst] at h; exact absurd (congrArg Prod.snd h) (dir _)
  | goodbye => rw [hst] at h; cases h
  | finalize => rw [hst] at h; exact absurd (congrArg Prod.snd h) (fin _)
  | eof => rw [hst] at h; cases h
  | skipping => rw [hst] at h; cases h

theorem Run.hist {cfg : DCfg} {d : Dec} {ps : List Bytes} {t : List Obs} {o : Outcome} (h : Run d ps t o) :
    ∀ {H}, Hist cfg d H → ∀ {t1 t2 : List Obs} {P : List Bytes}, t = t1 ++ .doneFile P :: t2 →
      ∃ d1 d2, Hist cfg d1 (H ++ started t1) ∧ step d1 = (d2, .ok .doneFile) ∧ currentPath d2 = P := by
  induction h with
  | finished => intro H _ t1 t2 P h; cases t1 <;> cases h
  | error => intro H _ t1 t2 P h; cases t1 <;> cases h
  | crash => intro H _ t1 t2 P h; cases t1 <;> cases h
  | putFails => intro H _ t1 t2 P h; cases t1 <;> cases h
  | starved => intro H _ t1 t2 P h; cases t1 <;> cases h
  | put hs hp _ ih => intro H hh t1 t2 P h; exact ih (.data (.other hh hs (by simp)) hp) h
  | eof hs _ _ ih => intro H hh t1 t2 P h; exact ih (.eof (.other hh hs (by simp))) h
  | skip hs _ ih => intro H hh t1 t2 P h; exact ih (.other hh hs (by simp)) h
  | @go d d' ps ev t o hs hev _ ih =>
    intro H hh t1 t2 P h
    rcases List.append_eq_append_iff.1 h with ⟨a, h1, h2⟩ | ⟨a, h1, h2⟩
    · subst h1
      by_cases hn : ev = .nextFile
      · subst hn
        obtain ⟨n, p, rest, hd'⟩ := step_next hs
        have hob : started (observe d' .nextFile) = [currentPath d'] := by
          unfold observe
          rw [hd']
          rfl
        obtain ⟨d1, d2, h3, h4⟩ := ih (.next hh hs) h2
        refine ⟨d1, d2, ?_, h4⟩
        rw [started_append, hob, ← List.append_assoc]
        exact h3
      · have hob : started (observe d' ev) = [] := by
          cases ev <;> first | rfl | exact absurd rfl hn
        obtain ⟨d1, d2, h3, h4⟩ := ih (.other hh hs hn) h2
        refine ⟨d1, d2, ?_, h4⟩
        rw [started_append, hob]
        exact h3
    · cases a with
      | nil =>
        have h2' : t = [] ++ .doneFile P :: t2 := by rw [List.nil_append] at h2 ⊢; exact h2.symm
        rw [List.append_nil] at h1
        by_cases hn : ev = .nextFile
        · subst hn
          obtain ⟨n, p, rest, hd'⟩ := step_next hs
          have hob : started (observe d' .nextFile) = [currentPath d'] := by
            unfold observe
            rw [hd']
            rfl
          obtain ⟨d1, d2, h3, h4⟩ := ih (.next hh hs) h2'
          refine ⟨d1, d2, ?_, h4⟩
          rw [← h1, hob]
          simpa [started] using h3
        · have hob : started (observe d' ev) = [] := by
            cases ev <;> first | rfl | exact absurd rfl hn
          obtain ⟨d1, d2, h3, h4⟩ := ih (.other hh hs hn) h2'
          refine ⟨d1, d2, ?_, h4⟩
          rw [← h1, hob]
          simpa [started] using h3
      | cons x a =>
        rw [List.cons_append] at h2
        injection h2 with h2 h3
        subst h2
        have : ev = .doneFile ∧ t1 = [] ∧ currentPath d' = P := by
          cases ev with
          | nextFile =>
            obtain ⟨n, p, rest, hd'⟩ := step_next hs
            have hob : observe d' .nextFile = [.nextFile (currentPath d') p.entry p.attrs p.term.shown] := by
              unfold observe; rw [hd']
            rw [hob] at h1
            cases t1 with
            | nil => injection h1 with h1; cases h1
            | cons y t1 => injection h1 with _ h1; cases t1 <;> cases h1
          | doneFile =>
            cases t1 with
            | nil => injection h1 with h1; cases h1; exact ⟨rfl, rfl, rfl⟩
            | cons y t1 => injection h1 with _ h1; cases t1 <;> cases h1
          | payload =>
            cases t1 with
            | nil => injection h1 with h1; cases h1
            | cons y t1 => injection h1 with _ h1; cases t1 <;> cases h1
          | finished => cases t1 <;> cases h1
          | step => cases t1 <;> cases h1
          | request => cases t1 <;> cases h1
          | skip => cases t1 <;> cases h1
        obtain ⟨rfl, rfl, h5⟩ := this
        exact ⟨d, d', by simpa [started] using hh, hs, h5⟩

/-- **C28** The same for a session: at every report that an object is done, the deletion pass goes by the names below the object that were
reported since the object itself was, and, if these were ascending and it succeeds, leaves exactly the entries with these names. -/
theorem C28_session {cfg : DCfg} (hc : cfg.delete = true) {expected mask : Flags.Word} {ps : List Bytes} {t1 t2 : List Obs} {P : List Bytes} {o : Outcome}
    (h : Run (start cfg expected mask) ps (t1 ++ .doneFile P :: t2) o) (hasc : Ascending (children P (started t1))) :
    ∃ d n rest, Hist cfg d (started t1) ∧ (step d).2 = .ok .doneFile ∧ currentPath (step d).1 = P ∧ (step d).1.nodes = n :: rest ∧
      n.dirents = children P (started t1) ∧ ∀ (fail : Fail) (undo : Bool) (target : Dir),
      (nodeDelete fail undo true P n.dirents target).2 = .ok () →
      (nodeDelete fail undo true P n.dirents target).1.list = kept (children P (started t1)) target := by
  obtain ⟨d1, d2, h1, h2, h3⟩ := Run.hist h Hist.new rfl
  rw [List.nil_append] at h1
  obtain ⟨n, rest, h4, h5⟩ := C28_names hc h1 h2
  subst h3
  refine ⟨d1, n, rest, h1, by rw [h2], by rw [h2], by rw [h2]; exact h4, h5, fun fail undo target hok => ?_⟩
  rw [h5] at hok ⊢
  exact C28_success fail undo _ _ hasc target hok

/-! ### An example -/

theorem atoms_done : ∀ (t : List Obs) (A B : List Atom) (P : List Bytes), atoms t = A ++ .doneFile P :: B →
    ∃ t1 t2, t = t1 ++ .doneFile P :: t2 ∧ atoms t1 = A
  | [], A, B, P, h => by cases A <;> cases h
  | x :: t, A, B, P, h => by
    have hx : atoms (x :: t) = x.atoms ++ atoms t := rfl
    rw [hx] at h
    have rec_ : ∀ A', A = x.atoms ++ A' → atoms t = A' ++ .doneFile P :: B → ∃ t1 t2, x :: t = t1 ++ .doneFile P :: t2 ∧ atoms t1 = A := by
      intro A' h1 h2
      obtain ⟨t1, t2, h3, h4⟩ := atoms_done t A' B P h2
      refine ⟨x :: t1, t2, by rw [h3]; rfl, ?_⟩
      have : atoms (x :: t1) = x.atoms ++ atoms t1 := rfl
      rw [this, h4, h1]
    rcases List.append_eq_append_iff.1 h with ⟨a, h1, h2⟩ | ⟨a, h1, h2⟩
    · exact rec_ a h1 h2
    · cases a with
      | nil => exact rec_ [] (by rw [List.append_nil] at h1 ⊢; exact h1.symm) h2.symm
      | cons y a =>
        rw [List.cons_append] at h2
        injection h2 with h2 h3
        subst h2
        cases x with
        | nextFile p e a' c =>
          cases A with
          | nil => injection h1 with h1; cases h1
          | cons y A => injection h1 with _ h1; cases A <;> cases h1
        | payload b =>
          have : Atom.doneFile P ∈ (Obs.payload b).atoms := by rw [h1]; simp
          simp [Obs.atoms] at this
        | doneFile Q =>
          cases A with
          | nil => injection h1 with h1; cases h1; exact ⟨[], t, rfl, rfl⟩
          | cons y A => injection h1 with _ h1; cases A <;> cases h1

theorem started_atoms : ∀ (t : List Obs), started t = (atoms t).filterMap fun | .nextFile p _ _ _ => some p | _ => none
  | [] => rfl
  | x :: t => by
    have hx : atoms (x :: t) = x.atoms ++ atoms t := rfl
    rw [hx, List.filterMap_append, ← started_atoms t]
    cases x with
    | nextFile => rfl
    | doneFile => rfl
    | payload b =>
      have : (b.map Atom.byte).filterMap (fun | .nextFile p _ _ _ => some p | _ => none) = ([] : List (List Bytes)) := by
        induction b with
        | nil => rfl
        | cons c b ih => simp
      show started t = _
      rw [show (Obs.payload b).atoms = b.map Atom.byte from rfl, this]
      rfl

/-- Extraction of the example archive with deletion: when the root is done, the pass goes by the three stored names. -/
example (sizes : Nat → Option Nat) (hs : Positive sizes) : ∃ bytes, ERun (fun l => l.mergeSort Goodbye.nameItemLe) sizes (eStart exTree) bytes .finished ∧
    ∃ obs t1 t2, Run (start { delete := true } none64 none64) [bytes] obs .finished ∧ obs = t1 ++ .doneFile [] :: t2 ∧
      children [] (started t1) = [[97], [99], [100]] ∧ Ascending (children [] (started t1)) := by
  have he := C25_session_exists Goodbye.mergeSort_sorts exTree rfl (by decide) sizes hs
  refine ⟨_, he, ?_⟩
  obtain ⟨obs, o, hr⟩ := C26_session_exists { delete := true } none64 none64 [encTree (fun l => l.mergeSort Goodbye.nameItemLe) 0 exTree]
  have hl : (encTree (fun l => l.mergeSort Goodbye.nameItemLe) 0 exTree).length < 2 ^ 62 :=
    Nat.lt_of_le_of_lt (encTree_bound _ exTree 0) (by decide)
  obtain ⟨_, h1, h2⟩ := C25_round_trip Goodbye.mergeSort_sorts exFf (by decide) exTree exStorable rfl (by decide) sizes hs _ _ he hl { delete := true } rfl rfl none64 none64
    (.inl rfl) [_] List.flatten_singleton obs o hr
  subst h2
  obtain ⟨t1, t2, h3, h4⟩ := atoms_done obs [.nextFile [] (exEntry 0x41ed#64) {} .nothing,
       .nextFile [[97]] (exEntry 0x81a4#64) {} (.file 2), .byte 104, .byte 105, .doneFile [[97]],
       .nextFile [[99]] (exEntry 0x41ed#64) {} .nothing, .doneFile [[99]],
       .nextFile [[100]] (exEntry 0xa1ff#64) {} (.symlink [97]), .doneFile [[100]]] [] [] h1
  have h5 : children [] (started t1) = [[97], [99], [100]] := by rw [started_atoms, h4]; rfl
  refine ⟨obs, t1, t2, hr, h3, h5, ?_⟩
  rw [h5]
  simp [Ascending, strLt]

end Casync.Delete
