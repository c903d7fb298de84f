import Verif.Lemmas.DecoderFeed
/-!
What holds of the decoder between two calls, whatever the archive is.
-/
namespace Casync.Archive
open Casync Flags

/-- `validate_filename()` in terms of the name. -/
theorem validateFilename_name {b : Bytes} (h : validateFilename b = true) : SafeName (cstr b) ∧ b = cstr b ++ [0] := by
  unfold validateFilename at h
  by_cases h1 : b.length < 2
  · rw [if_pos h1] at h; cases h
  rw [if_neg h1] at h
  by_cases h2 : (b.getLast? != some 0) = true
  · rw [if_pos h2] at h; cases h
  rw [if_neg h2] at h
  by_cases h3 : (b.dropLast.any fun c => c == 0 || c == 47) = true
  · rw [if_pos h3] at h; cases h
  rw [if_neg h3] at h
  have hl : b.getLast? = some 0 := by simpa using h2
  have hb : b = b.dropLast ++ [0] := by
    obtain ⟨ys, hys⟩ := List.getLast?_eq_some_iff.1 hl
    rw [hys, List.dropLast_concat]
  have hall : ∀ c ∈ b.dropLast, c ≠ 0 ∧ c ≠ 47 := by
    intro c hc
    simp only [List.any_eq_true, not_exists, not_and] at h3
    have := h3 c hc
    simp at this
    exact this
  have hc : cstr b = b.dropLast := by
    rw [hb]
    unfold cstr
    rw [List.dropLast_concat, List.takeWhile_append_of_pos (fun c hc => by simpa using (hall c hc).1)]
    simp
  rw [hc]
  refine ⟨⟨?_, ?_, ?_, fun h0 => (hall 0 h0).1 rfl, fun h0 => (hall 47 h0).2 rfl⟩, hb⟩
  · intro h0
    rw [h0] at hb
    rw [hb] at h1
    simp at h1
  · intro h0
    rw [h0] at h
    simp [dotOrDotDot] at h
  · intro h0
    rw [h0] at h
    simp [dotOrDotDot] at h

theorem parseDirRec_name {b : Bytes} {name : Bytes} {l : Nat} (h : parseDirRec b = .ok (.filename name, l)) : SafeName name := by
  unfold parseDirRec at h
  by_cases h1 : b.length < 16
  · rw [if_pos h1] at h; cases h
  rw [if_neg h1] at h
  simp only at h
  by_cases h2 : word 0 b < 16
  · rw [if_pos h2] at h; cases h
  rw [if_neg h2] at h
  by_cases h3 : (word 0 b == u64max) = true
  · rw [if_pos h3] at h; cases h
  rw [if_neg h3] at h
  split at h
  · by_cases h4 : word 0 b < 17
    · rw [if_pos h4] at h; cases h
    rw [if_neg h4] at h
    by_cases h5 : b.length < word 0 b
    · rw [if_pos h5] at h; cases h
    rw [if_neg h5] at h
    by_cases h6 : (!validateFilename ((b.take (word 0 b)).drop 16)) = true
    · rw [if_pos h6] at h; cases h
    rw [if_neg h6] at h
    injection h with h
    injection h with h _
    injection h with h
    rw [← h]
    exact (validateFilename_name (by simpa using h6)).1
  · by_cases h4 : word 0 b < 40
    · rw [if_pos h4] at h; cases h
    rw [if_neg h4] at h
    by_cases h5 : b.length < word 0 b
    · rw [if_pos h5] at h; cases h
    rw [if_neg h5] at h
    split at h
    · cases h
    · injection h with h; injection h with h _; cases h
  · cases h

/-- A node whose ENTRY was seen and describes a directory. -/
def DirNode (n : DNode) : Prop := ∃ p, n.parsed = some p ∧ isType p.entry.mode ifDir = true

/-- The nodes: the root has no name, all others have a safe one; all but the current one are directories. -/
inductive Chain : List DNode → Prop
  | root {n} : n.name = none → Chain [n]
  | child {n a p rest} : n.name = some a → SafeName a → DirNode p → Chain (p :: rest) → Chain (n :: p :: rest)

theorem Chain.head {n n' : DNode} {rest : List DNode} (h : Chain (n :: rest)) (hn : n'.name = n.name) : Chain (n' :: rest) := by
  cases h with
  | root a => exact .root (hn.trans a)
  | child a b c d => exact .child (hn.trans a) b c d

theorem Chain.path : ∀ {l : List DNode}, Chain l → ∀ c ∈ l.reverse.filterMap (·.name), SafeName c := by
  intro l h
  induction h with
  | root a =>
    intro c hc
    simp [a] at hc
  | child a b c d ih =>
    intro x hx
    rw [List.reverse_cons, List.filterMap_append] at hx
    rcases List.mem_append.1 hx with hx | hx
    · exact ih x hx
    · simp [a] at hx
      rw [hx]; exact b

/-- What the state says about the current node. -/
def HeadOK (d : Dec) (n : DNode) (rest : List DNode) : Prop :=
  match d.state with
  | .init => rest = [] ∧ n.parsed = none
  | .entry => ∃ p, n.parsed = some p ∧ (isType p.entry.mode ifReg = true → ∃ s, p.term = .payload s)
  | .inPayload => (∃ p s, n.parsed = some p ∧ isType p.entry.mode ifReg = true ∧ p.term = .payload s ∧ d.payloadOff + d.stepSize ≤ s) ∨
      (rest = [] ∧ n.parsed = none ∧ d.cfg.naked = true)
  | .inDirectory => DirNode n
  | .goodbye => DirNode n
  | _ => True

/-- The invariant. -/
structure DInv (d : Dec) : Prop where
  size : d.stepSize ≤ d.buf.length
  chain : Chain d.nodes
  head : ∀ n rest, d.nodes = n :: rest → HeadOK d n rest

theorem DInv.nonempty {d : Dec} (h : DInv d) : ∃ n rest, d.nodes = n :: rest := by
  have := h.chain
  cases hn : d.nodes with
  | nil => rw [hn] at this; cases this
  | cons n rest => exact ⟨n, rest, rfl⟩

theorem DInv.advance {d : Dec} (h : DInv d) : DInv (Archive.advance d) := by
  refine ⟨Nat.zero_le _, h.chain, ?_⟩
  intro n rest hn
  have := h.head n rest hn
  unfold HeadOK at this ⊢
  rw [show (Archive.advance d).state = d.state from rfl]
  cases hs : d.state with
  | inPayload =>
    rw [hs] at this
    simp only at this ⊢
    rcases this with ⟨p, s, a, b, c, e⟩ | h
    · refine Or.inl ⟨p, s, a, b, c, ?_⟩
      unfold Archive.advance
      simp only [hs, if_pos]
      omega
    · exact Or.inr h
  | _ => rw [hs] at this; exact this

theorem finalChecks_reg {ff : Word} {root : Bool} {p : Parsed} (h : finalChecks ff root p = true) (hr : isType p.entry.mode ifReg = true) :
    ∃ s, p.term = .payload s := by
  unfold finalChecks at h
  simp only [hr, Bool.true_and, Bool.and_eq_true] at h
  have h2 : (!!(match p.term with | .payload _ => true | _ => false)) = true := by
    have := h.1.1.1.1.1.1.1.1.1.1.1.2
    exact this
  cases hp : p.term with
  | payload s => exact ⟨s, rfl⟩
  | symlink t => rw [hp] at h2; simp at h2
  | device a b => rw [hp] at h2; simp at h2
  | filename => rw [hp] at h2; simp at h2
  | goodbye => rw [hp] at h2; simp at h2

theorem parseEntry_checks {d d' : FF} {root : Bool} {b : Bytes} {p : Parsed} {off : Nat} (h : parseEntry d root b = (d', .ok (p, off))) :
    finalChecks d'.ff root p = true := by
  unfold parseEntry at h
  generalize hp : parseLoop d {} 0 b = q at h
  obtain ⟨d1, r1⟩ := q
  cases r1 with
  | request => injection h with _ h; cases h
  | err e => injection h with _ h; cases h
  | ok a =>
    obtain ⟨st, t, o⟩ := a
    simp only at h
    cases he : st.entry with
    | none => rw [he] at h; injection h with _ h; cases h
    | some e =>
      rw [he] at h
      simp only at h
      by_cases hc : finalChecks d1.ff root ⟨e, st.attrs, t⟩ = true
      · rw [if_pos hc] at h
        injection h with h1 h
        injection h with h
        injection h with h _
        rw [← h, ← h1]; exact hc
      · rw [if_neg hc] at h; injection h with _ h; cases h

theorem isType_ne {m : Word} (h : isType m ifReg = true) : isType m ifDir = false := by
  unfold isType at h ⊢
  have := eq_of_beq h
  rw [this]
  decide

structure Good (p : Dec × Res Ev) : Prop where
  inv : DInv p.1
  alive : p.2 ≠ .ub

theorem stepFinalize_alive (s : Dec) : (stepFinalize s).2 ≠ .ub := by
  unfold stepFinalize
  split
  · simp
  · split <;> simp

theorem stepFinalize_good {s : Dec} (h : DInv s) (hs : s.state = .finalize) : Good (stepFinalize s) := by
  unfold stepFinalize
  split
  · exact ⟨h, by simp⟩
  · rename_i a r hn
    by_cases cb : r.length ≤ s.cfg.boundary
    · rw [if_pos cb]
      refine ⟨⟨Nat.zero_le _, by show Chain s.nodes; exact h.chain, ?_⟩, by simp⟩
      intro n rest _
      exact True.intro
    rw [if_neg cb]
    refine ⟨?_, by simp⟩
    have hc := h.chain
    rw [hn] at hc
    cases hc with
    | root => exact absurd (Nat.zero_le _) cb
    | child a b c d =>
      refine ⟨Nat.zero_le _, d, ?_⟩
      intro n rest hnr
      injection hnr with hnr _
      rw [← hnr]
      exact c

theorem nodeMode_parsed {d : Dec} {n : DNode} {p : Parsed} (h : n.parsed = some p) : nodeMode d n = some p.entry.mode := by
  unfold nodeMode; rw [h]

theorem nodeSize_parsed {n : DNode} {p : Parsed} {s : Nat} (h : n.parsed = some p) (ht : p.term = .payload s) : nodeSize n = some s := by
  unfold nodeSize; rw [h]; simp only; rw [ht]

theorem stepPayload_good {s : Dec} (h : DInv s) (hs : s.state = .inPayload) (h0 : s.stepSize = 0) : Good (stepPayload s) := by
  obtain ⟨n, rest, hn⟩ := h.nonempty
  have hh := h.head n rest hn
  unfold HeadOK at hh
  rw [hs] at hh
  simp only at hh
  have hfin : ∀ t : Dec, t.nodes = s.nodes → t.stepSize ≤ t.buf.length → (t.state = .finalize ∨ t.state = .skipping ∨ t.state = .eof) → DInv t := by
    intro t h1 h2 h3
    refine ⟨h2, by rw [h1]; exact h.chain, ?_⟩
    intro n rest _
    unfold HeadOK
    rcases h3 with h3 | h3 | h3 <;> rw [h3] <;> exact True.intro
  have hub : (stepPayload s).2 ≠ .ub := by
    unfold stepPayload
    rw [hn]
    simp only
    rcases hh with ⟨p, sz, hp, hreg, ht, hle⟩ | ⟨hr, hp, hnk⟩
    · rw [nodeMode_parsed hp]
      simp only
      rw [if_neg (by rw [hreg]; simp), if_neg (by unfold pastEnd; rw [nodeSize_parsed hp ht]; simp only [decide_eq_true_eq]; omega)]
      split
      · simp
      split
      · split <;> simp
      split
      · split
        · simp
        · split
          · simp
          · split
            · exact stepFinalize_alive _
            · simp
      · split
        · split <;> simp
        · simp
    · have hk : isNaked s = true := by unfold isNaked; rw [hn, hr, hnk]; simp [hp]
      have hm : nodeMode s n = some ifReg := by unfold nodeMode; rw [hp]; simp only; rw [hk]; rfl
      rw [hm]
      simp only
      have hz : nodeSize n = none := by unfold nodeSize; rw [hp]
      rw [if_neg (by decide), if_neg (by unfold pastEnd; rw [hz]; simp)]
      split
      · simp
      split
      · split <;> simp
      split
      · split
        · simp
        · split
          · simp
          · (first | rw [if_pos hk] | skip)
            exact stepFinalize_alive _
      · split
        · split <;> simp
        · simp
  refine ⟨?_, hub⟩
  have hr := stepPayload_res s hs h0
  generalize stepPayload s = p at hr
  cases hr with
  | err => exact h
  | crash => exact h
  | request => exact h
  | doneFile => exact hfin _ rfl (Nat.zero_le _) (Or.inl rfl)
  | finished => exact hfin _ rfl (Nat.zero_le _) (Or.inr (Or.inr rfl))
  | skip => exact hfin _ rfl (Nat.zero_le _) (Or.inr (Or.inl rfl))
  | payload k hk ha =>
    refine ⟨ha.len, h.chain, ?_⟩
    intro n' rest' hn'
    have hn2 : s.nodes = n' :: rest' := hn'
    rw [hn] at hn2
    injection hn2 with e1 e2
    subst e1 e2
    unfold HeadOK
    rw [show (setStep s k).state = .inPayload from hs]
    simp only
    rcases hh with ⟨p, sz, hp, hreg, ht, hle⟩ | h
    · refine Or.inl ⟨p, sz, hp, hreg, ht, ?_⟩
      obtain ⟨n2, rest2, m2, a1, a2, a3, a4⟩ := ha.node
      rw [hn] at a1
      injection a1 with a1 _
      subst a1
      exact a4 sz (nodeSize_parsed hp ht)
    · exact Or.inr h

theorem stepDirectory_good {s : Dec} (h : DInv s) (hs : s.state = .inDirectory) (h0 : s.stepSize = 0) : Good (stepDirectory s) := by
  obtain ⟨n, rest, hn⟩ := h.nonempty
  have hh := h.head n rest hn
  unfold HeadOK at hh
  rw [hs] at hh
  simp only at hh
  obtain ⟨p, hp, hd⟩ := hh
  unfold stepDirectory
  rw [hn]
  simp only
  rw [nodeMode_parsed hp]
  simp only
  rw [if_neg (by rw [hd]; simp)]
  cases hpr : parseDirRec s.buf with
  | request => exact ⟨h, by simp⟩
  | err e => exact ⟨h, by simp⟩
  | ok a =>
    obtain ⟨r, l⟩ := a
    have hl := parseDirRec_size hpr
    cases r with
    | filename name =>
      simp only
      by_cases c2 : (n :: rest).length ≥ nodesMax
      · rw [if_pos c2]; exact ⟨h, by simp⟩
      · rw [if_neg c2]
        refine ⟨⟨hl.2, ?_, ?_⟩, by simp⟩
        · refine .child rfl (parseDirRec_name hpr) ?_ ?_
          · split <;> exact ⟨p, hp, hd⟩
          · have := h.chain
            rw [hn] at this
            exact this.head (by split <;> rfl)
        · intro n' rest' _
          exact True.intro
    | goodbye tb eo =>
      simp only
      by_cases c2 : eo ≠ s.archiveOff - n.entryOff
      · rw [if_pos c2]; exact ⟨h, by simp⟩
      · rw [if_neg c2]
        refine ⟨⟨hl.2, h.chain, ?_⟩, by simp⟩
        intro n' rest' hn'
        have : s.nodes = n' :: rest' := hn'
        rw [hn] at this
        injection this with e1 _
        subst e1
        exact ⟨p, hp, hd⟩

theorem stepParse_good {s : Dec} (h : DInv s) (hs : s.state = .init ∨ s.state = .entered) (h0 : s.stepSize = 0) : Good (stepParse s) := by
  obtain ⟨n, rest, hn⟩ := h.nonempty
  have hsz : s.stepSize ≤ s.buf.length := by rw [h0]; exact Nat.zero_le _
  unfold stepParse
  rw [hn]
  simp only
  have hc := h.chain
  rw [hn] at hc
  generalize hp : parseEntry s.ff (rest == []) s.buf = p
  obtain ⟨ff, r⟩ := p
  have hkeep : DInv { s with ff := ff, nodes := { n with parsed := none } :: rest } := by
    refine ⟨hsz, hc.head rfl, ?_⟩
    intro n' rest' hn'
    injection hn' with e1 e2
    unfold HeadOK
    simp only
    rcases hs with hs | hs
    · rw [hs]
      have := h.head n rest hn
      unfold HeadOK at this
      rw [hs] at this
      exact ⟨by rw [← e2]; exact this.1, by rw [← e1]⟩
    · rw [hs]; exact True.intro
  cases r with
  | request => exact ⟨hkeep, by simp⟩
  | err e => exact ⟨hkeep, by simp⟩
  | ok a =>
    obtain ⟨pp, off⟩ := a
    refine ⟨⟨(parseEntry_off hp).2, hc.head rfl, ?_⟩, by simp⟩
    intro n' rest' hn'
    injection hn' with e1 e2
    refine ⟨pp, by rw [← e1], ?_⟩
    exact finalChecks_reg (parseEntry_checks hp)

theorem stepNode_good {s : Dec} (h : DInv s) (h0 : s.stepSize = 0) : Good (stepNode s) := by
  obtain ⟨n, rest, hn⟩ := h.nonempty
  have hh := h.head n rest hn
  have hfin : ∀ t : Dec, t.nodes = s.nodes → t.stepSize ≤ t.buf.length → (t.state = .finalize) → DInv t := by
    intro t h1 h2 h3
    refine ⟨h2, by rw [h1]; exact h.chain, ?_⟩
    intro n rest _
    unfold HeadOK
    rw [h3]; exact True.intro
  unfold HeadOK at hh
  unfold stepNode
  cases hs : s.state with
  | init =>
    rw [hs] at hh
    simp only at hh ⊢
    split
    · rename_i hk
      refine stepPayload_good ?_ rfl rfl
      refine ⟨Nat.zero_le _, h.chain, ?_⟩
      intro n' rest' hn'
      have : s.nodes = n' :: rest' := hn'
      rw [hn] at this
      injection this with e1 e2
      subst e1 e2
      unfold isNaked at hk
      simp only [Bool.and_eq_true] at hk
      exact Or.inr ⟨hh.1, hh.2, hk.1.1⟩
    · exact stepParse_good h (Or.inl hs) h0
  | entered => exact stepParse_good h (Or.inr hs) h0
  | entry =>
    rw [hs] at hh
    simp only at hh ⊢
    rw [hn]
    simp only
    obtain ⟨p, hp, hreg⟩ := hh
    rw [nodeMode_parsed hp]
    simp only
    split
    · rename_i hr
      refine stepPayload_good ?_ rfl rfl
      refine ⟨Nat.zero_le _, h.chain, ?_⟩
      intro n' rest' hn'
      have : s.nodes = n' :: rest' := hn'
      rw [hn] at this
      injection this with e1 e2
      subst e1 e2
      obtain ⟨sz, hsz⟩ := hreg hr
      exact Or.inl ⟨p, sz, hp, hr, hsz, Nat.zero_le _⟩
    · split
      · rename_i hd
        refine stepDirectory_good ?_ rfl rfl
        refine ⟨Nat.zero_le _, h.chain, ?_⟩
        intro n' rest' hn'
        have : s.nodes = n' :: rest' := hn'
        rw [hn] at this
        injection this with e1 e2
        subst e1 e2
        exact ⟨p, hp, hd⟩
      · exact ⟨hfin _ rfl (Nat.zero_le _) rfl, by simp⟩
  | inPayload => exact stepPayload_good h hs h0
  | skipping => exact ⟨hfin _ rfl (Nat.zero_le _) rfl, by simp⟩
  | inDirectory => exact stepDirectory_good h hs h0
  | goodbye => exact ⟨hfin _ rfl (Nat.zero_le _) rfl, by simp⟩
  | finalize => exact stepFinalize_good h hs
  | eof => exact ⟨h, by simp⟩

theorem step_good {d : Dec} (h : DInv d) : Good (step d) := by
  unfold step
  by_cases c : d.state = .eof
  · rw [if_pos c]; exact ⟨h, by simp⟩
  · rw [if_neg c, if_neg (by have := h.size; omega)]
    exact stepNode_good h.advance rfl

theorem DInv.putData {d d' : Dec} {p : Bytes} (h : DInv d) (hp : putData d p = .ok d') : DInv d' := by
  unfold Archive.putData at hp
  split at hp
  · injection hp with hp; rw [← hp]; exact h
  · split at hp
    · cases hp
    · injection hp with hp
      rw [← hp]
      refine ⟨?_, h.chain, h.head⟩
      show d.stepSize ≤ (d.buf ++ p).length
      rw [List.length_append]
      have := h.size
      omega

theorem DInv.putEof {d : Dec} (h : DInv d) : DInv (Archive.putEof d) := ⟨h.size, h.chain, h.head⟩

theorem DInv.start (cfg : DCfg) (e m : Word) : DInv (start cfg e m) := by
  refine ⟨Nat.zero_le _, .root rfl, ?_⟩
  intro n rest hn
  injection hn with e1 e2
  exact ⟨e2.symm, by rw [← e1]⟩

end Casync.Archive
