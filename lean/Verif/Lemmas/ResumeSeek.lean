import Verif.Lemmas.ResumeWalk
/-!
Where a seek arrives.
-/
namespace Casync.Resume
open Casync Archive

/-! ### Paths -/

theorem joinNames_path : ∀ l : List Bytes, joinNames l = joinPath l
  | [] => rfl
  | [a] => rfl
  | a :: b :: r => by unfold joinNames joinPath; rw [joinNames_path (b :: r)]

theorem components_split : ∀ p : Bytes, components p = splitSlash p
  | [] => rfl
  | c :: cs => by
    unfold components splitSlash
    rw [components_split cs]
    split
    · rfl
    · cases splitSlash cs <;> rfl

theorem components_join {ns : List Bytes} (h : ns ≠ []) (hs : ∀ n ∈ ns, SafeName n) : components (joinNames ns) = ns := by
  rw [components_split, joinNames_path]
  exact splitSlash_join ns h (fun c hc => (hs c hc).noSlash)

theorem joinNames_ne {ns : List Bytes} (h : ns ≠ []) (hs : ∀ n ∈ ns, SafeName n) : joinNames ns ≠ [] := by
  cases ns with
  | nil => exact absurd rfl h
  | cons a r =>
    have := (hs a (by simp)).nonempty
    cases r with
    | nil => exact this
    | cons b r =>
      unfold joinNames
      simp

theorem joinNames_slash {ns : List Bytes} (hs : ∀ n ∈ ns, SafeName n) : (joinNames ns).head? ≠ some 47 := by
  have key : ∀ (a r : Bytes), SafeName a → (a ++ r).head? ≠ some 47 := by
    intro a r ha
    cases a with
    | nil => exact absurd rfl ha.nonempty
    | cons x xs =>
      intro h
      simp only [List.cons_append, List.head?_cons, Option.some.injEq] at h
      exact ha.noSlash (by simp [h])
  cases ns with
  | nil => simp [joinNames]
  | cons a r =>
    have := hs a (by simp)
    cases r with
    | nil => have := key a [] this; rw [List.append_nil] at this; exact this
    | cons b r => exact key a _ this

/-! ### The location -/

theorem currentLocation_ok {env : Env} {s : REnc} {add : Nat} {l : Location.Location} (h : currentLocation env s add = .ok l) :
    ∃ up d tab ns, reported s = .ok (up, d, tab) ∧ upNames up = some ns ∧ l.path = joinNames ns ∧ l.designator = d ∧ l.offset = (s.payloadOff + add) % 2 ^ 64 ∧ l.nameTable = tab ∧
      (∀ a, s.archiveOff = some a → l.archiveOffset = (a + add) % 2 ^ 64) ∧ l.size = u64max := by
  unfold currentLocation at h
  obtain ⟨⟨up, d, tab⟩, h1, h⟩ := Res.bind_eq_ok.1 h
  simp only at h
  obtain ⟨path, h2, h⟩ := Res.bind_eq_ok.1 h
  obtain ⟨l0, h3, h⟩ := Res.bind_eq_ok.1 h
  injection h with h
  have hd : d ≠ Location.void := by
    unfold reported at h1
    simp only at h1
    split at h1
    · injection h1 with h1; injection h1 with _ h1; injection h1 with h1 _; rw [← h1]; decide
    · injection h1 with h1; injection h1 with _ h1; injection h1 with h1 _; rw [← h1]; decide
    · split at h1
      · cases h1
      · injection h1 with h1; injection h1 with _ h1; injection h1 with h1 _; rw [← h1]; decide
    · injection h1 with h1; injection h1 with _ h1; injection h1 with h1 _; rw [← h1]; decide
    · cases h1
  unfold nodePath at h2
  cases hn : upNames up with
  | none => rw [hn] at h2; cases h2
  | some ns =>
    rw [hn] at h2
    injection h2 with h2
    unfold Location.new at h3
    split at h3; · cases h3
    split at h3; · cases h3
    split at h3; · cases h3
    split at h3; · cases h3
    split at h3; · cases h3
    split at h3; · cases h3
    injection h3 with h3
    refine ⟨up, d, tab, ns, h1, hn, ?_, ?_, ?_, ?_, ?_, ?_⟩
    · rw [← h, ← h3, h2, Option.getD_some]
    · rw [← h, ← h3]
    · rw [← h, ← h3]
    · rw [← h]
    · intro a ha; rw [← h]; simp only; rw [ha]
    · rw [← h, ← h3]

/-! ### The root -/

theorem Spine.first {env : Env} {R : Obj} {us : List RNode} {c : RNode} (h : Spine env R us c) : ∀ l, ∃ r rest, us.reverse ++ c :: l = r :: rest ∧ r.obj = R ∧ r.rules = [] := by
  induction h with
  | root a b => intro l; exact ⟨_, l, rfl, a, b⟩
  | @down u us c name _ _ _ ih =>
    intro l
    obtain ⟨r, rest, h1, h2⟩ := ih (c :: l)
    exact ⟨r, rest, by rw [List.reverse_cons, List.append_assoc]; exact h1, h2⟩

theorem Spine.change {env : Env} {R : Obj} {us : List RNode} {c c' : RNode} (h : Spine env R us c) (h1 : c'.obj = c.obj) (h2 : RulesOK c') (h3 : us = [] → c'.rules = []) : Spine env R us c' := by
  cases h with
  | root a _ => exact .root (h1.trans a) (h3 rfl)
  | down a b _ => exact .down a (h1 ▸ b) h2

theorem Neat.blank {os : Option (List Bytes)} {n : RNode} {l : List RNode} (h : Neat os (n :: l)) : Neat os (Resume.blank n :: l) := by
  cases h with
  | last a b => exact .last (fun _ => rfl) b
  | past a b => exact .past a b
  | child a b c d e => exact .child a b c d e
  | next a b c d e => exact .next a b c d e
  | fresh a => exact .fresh ⟨a.1, rfl⟩

theorem rewind_ok {env : Env} {R : Obj} {a : Nat} {s : REnc} (h : RInv env R false a s) :
    ∃ r rest os, rewind s = { s with up := [], cur := r, below := rest } ∧ r.obj = R ∧ r.rules = [] ∧ upNames s.up = some os ∧ Neat (some os) (r :: rest) := by
  obtain ⟨os, h1, h2⟩ := h.neat
  obtain ⟨r, rest, h3, h4, h5⟩ := h.spine.first s.below
  refine ⟨r, rest, os, ?_, h4, h5, h1, by rw [← h3]; exact h2⟩
  unfold rewind
  rw [h3]

theorem enter_ok {env : Env} {R : Obj} {a : Nat} {s : REnc} (h : RInv env R false a s) (hn : R.Named) {us : List RNode} {c : RNode} (hsp : Spine env R us c) (hd : us.length < 64) :
    ∃ ns c' l os, upNames us = some ns ∧ (∀ n ∈ ns, SafeName n) ∧ seekPathAndEnter (rewind s) (joinNames ns) = .ok { s with up := us.map blank, cur := c', below := l } ∧ c'.obj = c.obj ∧ RulesOK c' ∧ (us = [] → c'.rules = []) ∧
      upNames s.up = some os ∧ Neat (afterAll (some os) ns) (c' :: l) := by
  obtain ⟨r, rest, os, h1, h2, h3, h4, h5⟩ := rewind_ok h
  obtain ⟨ns, c', l, g1, g2, g3, g4, g5, g6, g7⟩ := walk_ok (s := { s with up := [], cur := r, below := rest }) hsp hn hd rfl h2 h3 h5
  rw [h1]
  cases ns with
  | nil =>
    have hus : us = [] := by
      cases us with
      | nil => rfl
      | cons u us =>
        unfold upNames at g1
        split at g1
        · injection g1 with g1; simp at g1
        · cases g1
    subst hus
    unfold walk at g3
    injection g3 with g3
    injection g3 with _ _ e1 e2
    refine ⟨[], blank r, rest, os, rfl, by simp, rfl, ?_, ?_, fun _ => h3, h4, ?_⟩
    · rw [← g4, ← e1]; rfl
    · exact fun _ => h3
    · exact h5.blank
  | cons n ns =>
    refine ⟨n :: ns, c', l, os, g1, g2, ?_, g4, g5, g6, h4, g7⟩
    unfold seekPathAndEnter seekPath
    rw [if_neg (joinNames_ne (by simp) g2), components_join (by simp) g2]
    have := seekNames_walk (n :: ns) { s with up := [], cur := r, below := rest } (by simp)
    rw [g3] at this
    unfold enterLast at this
    exact this

/-! ### Name tables -/

theorem parentTable_blank : ∀ us : List RNode, parentTable (us.map blank) = []
  | [] => rfl
  | _ :: _ => rfl

theorem install_ok {a : Nat} : ∀ {us : List RNode} {n n' : RNode} {lv : NameTable.Level}, Tabs a us → n.table = lv :: parentTable us → { n' with table := n.table } = n →
    install (lv :: parentTable us) (n' :: us.map blank) = .ok (n :: us)
  | [], n, n', lv, _, h2, h3 => by
    show (if (parentTable ([] : List RNode)) ≠ [] then (Res.err .ESPIPE : Res (List RNode)) else .ok [{ n' with table := lv :: parentTable [] }]) = .ok [n]
    rw [if_neg (by simp [parentTable]), ← h2, h3]
  | u :: us, n, n', lv, h1, h2, h3 => by
    cases h1 with
    | @cons _ _ lu t1 t2 t3 =>
      rw [List.map_cons]
      unfold install
      have hp : parentTable (u :: us) = lu :: parentTable us := t1
      rw [List.tail_cons, hp, if_neg (by simp), install_ok (n := u) (n' := blank u) t3 t1 rfl]
      simp only
      rw [← hp, ← h2, h3]

theorem installUp_ok {a : Nat} {us : List RNode} (h : Tabs a us) (s : REnc) (hs : s.up = us.map blank) : installUp s (parentTable us) = .ok { s with up := us } := by
  cases h with
  | nil =>
    unfold installUp parentTable
    rw [if_pos rfl]
    rw [show ([] : List RNode) = s.up from hs.symm]
  | @cons u us lv t1 t2 t3 =>
    unfold installUp
    have hp : parentTable (u :: us) = lv :: parentTable us := t1
    rw [hp, if_neg (by simp), if_neg (by rw [hs]; simp), hs, List.map_cons, install_ok (n := u) (n' := blank u) t3 t1 rfl]

theorem installCur_ok {a : Nat} {us : List RNode} {n : RNode} {lv : NameTable.Level} (h : Tabs a us) (s : REnc) (hs : s.up = us.map blank) (h1 : n.table = lv :: parentTable us)
    (h2 : { s.cur with table := n.table } = n) : installCur s (lv :: parentTable us) = .ok { s with up := us, cur := n } := by
  unfold installCur
  rw [if_neg (by simp), hs, install_ok (n := n) (n' := s.cur) h h1 h2]

/-! ### Arriving -/

/-- The top node, without the entries that play no role any more. -/
def trim : EState → List ENode → List ENode
  | .goodbye, n :: r => { n with kids := .nil } :: r
  | .finalize, n :: r => { n with kids := .nil } :: r
  | .eof, n :: r => { n with kids := .nil } :: r
  | _, l => l

/-- The encoder at the beginning of the record it is in. -/
def canon (e : Enc) : Enc :=
  match e.state with
  | .entry | .filename | .inPayload | .goodbye => { e with nodes := trim e.state e.nodes, buf := [], archiveOff := e.archiveOff - e.payloadOff, payloadOff := 0 }
  | _ => { e with nodes := trim e.state e.nodes, buf := [] }

theorem canon_shift {e : Enc} {add : Nat} (hs : e.state = .entry ∨ e.state = .filename ∨ e.state = .inPayload ∨ e.state = .goodbye) : canon (Resume.shift e add) = canon e := by
  have he : (Resume.shift e add).state = e.state := rfl
  unfold canon
  rw [he]
  rcases hs with h | h | h | h <;> rw [h] <;> simp only <;> unfold Resume.shift <;> simp only <;> rw [Nat.add_sub_add_right]

/-- What a seek achieves. -/
structure Arrived (env : Env) (R : Obj) (A : Bytes) (pos : Nat) (st : Bool) (t : REnc) : Prop where
  inv : RInv env R st pos t
  buf : t.buf = []
  pay : PayOK env t
  rest : RestD env.qsort A (toEnc env t)
  left : LeftE env.qsort (toEnc env t)

theorem toENode_same {env : Env} {n n' : RNode} (h1 : n'.obj = n.obj) (h2 : RulesOK n) (h3 : RulesOK n') (h4 : n'.rest = n.rest) (h5 : n'.table = n.table)
    (h6 : n.obj.isDir = false → n.rest = .nil) : toENode env n' = toENode env n := by
  obtain ⟨o, r, l, t⟩ := n
  obtain ⟨o', r', l', t'⟩ := n'
  simp only at h1 h4 h5
  subst h1 h4 h5
  cases hd : o'.isDir with
  | true =>
    have e1 : r = [] := h2 hd
    have e2 : r' = [] := h3 hd
    rw [e1, e2]
  | false =>
    have e1 : l' = .nil := h6 hd
    subst e1
    unfold toENode
    simp only
    rw [view_leaf (r := r) (r' := r') (by intro h; rw [hd] at h; cases h)]
    rfl

theorem leaf_rest {env : Env} {R : Obj} {st : Bool} {a : Nat} {s : REnc} (h : RInv env R st a s) : s.cur.obj.isDir = false → s.cur.rest = .nil := by
  intro hd
  have := h.suff
  rw [leaf_kids hd] at this
  exact this.of_nil

theorem Tabs.add {a : Nat} {l : List RNode} (h : Tabs a l) (add : Nat) : Tabs (a + add) l := h.mono (by omega)

theorem RestD.le {q : List Goodbye.NameItem → List Goodbye.NameItem} {A : Bytes} {e : Enc} {k : Option Nat} {x : Bytes} (h : RestD q A e) (hb : e.buf = []) (hk : NotEmpty k)
    (hm : makeData q e k = .ok x) (hx : x ≠ []) : e.archiveOff + x.length ≤ A.length := by
  have := (h.data hb hk (getData_make hb hm)).2
  rw [if_neg hx] at this
  omega

section
variable {env : Env} {R : Obj} {A : Bytes}

/-- What is known about the place that was reported, and the encoder that is to go there. -/
structure Plan (env : Env) (R : Obj) (A : Bytes) (st0 : Bool) (a add : Nat) (s0 : REnc) (x : Bytes) (l' : Location.Location) : Prop where
  inv : RInv env R st0 a s0
  buf : s0.buf = []
  pay : PayOK env s0
  rest : RestD env.qsort A (toEnc env s0)
  data : Fetched env.qsort (toEnc env s0) x
  lt : add < x.length
  offset : l'.offset = s0.payloadOff + add
  archive : knownOff l'.archiveOffset = some (a + add)
  size : l'.size ≠ 0

theorem Plan.shift {st0 : Bool} {a add : Nat} {s0 : REnc} {x : Bytes} {l' : Location.Location} (h : Plan env R A st0 a add s0 x l') :
    RestD env.qsort A (Resume.shift (toEnc env s0) add) := h.data.shift h.rest (by exact h.buf) h.lt

theorem toEnc_shift {s t : REnc} {a add : Nat} (h1 : t.state = s.state) (h2 : t.up.map (toENode env) = s.up.map (toENode env)) (h3 : toENode env t.cur = toENode env s.cur) (h4 : t.buf = s.buf)
    (h5 : s.archiveOff = some a) (h6 : t.archiveOff = some (a + add)) (h7 : t.payloadOff = s.payloadOff + add) : toEnc env t = Resume.shift (toEnc env s) add := by
  unfold toEnc Resume.shift
  simp only [h1, List.map_cons, h2, h3, h4, h5, h6, h7, Option.getD_some]

/-- The part of the record that was skipped is not more than the record. -/
theorem record_le {st0 : Bool} {a : Nat} {s0 : REnc} {x w : Bytes} (hf : Fine env R) (hi : RInv env R st0 a s0) (ha : a < u64max) (hb : s0.buf = []) (hp : PayOK env s0)
    (hm : Fetched env.qsort (toEnc env s0) x) (hw : wholeRecord env s0 = some (.ok w)) : s0.payloadOff + x.length = w.length := by
  rcases hm with ⟨k, _, hm⟩ | ⟨_, _, _, _, _, _, _, _, _, f3, _⟩
  case inr =>
    have f3 : s0.state = .inPayload := f3
    unfold wholeRecord at hw
    rw [f3] at hw
    cases hw
  obtain ⟨d1, _, _⟩ := getData_sim hf hi ha hb hp (getData_make (by exact hb) hm)
  unfold getData at d1
  rw [if_neg (by rw [hb]; simp), hw] at d1
  simp only at d1
  have hle := hp w hw
  rw [if_neg (by omega)] at d1
  injection d1 with _ d1
  injection d1 with d1
  rw [← d1, List.length_drop]
  omega

theorem PayOK.of {s t : REnc} {add : Nat} {x : Bytes} (hr : wholeRecord env t = wholeRecord env s) (hp : t.payloadOff = s.payloadOff + add) (hx : add ≤ x.length)
    (h : ∀ w, wholeRecord env s = some (.ok w) → s.payloadOff + x.length = w.length) : PayOK env t := by
  intro w hw
  rw [hr] at hw
  have := h w hw
  omega

theorem arrive_entry {st0 : Bool} {a add b : Nat} {s0 s : REnc} {x : Bytes} {l' : Location.Location} (hf : Fine env R) (ha : a < u64max) (p : Plan env R A st0 a add s0 x l')
    (hs : s0.state = .entry) (hi : RInv env R false b s) {ns : List Bytes} (hns : upNames s0.up = some ns) (hpath : l'.path = joinNames ns) (htab : l'.nameTable = parentTable s0.up) :
    ∃ t ev st, seekEntry (rewind s) l' = .ok (t, ev) ∧ hasData ev = true ∧ Arrived env R A (a + add) st t ∧ (¬ Open s l'.path → st = false) ∧ canon (toEnc env t) = canon (toEnc env s0) := by
  have hdep := p.inv.spine.depth hf.names hf.rules
  have hh := Tree.height_pos (view env s0.cur.rules s0.cur.obj)
  have hdd := hf.depth
  obtain ⟨ns', c', l, os, g1, g2, g3, g4, g5, g6, g7, g8⟩ := enter_ok hi hf.names p.inv.spine (by omega)
  rw [hns] at g1
  injection g1 with g1
  subst g1
  have hso := p.inv.state
  unfold StateOK at hso
  rw [hs] at hso
  simp only at hso
  obtain ⟨o1, o2, o3, _⟩ := hso
  generalize htb : s0.cur.table = tb at o2 o3
  have htn : ∃ tt, tt = tb := ⟨_, rfl⟩
  let t : REnc := { s with state := .entry, up := s0.up, cur := { c' with rest := c'.obj.kids, table := tb }, below := l, buf := [], archiveOff := some (a + add), payloadOff := s0.payloadOff + add }
  have hini : initTable { s with state := .entry, up := s0.up, cur := { c' with rest := c'.obj.kids, table := [] }, below := l, buf := [], archiveOff := some (a + add), payloadOff := s0.payloadOff + add } (s0.payloadOff + add) = .ok tb := by
    unfold initTable
    simp only
    rw [if_neg (by simp)]
    cases hd : c'.obj.isDir with
    | false => rw [if_pos rfl, o3 (by rw [← g4]; exact hd)]
    | true =>
      have hpa := p.inv.pay
      obtain ⟨_, q2⟩ := o2 (by rw [← g4]; exact hd)
      rw [if_neg (by simp), if_neg (by omega), show a + add - (s0.payloadOff + add) = a - s0.payloadOff by omega]
      cases hu : s0.up with
      | nil => rw [hu] at q2; simp only; rw [q2]; rfl
      | cons u us =>
        have hT := p.inv.tabs
        rw [hu] at hT
        cases hT with
        | cons t1 _ _ =>
          simp only
          rw [if_neg (by rw [t1]; simp), q2, hu]; rfl
  have hseek : seekEntry (rewind s) l' = .ok (t, if l'.offset > 0 then .data else .nextFile) := by
    unfold seekEntry
    rw [hpath, g3]
    show (do
      let s ← installUp (arrive { s with up := s0.up.map blank, cur := { c' with rest := c'.obj.kids }, below := l } .entry l') l'.nameTable
      let s := { s with cur := { s.cur with table := [] } }
      let tt ← initTable s l'.offset
      .ok ({ s with cur := { s.cur with table := tt } }, if l'.offset > 0 then EEv.data else .nextFile)) = _
    rw [htab, installUp_ok p.inv.tabs _ rfl]
    show (do
      let tt ← initTable { s with state := .entry, up := s0.up, cur := { c' with rest := c'.obj.kids, table := [] }, below := l, buf := [], archiveOff := knownOff l'.archiveOffset, payloadOff := l'.offset } l'.offset
      .ok ({ s with state := .entry, up := s0.up, cur := { c' with rest := c'.obj.kids, table := tt }, below := l, buf := [], archiveOff := knownOff l'.archiveOffset, payloadOff := l'.offset }, if l'.offset > 0 then EEv.data else .nextFile)) = _
    rw [p.archive, p.offset, hini]
    rfl
  have hcur : toENode env t.cur = toENode env s0.cur := by
    refine toENode_same (n := s0.cur) (n' := t.cur) g4 p.inv.spine.rulesOK g5 ?_ htb.symm (leaf_rest p.inv)
    show c'.obj.kids = s0.cur.rest
    rw [g4, o1]
  refine ⟨t, _, l ≠ [], hseek, by split <;> rfl, ⟨⟨?_, rfl, ?_, ?_, ?_, ?_, ?_⟩, rfl, ?_, ?_, ?_⟩, ?_, ?_⟩
  · exact p.inv.spine.change g4 g5 g6
  · exact p.inv.tabs.add add
  · exact .refl
  · intro hd; exact o3 (by rw [← g4]; exact hd)
  · exact Nat.add_le_add_right p.inv.pay _
  · refine ⟨rfl, ?_, ?_, ?_⟩
    · intro hd
      obtain ⟨q1, q2⟩ := o2 (by rw [← g4]; exact hd)
      refine ⟨Nat.add_le_add_right q1 _, ?_⟩
      show tb = ⟨a + add - (s0.payloadOff + add), []⟩ :: parentTable s0.up
      rw [Nat.add_sub_add_right]; exact q2
    · intro hd; exact o3 (by rw [← g4]; exact hd)
    · show l = [] ∨ _
      by_cases hl : l = []
      · exact .inl hl
      · exact .inr ⟨by simpa using hl, g8.rest_or.resolve_left hl⟩
  · refine PayOK.of (s := s0) (x := x) ?_ rfl (by have := p.lt; omega) (fun w hw => record_le hf p.inv ha p.buf p.pay p.data hw)
    unfold wholeRecord
    rw [hs]
    show some (Res.ok c'.obj.head) = _
    rw [g4]
  · rw [toEnc_shift (t := t) (s := s0) (a := a) (add := add) hs.symm rfl hcur p.buf.symm p.inv.off rfl rfl]
    exact p.shift
  · rw [toEnc_shift (t := t) (s := s0) (a := a) (add := add) hs.symm rfl hcur p.buf.symm p.inv.off rfl rfl]
    exact p.data.left p.lt
  · intro ho
    have : afterAll (some os) ns = none := by
      cases hz : afterAll (some os) ns with
      | none => rfl
      | some r =>
        exfalso
        refine ho ⟨ns, r, ?_, by rw [hpath, joinNames_path]⟩
        rw [g7, afterAll_some _ _ _ hz]
    rw [this] at g8
    simpa using g8.none_fresh.2
  · rw [toEnc_shift (t := t) (s := s0) (a := a) (add := add) hs.symm rfl hcur p.buf.symm p.inv.off rfl rfl]
    exact canon_shift (.inl hs)

theorem arrive_payload {st0 : Bool} {a add b : Nat} {s0 s : REnc} {x : Bytes} {l' : Location.Location} (hf : Fine env R) (p : Plan env R A st0 a add s0 x l')
    (hs : s0.state = .inPayload) (hi : RInv env R false b s) {ns : List Bytes} (hns : upNames s0.up = some ns) (hpath : l'.path = joinNames ns) (htab : l'.nameTable = parentTable s0.up) :
    ∃ t ev, seekPayload (rewind s) l' = .ok (t, ev) ∧ hasData ev = true ∧ Arrived env R A (a + add) false t ∧ canon (toEnc env t) = canon (toEnc env s0) := by
  have hdep := p.inv.spine.depth hf.names hf.rules
  have hh := Tree.height_pos (view env s0.cur.rules s0.cur.obj)
  have hdd := hf.depth
  obtain ⟨ns', c', l, os, g1, g2, g3, g4, g5, g6, g7, g8⟩ := enter_ok hi hf.names p.inv.spine (by omega)
  rw [hns] at g1
  injection g1 with g1
  subst g1
  have hso := p.inv.state
  unfold StateOK at hso
  rw [hs] at hso
  simp only at hso
  obtain ⟨o1, o2, o3, _⟩ := hso
  have hfi : ∃ e0 a0 api c, s0.cur.obj = .leaf (.file e0 a0 api c) := by
    unfold isFile at o1
    split at o1
    · rename_i ho; exact ⟨_, _, _, _, ho⟩
    · cases o1
  obtain ⟨e0, a0, api, c, hob⟩ := hfi
  have hleaf : c'.obj.isDir = false := by rw [g4, hob]; rfl
  obtain ⟨q1, q2⟩ := g8.leaf hleaf
  have q3 : c'.rest = .nil := by
    have := g8.suff
    rw [leaf_kids hleaf] at this
    exact this.of_nil
  subst q2
  have hoff : s0.payloadOff + add < c.length := by
    have hlt := p.lt
    have htr : (toENode env s0.cur).tree = .file e0 a0 api c := by simp [toENode, hob, view, Leaf.tree]
    rcases p.data with ⟨k, _, hm⟩ | ⟨n, rest, _, _, _, c1, d, f1, f2, f3, f4, f5, f6⟩
    case inr =>
      have f1 : toENode env s0.cur :: s0.up.map (toENode env) = n :: rest := f1
      injection f1 with f1 _
      rw [← f1, htr] at f2
      injection f2 with _ _ _ f2
      subst f2
      rw [f5, List.length_take, List.length_drop] at hlt
      have : (toEnc env s0).payloadOff = s0.payloadOff := rfl
      omega
    unfold makeData at hm
    have hn : (toEnc env s0).nodes = toENode env s0.cur :: s0.up.map (toENode env) := rfl
    rw [hn] at hm
    simp only at hm
    rw [show (toEnc env s0).state = .inPayload from hs] at hm
    simp only at hm
    rw [htr] at hm
    simp only at hm
    rw [show (toEnc env s0).payloadOff = s0.payloadOff from rfl] at hm
    by_cases hc : s0.payloadOff ≥ c.length
    · rw [if_pos hc] at hm; injection hm with hm; rw [← hm] at hlt; simp at hlt
    · rw [if_neg hc] at hm
      injection hm with hm
      have := (getPayloadData_len c s0.payloadOff k).2
      rw [hm] at this
      omega
  let t : REnc := { s with state := .inPayload, up := s0.up, cur := c', below := [], buf := [], archiveOff := some (a + add), payloadOff := s0.payloadOff + add }
  have hseek : seekPayload (rewind s) l' = .ok (t, .payload) := by
    unfold seekPayload
    rw [hpath, g3]
    show (match c'.obj with
      | .leaf (.file _ _ _ c) =>
        if l'.offset ≥ c.length then Res.err .ENXIO
        else do
          let s := arrive { s with up := s0.up.map blank, cur := c', below := [] } .inPayload l'
          let s := if s.archiveOff = none ∧ s.up = [] then { s with archiveOff := some l'.offset } else s
          let s ← installUp s l'.nameTable
          .ok (s, EEv.payload)
      | _ => Res.err .EISDIR) = _
    rw [g4, hob]
    simp only
    rw [if_neg (by rw [p.offset]; omega)]
    have har : arrive { s with up := s0.up.map blank, cur := c', below := [] } .inPayload l' =
        { s with state := .inPayload, up := s0.up.map blank, cur := c', below := [], buf := [], archiveOff := some (a + add), payloadOff := s0.payloadOff + add } := by
      unfold arrive
      rw [p.archive, p.offset]
    rw [har]
    simp only
    rw [if_neg (by intro hh; cases hh.1), htab, installUp_ok p.inv.tabs _ rfl]
    rfl
  have hcur : toENode env t.cur = toENode env s0.cur :=
    toENode_same (n := s0.cur) (n' := t.cur) g4 p.inv.spine.rulesOK g5 (by show c'.rest = _; rw [q3, o2]) (by show c'.table = _; rw [q1, o3]) (leaf_rest p.inv)
  refine ⟨t, _, hseek, rfl, ⟨⟨?_, rfl, ?_, ?_, ?_, ?_, ?_⟩, rfl, ?_, ?_, ?_⟩, ?_⟩
  · exact p.inv.spine.change g4 g5 g6
  · exact p.inv.tabs.add add
  · exact g8.suff
  · intro _; exact q1
  · exact Nat.add_le_add_right p.inv.pay _
  · exact ⟨by show isFile c'.obj = true; rw [g4]; exact o1, q3, q1, rfl⟩
  · exact payOK_zero (.inr rfl)
  · rw [toEnc_shift (t := t) (s := s0) (a := a) (add := add) hs.symm rfl hcur p.buf.symm p.inv.off rfl rfl]
    exact p.shift
  · rw [toEnc_shift (t := t) (s := s0) (a := a) (add := add) hs.symm rfl hcur p.buf.symm p.inv.off rfl rfl]
    exact p.data.left p.lt
  · rw [toEnc_shift (t := t) (s := s0) (a := a) (add := add) hs.symm rfl hcur p.buf.symm p.inv.off rfl rfl]
    exact canon_shift (.inr (.inr (.inl hs)))

theorem arrive_goodbye {st0 : Bool} {a add b : Nat} {s0 s : REnc} {x : Bytes} {l' : Location.Location} (hf : Fine env R) (ha : a < u64max) (p : Plan env R A st0 a add s0 x l')
    (hs : s0.state = .goodbye) (hi : RInv env R false b s) {ns : List Bytes} (hns : upNames s0.up = some ns) (hpath : l'.path = joinNames ns) (htab : l'.nameTable = s0.cur.table) :
    ∃ t ev, seekGoodbye (rewind s) l' = .ok (t, ev) ∧ hasData ev = true ∧ Arrived env R A (a + add) false t ∧ canon (toEnc env t) = canon (toEnc env s0) := by
  have hdep := p.inv.spine.depth hf.names hf.rules
  have hh := Tree.height_pos (view env s0.cur.rules s0.cur.obj)
  have hdd := hf.depth
  obtain ⟨ns', c', l, os, g1, g2, g3, g4, g5, g6, g7, g8⟩ := enter_ok hi hf.names p.inv.spine (by omega)
  rw [hns] at g1
  injection g1 with g1
  subst g1
  have hso := p.inv.state
  unfold StateOK at hso
  rw [hs] at hso
  simp only at hso
  obtain ⟨o1, ⟨lv, o2⟩, _⟩ := hso
  let t : REnc := { s with state := .goodbye, up := s0.up, cur := { c' with rest := .nil, table := s0.cur.table }, below := l, buf := [], archiveOff := some (a + add), payloadOff := s0.payloadOff + add }
  have hseek : seekGoodbye (rewind s) l' = .ok (t, .data) := by
    unfold seekGoodbye
    rw [hpath, g3]
    show (if c'.obj.isDir = false then Res.err .ENOTDIR
      else do
        let s ← installCur (arrive { s with up := s0.up.map blank, cur := { c' with rest := .nil }, below := l } .goodbye l') l'.nameTable
        .ok (s, EEv.data)) = _
    rw [if_neg (by rw [g4, o1]; simp), htab, o2, installCur_ok (n := { c' with rest := .nil, table := s0.cur.table }) p.inv.tabs _ rfl o2 rfl]
    unfold arrive
    rw [p.archive, p.offset]
    rfl
  have hcur : toENode env t.cur = { toENode env s0.cur with kids := viewKids env (Match.merge s0.cur.rules s0.cur.obj.own) .nil } := by
    have e1 : s0.cur.rules = [] := p.inv.spine.rulesOK o1
    have e2 : c'.rules = [] := g5 (by rw [g4]; exact o1)
    show toENode env { c' with rest := .nil, table := s0.cur.table } = _
    unfold toENode
    simp only
    rw [g4, e1, e2]
  refine ⟨t, _, hseek, rfl, ⟨⟨?_, rfl, ?_, ?_, ?_, ?_, ?_⟩, rfl, ?_, ?_, ?_⟩, ?_⟩
  · exact p.inv.spine.change g4 g5 g6
  · exact p.inv.tabs.add add
  · exact Suff.nil _
  · intro hd
    have hd : c'.obj.isDir = false := hd
    rw [g4, o1] at hd; cases hd
  · exact Nat.add_le_add_right p.inv.pay _
  · refine ⟨by show c'.obj.isDir = true; rw [g4]; exact o1, ⟨lv, o2⟩, ?_⟩
    rcases g8.rest_or with h | h
    · exact .inl h
    · exact .inr ⟨h, rfl⟩
  · refine PayOK.of (s := s0) (x := x) ?_ rfl (by have := p.lt; omega) (fun w hw => record_le hf p.inv ha p.buf p.pay p.data hw)
    unfold wholeRecord
    rw [hs]
    show some (goodbyeRecord env t) = some (goodbyeRecord env s0)
    unfold goodbyeRecord
    rw [show t.cur.table = s0.cur.table from rfl, show t.archiveOff = some (a + add) from rfl, p.inv.off, show t.payloadOff = s0.payloadOff + add from rfl, o2]
    have hp := p.inv.pay
    simp only
    rw [if_neg (by omega), if_neg (by omega), Nat.add_sub_add_right]
  · have := RestD.forget (e := Resume.shift (toEnc env s0) add) (n := toENode env s0.cur) (kids := viewKids env (Match.merge s0.cur.rules s0.cur.obj.own) .nil)
      (rest := s0.up.map (toENode env)) hs rfl p.buf p.shift
    rw [← hcur] at this
    have he : toEnc env t = { Resume.shift (toEnc env s0) add with nodes := toENode env t.cur :: s0.up.map (toENode env) } := by
      unfold toEnc Resume.shift
      simp only [p.inv.off, Option.getD_some, hs, p.buf]
      rfl
    rw [he]
    exact this
  · intro k y hk hm
    refine p.data.left p.lt k y hk ?_
    rw [← hm]
    unfold makeData toEnc Resume.shift
    simp only [List.map_cons, p.inv.off, Option.getD_some]
    rw [show t.state = .goodbye from rfl, hs]
    simp only
    rw [hcur]
    rfl
  · have he : toEnc env t = { Resume.shift (toEnc env s0) add with nodes := toENode env t.cur :: s0.up.map (toENode env) } := by
      unfold toEnc Resume.shift
      simp only [p.inv.off, Option.getD_some, hs, p.buf]
      rfl
    rw [he, ← canon_shift (e := toEnc env s0) (add := add) (.inr (.inr (.inr hs))), hcur]
    unfold canon
    rw [show (Resume.shift (toEnc env s0) add).state = .goodbye from hs]
    rfl

theorem arrive_filename {st0 : Bool} {a add b : Nat} {s0 s : REnc} {x : Bytes} {l' : Location.Location} (hf : Fine env R) (ha : a < u64max) (p : Plan env R A st0 a add s0 x l')
    (hs : s0.state = .filename) (hi : RInv env R false b s) {ns : List Bytes} (hns : upNames (s0.cur :: s0.up) = some ns) (hpath : l'.path = joinNames ns) (htab : l'.nameTable = s0.cur.table)
    (hopen : ¬ Open s l'.path) :
    ∃ t ev, seekFilename (rewind s) l' = .ok (t, ev) ∧ hasData ev = true ∧ Arrived env R A (a + add) false t ∧ canon (toEnc env t) = canon (toEnc env s0) := by
  have hso := p.inv.state
  unfold StateOK at hso
  rw [hs] at hso
  simp only at hso
  obtain ⟨name, o, lv, bb, o1, o2, o3, o4, o5, o6, o7, o8⟩ := hso
  have hsp : Spine env R (s0.cur :: s0.up) bb := .down p.inv.spine (by rw [o5]; exact o1) o8
  have hdep := hsp.depth hf.names hf.rules
  have hh := Tree.height_pos (view env bb.rules bb.obj)
  have hdd := hf.depth
  rw [List.length_cons] at hdep
  have hnmd := (p.inv.spine.subobj hf.names hf.rules).1
  have hsafe := (o1.named hnmd).1
  obtain ⟨r, rest, os, h1, h2, h3, h4, h5⟩ := rewind_ok hi
  obtain ⟨ns1, c1, l1, g1, g2, g3, g4, g5, g6, g7⟩ := walk_ok (s := { s with up := [], cur := r, below := rest }) p.inv.spine hf.names (by omega) rfl h2 h3 h5
  obtain ⟨c', l, k1, k2, k3, k4⟩ := seekChild_ok (env := env) (s := { s with up := s0.up.map blank, cur := c1, below := l1 }) (u := s0.cur) (name := name) (o := o) g7 g5
      p.inv.spine.rulesOK g4 hnmd o1 (by simp only [List.length_map]; omega)
  have hns' : ns = ns1 ++ [name] := by
    obtain ⟨keep, rr, sub, q1, _⟩ := o1
    unfold upNames at hns
    rw [q1, g1] at hns
    simp only at hns
    injection hns with hns
    exact hns.symm
  have hsall : ∀ n ∈ ns, SafeName n := by
    intro n hm
    rw [hns', List.mem_append, List.mem_singleton] at hm
    rcases hm with hm | hm
    · exact g2 n hm
    · rw [hm]; exact hsafe
  have hnone : after (afterAll (some os) ns1) name = none := by
    have e : after (afterAll (some os) ns1) name = afterAll (some os) ns := by
      rw [hns']; unfold afterAll; rw [List.foldl_append]; rfl
    rw [e]
    cases hz : afterAll (some os) ns with
    | none => rfl
    | some r =>
      exfalso
      refine hopen ⟨ns, r, ?_, by rw [hpath, joinNames_path]⟩
      rw [h4, afterAll_some _ _ _ hz]
  rw [hnone] at k4
  obtain ⟨⟨f1, f2⟩, f3⟩ := k4.none_fresh
  subst f3
  let t : REnc := { s with state := .filename, up := s0.up, cur := s0.cur, below := [c'], buf := [], archiveOff := some (a + add), payloadOff := s0.payloadOff + add }
  have hsc : s0.cur.obj.isDir = true := by
    obtain ⟨_, _, _, _, _, q, _⟩ := o1
    exact scanned_dir q
  have hpa : seekPath (rewind s) l'.path = .ok { s with up := s0.up.map blank, cur := { s0.cur with table := [] }, below := [c'] } := by
    unfold seekPath
    rw [hpath, components_join (by rw [hns']; simp) hsall, h1, hns']
    rw [seekNames_last ns1 name _ _ g3 hsafe.nonempty]
    exact k1
  have hseek : seekFilename (rewind s) l' = .ok (t, .data) := by
    unfold seekFilename
    rw [if_neg (by rw [hpath]; exact joinNames_ne (by rw [hns']; simp) hsall), hpa]
    show (if s0.cur.obj.isDir = false then Res.err .ENOTDIR
      else do
        let s ← installCur (arrive { s with up := s0.up.map blank, cur := { s0.cur with table := [] }, below := [c'] } .filename l') l'.nameTable
        .ok (s, EEv.data)) = _
    rw [if_neg (by rw [hsc]; simp), htab, o2, installCur_ok (n := s0.cur) p.inv.tabs (arrive { s with up := s0.up.map blank, cur := { s0.cur with table := [] }, below := [c'] } .filename l') rfl o2 rfl]
    unfold arrive
    rw [p.archive, p.offset]
    rfl
  refine ⟨t, _, hseek, rfl, ⟨⟨?_, rfl, ?_, ?_, ?_, ?_, ?_⟩, rfl, ?_, ?_, ?_⟩, ?_⟩
  · exact p.inv.spine
  · exact p.inv.tabs.add add
  · exact p.inv.suff
  · exact p.inv.leaf
  · exact Nat.add_le_add_right p.inv.pay _
  · obtain ⟨pre, i, e1, e2, e3⟩ := o3
    exact ⟨name, o, lv, c', o1, o2, ⟨pre, i, e1, e2, by omega⟩, rfl, k2, by rw [f1, k2], f2, k3⟩
  · refine PayOK.of (s := s0) (x := x) ?_ rfl (by have := p.lt; omega) (fun w hw => record_le hf p.inv ha p.buf p.pay p.data hw)
    unfold wholeRecord
    rw [hs]
  · rw [toEnc_shift (t := t) (s := s0) (a := a) (add := add) hs.symm rfl rfl p.buf.symm p.inv.off rfl rfl]
    exact p.shift
  · rw [toEnc_shift (t := t) (s := s0) (a := a) (add := add) hs.symm rfl rfl p.buf.symm p.inv.off rfl rfl]
    exact p.data.left p.lt
  · rw [toEnc_shift (t := t) (s := s0) (a := a) (add := add) hs.symm rfl rfl p.buf.symm p.inv.off rfl rfl]
    exact canon_shift (.inr (.inl hs))

end

end Casync.Resume
