import Verif.Lemmas.ResumeRun
/-!
The way from the root to the place a seek is to go to.
-/
namespace Casync.Resume
open Casync Archive

/-! ### Entries with distinct names -/

theorem Suff.has {k : Bool} {n : Bytes} {o : Obj} {r m : Objs} (h : Suff (.cons k n o r) m) : m.Has n := by
  generalize hl : Objs.cons k n o r = l at h
  induction h with
  | refl => subst hl; exact .inl rfl
  | skip _ ih => exact .inr (ih hl)

theorem Suff.from {k : Bool} {n : Bytes} {o : Obj} {r m : Objs} (h : Suff (.cons k n o r) m) (hm : m.Named) : m.from n = some (.cons k n o r) := by
  generalize hl : Objs.cons k n o r = l at h
  induction h with
  | refl => subst hl; unfold Objs.from; rw [if_pos rfl]
  | @skip k' n' o' l' r' h' ih =>
    rw [Objs.Named] at hm
    unfold Objs.from
    rw [if_neg, ih hm.2.2.2 hl]
    rintro rfl
    subst hl
    exact hm.2.1 h'.has

theorem Suff.unique {k k' : Bool} {n : Bytes} {o o' : Obj} {r r' m : Objs} (h : Suff (.cons k n o r) m) (h' : Suff (.cons k' n o' r') m) (hm : m.Named) :
    Objs.cons k n o r = .cons k' n o' r' := by
  have := h.from hm
  rw [h'.from hm] at this
  injection this with this
  exact this.symm

/-! ### What is in the array of nodes -/

/-- A node that was just opened. -/
def Fresh (n : RNode) : Prop := n.rest = n.obj.kids ∧ n.table = []

/-- The array of nodes, from a node on.  The names are those of the open entries; `none` if this node is a new one. -/
inductive Neat : Option (List Bytes) → List RNode → Prop
  | last {n} : (n.obj.isDir = false → n.table = []) → Suff n.rest n.obj.kids → Neat (some []) [n]
  | past {n l} : n.rest = .nil → n.obj.scanned = true → Neat (some []) (n :: l)
  | child {n c k name r} : n.rest = .cons k name c.obj r → Suff n.rest n.obj.kids → n.obj.scanned = true → RulesOK c → Fresh c → Neat (some []) [n, c]
  | next {n c l k name r os} : n.rest = .cons k name c.obj r → Suff n.rest n.obj.kids → n.obj.scanned = true → RulesOK c → Neat (some os) (c :: l) →
      Neat (some (name :: os)) (n :: c :: l)
  | fresh {n} : Fresh n → Neat none [n]

theorem Neat.rest_or {os : Option (List Bytes)} {n : RNode} {l : List RNode} (h : Neat os (n :: l)) : l = [] ∨ n.obj.scanned = true := by
  cases h with
  | last => exact .inl rfl
  | past _ h => exact .inr h
  | child _ _ h => exact .inr h
  | next _ _ h => exact .inr h
  | fresh => exact .inl rfl

theorem Neat.leaf {os : Option (List Bytes)} {n : RNode} {l : List RNode} (h : Neat os (n :: l)) (hd : n.obj.isDir = false) : n.table = [] ∧ l = [] := by
  cases h with
  | last h _ => exact ⟨h hd, rfl⟩
  | past _ h => exact no_leaf h hd
  | child _ _ h => exact no_leaf h hd
  | next _ _ h => exact no_leaf h hd
  | fresh h => exact ⟨h.2, rfl⟩

theorem leaf_kids {o : Obj} (h : o.isDir = false) : o.kids = .nil := by
  cases o with
  | leaf l => rfl
  | dir _ _ _ _ _ => cases h

theorem Suff.of_nil {l : Objs} (h : Suff l .nil) : l = .nil := by
  cases h with
  | refl => rfl

theorem Neat.suff {os : Option (List Bytes)} {n : RNode} {l : List RNode} (h : Neat os (n :: l)) : Suff n.rest n.obj.kids := by
  cases h with
  | last _ h => exact h
  | past h _ => rw [h]; exact Suff.nil _
  | child _ h _ => exact h
  | next _ h _ => exact h
  | fresh h => rw [h.1]; exact .refl

theorem Neat.none_fresh {n : RNode} {l : List RNode} (h : Neat none (n :: l)) : Fresh n ∧ l = [] := by
  cases h with
  | fresh h => exact ⟨h, rfl⟩

theorem spine_neat {env : Env} {R : Obj} {us : List RNode} {c : RNode} (h : Spine env R us c) : ∀ {l os'}, Neat (some os') (c :: l) →
    ∃ os, upNames us = some os ∧ Neat (some (os ++ os')) (us.reverse ++ c :: l) := by
  induction h with
  | root _ _ => intro l os' hn; exact ⟨[], rfl, hn⟩
  | @down u us c name _ hst hr ih =>
    intro l os' hn
    obtain ⟨keep, r, sub, h1, h2, h3, _⟩ := hst
    obtain ⟨os, g1, g2⟩ := ih (Neat.next h1 h2 h3 hr hn)
    refine ⟨os ++ [name], ?_, ?_⟩
    · unfold upNames; rw [h1, g1]
    · rw [List.reverse_cons, List.append_assoc, List.append_assoc]
      exact g2

theorem RInv.neat {env : Env} {R : Obj} {a : Nat} {s : REnc} (h : RInv env R false a s) :
    ∃ os, upNames s.up = some os ∧ Neat (some os) (s.up.reverse ++ s.cur :: s.below) := by
  suffices hs : Neat (some []) (s.cur :: s.below) by
    obtain ⟨os, h1, h2⟩ := spine_neat h.spine hs
    rw [List.append_nil] at h2
    exact ⟨os, h1, h2⟩
  have hlast : s.below = [] → Neat (some []) (s.cur :: s.below) := by
    intro hb; rw [hb]; exact .last h.leaf h.suff
  have hso := h.state
  unfold StateOK at hso
  cases hs : s.state <;> rw [hs] at hso <;> simp only at hso
  case init => exact hlast (by rw [hso]; rfl)
  case entry => exact hlast (hso.2.2.2.resolve_right (fun x => by cases x.1))
  case inPayload => exact hlast hso.2.2.2
  case filename =>
    obtain ⟨name, o, lv, b, ⟨keep, r, sub, s1, s2, s3, _⟩, _, _, s4, s5, s6, s7, s8⟩ := hso
    rw [s4]
    exact .child (by rw [s1, s5]) s2 s3 s8 ⟨by rw [s6, s5], s7⟩
  case goodbye =>
    rcases hso.2.2 with x | x
    · exact hlast x
    · exact .past x.2 x.1
  case finalize =>
    rcases hso with x | x
    · exact hlast x
    · exact .past x.2 x.1
  case eof =>
    rcases hso with x | x
    · exact hlast x
    · exact .past x.2 x.1

/-! ### One step on the way -/

/-- The open entries below, after a step. -/
def after : Option (List Bytes) → Bytes → Option (List Bytes)
  | some (m :: r), name => if m = name then some r else none
  | _, _ => none

/-- `seekChild` for a directory.  No repo lines. -/
def seekIn (s : REnc) (name : Bytes) : Res REnc :=
  let s := { s with cur := { s.cur with table := [] } }
  let find : Res REnc := match s.cur.obj.kids.from name with
    | none => .err .ENOENT
    | some r => openCurrent { s with cur := { s.cur with rest := r } }
  match s.cur.rest with
  | .cons _ n _ _ => if n = name then (if s.below ≠ [] then .ok s else openCurrent s) else find
  | .nil => find

theorem seekChild_in {s : REnc} {name : Bytes} (h : s.cur.obj.isDir = true) : seekChild s name = seekIn s name := by
  obtain ⟨st0, up, ⟨co, cr, ce, ct⟩, below, buf, off, pay⟩ := s
  cases co with
  | leaf l => cases h
  | dir e a api own k => rfl

theorem seekChild_ok {env : Env} {s : REnc} {u : RNode} {name : Bytes} {o : Obj} {os : Option (List Bytes)} (hn : Neat os (s.cur :: s.below)) (hr : RulesOK s.cur) (hu : RulesOK u)
    (ho : s.cur.obj = u.obj) (hnm : u.obj.Named) (hs : Stored env u name o) (hd : s.up.length + 1 < 64) :
    ∃ c l, seekChild s name = .ok { s with cur := { u with table := [] }, below := c :: l } ∧ c.obj = o ∧ RulesOK c ∧ Neat (after os name) (c :: l) := by
  obtain ⟨keep, r, sub, h1, h2, h3, h4⟩ := hs
  obtain ⟨st0, up, cur, below, buf, off, pay⟩ := s
  simp only at hn hr ho hd ⊢
  have hkn := Obj.kids_named hnm
  have hrules : cur.rules = u.rules := by rw [hr (by rw [ho]; exact scanned_dir h3), hu (scanned_dir h3)]
  have hcur : ∀ x : Objs, x = u.rest → ({ obj := cur.obj, rules := cur.rules, rest := x, table := [] } : RNode) = { u with table := [] } := by
    intro x hx
    rw [ho, hrules, hx]
  have hfrom : u.obj.kids.from name = some u.rest := by rw [h1] at h2 ⊢; exact h2.from hkn
  have hopen : openCurrent { state := st0, up := up, cur := { u with table := [] }, below := below, buf := buf, archiveOff := off, payloadOff := pay } =
      .ok { state := st0, up := up, cur := { u with table := [] }, below := [opened o []], buf := buf, archiveOff := off, payloadOff := pay } := by
    unfold openCurrent
    simp only
    rw [if_neg (by omega), h1]
  have hnew : ∃ c l, Res.ok { state := st0, up := up, cur := { u with table := [] }, below := [opened o []], buf := buf, archiveOff := off, payloadOff := pay } =
      (Res.ok { state := st0, up := up, cur := { u with table := [] }, below := c :: l, buf := buf, archiveOff := off, payloadOff := pay } : Res REnc) ∧ c.obj = o ∧ RulesOK c ∧ Neat none (c :: l) :=
    ⟨opened o [], [], rfl, rfl, fun _ => rfl, .fresh ⟨rfl, rfl⟩⟩
  -- the current entry has the name, then it is the same as that of `u`
  have hsame : ∀ k' o' r', cur.rest = .cons k' name o' r' → cur.rest = u.rest := by
    intro k' o' r' hc
    have := hn.suff
    rw [hc, ho] at this
    rw [h1] at h2
    rw [hc, h1]
    exact this.unique h2 hkn
  rw [seekChild_in (by show cur.obj.isDir = true; rw [ho]; exact scanned_dir h3)]
  unfold seekIn
  simp only
  have hfrom' : cur.obj.kids.from name = some u.rest := by rw [ho]; exact hfrom
  cases hc : cur.rest with
  | nil =>
    simp only
    rw [hfrom']
    simp only
    rw [hcur _ rfl, hopen]
    have : after os name = none := by
      cases hn with
      | last _ _ => rfl
      | past _ _ => rfl
      | child x _ _ _ _ => rfl
      | next x _ _ _ _ => rw [hc] at x; cases x
      | fresh _ => rfl
    rw [this]
    exact hnew
  | cons k' n' o' r' =>
    simp only
    by_cases hname : n' = name
    · rw [if_pos hname]
      subst hname
      have hsm := hsame _ _ _ hc
      have hrest : Objs.cons k' n' o' r' = u.rest := by rw [← hc]; exact hsm
      have hoo : o' = o := by rw [h1] at hrest; injection hrest
      cases hn with
      | last _ _ =>
        rw [if_neg (by simp), hcur _ hrest, hopen]
        exact hnew
      | past x _ => rw [hc] at x; cases x
      | @child _ c k2 n2 r2 x _ _ q1 q2 =>
        rw [if_pos (by simp), hcur _ hrest]
        rw [hc] at x
        injection x with _ _ x _
        exact ⟨c, [], rfl, by rw [← x, hoo], q1, .fresh q2⟩
      | @next _ c l k2 n2 r2 os2 x _ _ q1 q2 =>
        rw [if_pos (by simp), hcur _ hrest]
        rw [hc] at x
        injection x with _ x1 x _
        refine ⟨c, l, rfl, by rw [← x, hoo], q1, ?_⟩
        show Neat (if n2 = n' then some os2 else none) (c :: l)
        rw [if_pos x1.symm]
        exact q2
      | fresh _ =>
        rw [if_neg (by simp), hcur _ hrest, hopen]
        exact hnew
    · rw [if_neg hname]
      rw [hfrom']
      simp only
      rw [hcur _ rfl, hopen]
      have : after os name = none := by
        cases hn with
        | last _ _ => rfl
        | past _ _ => rfl
        | child x _ _ _ _ => rfl
        | @next _ c l k2 n2 r2 os2 x _ _ _ _ =>
          rw [hc] at x
          injection x with _ x _ _
          show (if n2 = name then some os2 else none) = none
          rw [if_neg (by rw [← x]; exact hname)]
        | fresh _ => rfl
      rw [this]
      exact hnew

/-! ### The way -/

/-- All names, and the last child is entered, too.  No repo lines. -/
def walk (s : REnc) : List Bytes → Res REnc
  | [] => .ok s
  | n :: ns =>
    if n = [] then .err .EINVAL
    else match seekChild s n with
      | .err x => .err x
      | .ub => .ub
      | .ok s =>
        match enterChild s with
        | none => .err .EINVAL
        | some s => walk s ns

def enterLast : Res REnc → Res REnc
  | .ok s => (match enterChild s with | some s => .ok s | none => .err .EINVAL)
  | .err x => .err x
  | .ub => .ub

theorem seekNames_walk : ∀ (ns : List Bytes) (s : REnc), ns ≠ [] → enterLast (seekNames s ns) = walk s ns
  | [], _, h => absurd rfl h
  | [n], s, _ => by
    unfold seekNames walk
    by_cases hn : n = []
    · rw [if_pos hn, if_pos hn]; rfl
    · rw [if_neg hn, if_neg hn]
      cases seekChild s n with
      | err x => rfl
      | ub => rfl
      | ok s => simp only [enterLast, walk]; cases enterChild s <;> rfl
  | n :: m :: ms, s, _ => by
    unfold seekNames walk
    by_cases hn : n = []
    · rw [if_pos hn, if_pos hn]; rfl
    · rw [if_neg hn, if_neg hn]
      cases seekChild s n with
      | err x => rfl
      | ub => rfl
      | ok s =>
        simp only
        cases enterChild s with
        | none => rfl
        | some s => exact seekNames_walk (m :: ms) s (by simp)

theorem seekNames_last : ∀ (ns : List Bytes) (m : Bytes) (s s' : REnc), walk s ns = .ok s' → m ≠ [] → seekNames s (ns ++ [m]) = seekChild s' m
  | [], m, s, s', h, hm => by
    unfold walk at h
    injection h with h
    subst h
    show seekNames s [m] = _
    unfold seekNames
    rw [if_neg hm]
    cases seekChild s m <;> rfl
  | n :: ns, m, s, s', h, hm => by
    unfold walk at h
    by_cases hn : n = []
    · rw [if_pos hn] at h; cases h
    · rw [if_neg hn] at h
      cases hc : seekChild s n with
      | err x => rw [hc] at h; cases h
      | ub => rw [hc] at h; cases h
      | ok s1 =>
        rw [hc] at h
        simp only at h
        cases he : enterChild s1 with
        | none => rw [he] at h; cases h
        | some s2 =>
          rw [he] at h
          simp only at h
          have ih := seekNames_last ns m s2 s' h hm
          rw [List.cons_append]
          unfold seekNames
          rw [if_neg hn, hc]
          simp only
          cases hl : ns ++ [m] with
          | nil => simp at hl
          | cons x xs =>
            simp only
            rw [he]
            simp only
            rw [← hl]
            exact ih

theorem walk_snoc : ∀ (ns : List Bytes) (m : Bytes) (s s' : REnc), walk s ns = .ok s' → walk s (ns ++ [m]) = walk s' [m]
  | [], m, s, s', h => by unfold walk at h; injection h with h; subst h; rfl
  | n :: ns, m, s, s', h => by
    rw [List.cons_append]
    unfold walk at h
    rw [show walk s (n :: (ns ++ [m])) = if n = [] then .err .EINVAL else match seekChild s n with
      | .err x => .err x
      | .ub => .ub
      | .ok s => match enterChild s with | none => .err .EINVAL | some s => walk s (ns ++ [m]) from rfl]
    by_cases hn : n = []
    · rw [if_pos hn] at h; cases h
    · rw [if_neg hn] at h ⊢
      cases hc : seekChild s n with
      | err x => rw [hc] at h; cases h
      | ub => rw [hc] at h; cases h
      | ok s1 =>
        rw [hc] at h
        simp only at h ⊢
        cases he : enterChild s1 with
        | none => rw [he] at h; cases h
        | some s2 =>
          rw [he] at h
          exact walk_snoc ns m s2 s' h

def blank (n : RNode) : RNode := { n with table := [] }

def afterAll (os : Option (List Bytes)) (ns : List Bytes) : Option (List Bytes) := ns.foldl after os

theorem afterAll_some : ∀ (ns : List Bytes) (os : Option (List Bytes)) (r : List Bytes), afterAll os ns = some r → os = some (ns ++ r)
  | [], os, r, h => h
  | n :: ns, os, r, h => by
    have := afterAll_some ns (after os n) r h
    unfold after at this
    split at this
    · rename_i m r' 
      split at this
      · rename_i hm
        injection this with this
        rw [this, hm]; rfl
      · cases this
    · cases this

theorem walk_ok {env : Env} {R : Obj} {us : List RNode} {c : RNode} (h : Spine env R us c) (hn : R.Named) (hd : us.length < 64) {s : REnc} {os : Option (List Bytes)}
    (hup : s.up = []) (h1 : s.cur.obj = R) (h2 : s.cur.rules = []) (hne : Neat os (s.cur :: s.below)) :
    ∃ ns c' l, upNames us = some ns ∧ (∀ n ∈ ns, SafeName n) ∧ walk s ns = .ok { s with up := us.map blank, cur := c', below := l } ∧ c'.obj = c.obj ∧ RulesOK c' ∧ (us = [] → c'.rules = []) ∧
      Neat (afterAll os ns) (c' :: l) := by
  induction h with
  | root a b =>
    refine ⟨[], s.cur, s.below, rfl, by simp, ?_, by rw [h1, a], fun _ => h2, fun _ => h2, hne⟩
    unfold walk
    rw [List.map_nil, ← hup]
  | @down u us c name hsp hst hr ih =>
    rw [List.length_cons] at hd
    obtain ⟨ns, c', l, g1, g0, g2, g3, g4, g5, g6⟩ := ih (by omega)
    have hnu : u.obj.Named := by
      clear ih hst hd g1 g0 g2 g3 g4 g5 g6
      induction hsp with
      | root a _ => rw [a]; exact hn
      | down _ hs _ ih => exact (hs.named ih).2
    have hsafe := (hst.named hnu).1
    obtain ⟨cc, ll, k1, k2, k3, k4⟩ := seekChild_ok (env := env) (s := { s with up := us.map blank, cur := c', below := l }) (u := u) (name := name) (o := c.obj) g6 g4
      hsp.rulesOK g3 hnu hst (by simp only [List.length_map]; omega)
    refine ⟨ns ++ [name], cc, ll, ?_, ?_, ?_, k2, k3, by simp, ?_⟩
    · obtain ⟨keep, r, sub, q1, _⟩ := hst
      unfold upNames; rw [q1, g1]
    · intro n hmem
      rw [List.mem_append, List.mem_singleton] at hmem
      rcases hmem with hmem | hmem
      · exact g0 n hmem
      · rw [hmem]; exact hsafe
    · rw [walk_snoc ns name s _ g2]
      unfold walk
      rw [if_neg hsafe.nonempty, k1]
      simp only [enterChild, walk, List.map_cons, blank]
    · unfold afterAll; rw [List.foldl_append]; exact k4

/-! ### Depth -/

theorem Suff.height {env : Env} {rules : Match.Rules} {l m : Objs} (h : Suff l m) : (viewKids env rules l).height ≤ (viewKids env rules m).height := by
  induction h with
  | refl => exact Nat.le_refl _
  | @skip k n o l r _ ih =>
    refine Nat.le_trans ih ?_
    rw [viewKids]
    split
    · exact Nat.le_trans (Nat.le_max_right _ _) (Nat.le_of_eq (Kids.height.eq_2 _ _ _).symm)
    · exact Nat.le_trans (Nat.le_max_right _ _) (Nat.le_of_eq (Kids.height.eq_3 _ _ _).symm)

theorem Spine.depth {env : Env} {R : Obj} {us : List RNode} {c : RNode} (h : Spine env R us c) (hn : R.Named) (hl : R.Local env) :
    us.length + (view env c.rules c.obj).height ≤ (view env [] R).height := by
  induction h with
  | root a b => rw [a, b, List.length_nil, Nat.zero_add]; exact Nat.le_refl _
  | @down u us c name hsp hst hr ih =>
    obtain ⟨k, h1, _⟩ := hst.kids hsp.rulesOK (hsp.subobj hn hl).2
    obtain ⟨keep, r, sub, q1, q2, q3, _⟩ := hst
    have h3 := q2.height (env := env) (rules := Match.merge u.rules u.obj.own)
    rw [h1] at h3
    have h4 : (view env c.rules c.obj) = view env [] c.obj := view_leaf hr
    have h5 : (view env u.rules u.obj).height = 1 + (viewKids env (Match.merge u.rules u.obj.own) u.obj.kids).height := by
      cases ho : u.obj with
      | leaf l => rw [ho] at q3; cases q3
      | dir e a api own kk => unfold view Tree.height; rfl
    rw [h4, List.length_cons]
    rw [Kids.height] at h3
    omega

theorem Tree.height_pos (t : Tree) : 1 ≤ t.height := by
  cases t <;> (unfold Tree.height; omega)

end Casync.Resume
