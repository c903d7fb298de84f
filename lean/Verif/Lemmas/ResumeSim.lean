import Verif.Spec.Resume
import Verif.Lemmas.EncoderRun
/-!
An encoder that has not lost anything by a seek is one of `Model/Encoder.lean`.
-/
namespace Casync.Resume
open Casync Archive

/-- A directory whose entries are read. -/
def Obj.scanned : Obj → Bool
  | .dir _ _ false _ _ => true
  | _ => false

/-- `l` is a tail of `m`. -/
inductive Suff : Objs → Objs → Prop
  | refl {l} : Suff l l
  | skip {k n o l r} : Suff l r → Suff l (.cons k n o r)

theorem Suff.tail {k : Bool} {n : Bytes} {o : Obj} {r m : Objs} (h : Suff (.cons k n o r) m) : Suff r m := by
  generalize hl : Objs.cons k n o r = l at h
  induction h with
  | refl => subst hl; exact .skip .refl
  | skip _ ih => exact .skip (ih hl)

theorem Suff.trans {a b c : Objs} (h : Suff a b) (g : Suff b c) : Suff a c := by
  induction g with
  | refl => exact h
  | skip _ ih => exact .skip (ih h)

theorem Suff.nil : ∀ m : Objs, Suff .nil m
  | .nil => .refl
  | .cons _ _ _ r => .skip (Suff.nil r)

/-- A directory has no inherited rules. -/
def RulesOK (n : RNode) : Prop := n.obj.isDir = true → n.rules = []

/-- The current entry of the node is `name`, the object `o`, and it is to be stored. -/
def Stored (env : Env) (u : RNode) (name : Bytes) (o : Obj) : Prop :=
  ∃ keep r sub, u.rest = .cons keep name o r ∧ Suff u.rest u.obj.kids ∧ u.obj.scanned = true ∧
    verdict env (Match.merge u.rules u.obj.own) keep name o.isDir = .ok (some sub)

/-- The nodes above `n`, up to the root. -/
inductive Spine (env : Env) (R : Obj) : List RNode → RNode → Prop
  | root {n} : n.obj = R → n.rules = [] → Spine env R [] n
  | down {u us c name} : Spine env R us u → Stored env u name c.obj → RulesOK c → Spine env R (u :: us) c

def parentTable : List RNode → NameTable.Chain
  | [] => []
  | p :: _ => p.table

/-- The last item is not complete. -/
def OpenLast (a : Nat) (l : List NameTable.Item) : Prop := ∃ pre i, l = pre ++ [i] ∧ i.end = u64max ∧ i.start ≤ a

inductive Tabs (a : Nat) : List RNode → Prop
  | nil : Tabs a []
  | cons {u us lv} : u.table = lv :: parentTable us → OpenLast a lv.items → Tabs a us → Tabs a (u :: us)

def isFile : Obj → Bool
  | .leaf (.file ..) => true
  | _ => false

/-- What holds in each state; `st` says that the encoder was just moved to the start of an object. -/
def StateOK (env : Env) (R : Obj) (st : Bool) (a : Nat) (s : REnc) : Prop :=
  match s.state with
  | .init => s = rStart R
  | .entry => s.cur.rest = s.cur.obj.kids ∧
      (s.cur.obj.isDir = true → s.payloadOff ≤ a ∧ s.cur.table = ⟨a - s.payloadOff, []⟩ :: parentTable s.up) ∧
      (s.cur.obj.isDir = false → s.cur.table = []) ∧ (s.below = [] ∨ (st = true ∧ s.cur.obj.scanned = true))
  | .inPayload => isFile s.cur.obj = true ∧ s.cur.rest = .nil ∧ s.cur.table = [] ∧ s.below = []
  | .filename => ∃ name o lv b, Stored env s.cur name o ∧ s.cur.table = lv :: parentTable s.up ∧ OpenLast a lv.items ∧
      s.below = [b] ∧ b.obj = o ∧ b.rest = o.kids ∧ b.table = [] ∧ RulesOK b
  | .goodbye => s.cur.obj.isDir = true ∧ (∃ lv, s.cur.table = lv :: parentTable s.up) ∧ (s.below = [] ∨ (s.cur.obj.scanned = true ∧ s.cur.rest = .nil))
  | .finalize => s.below = [] ∨ (s.cur.obj.scanned = true ∧ s.cur.rest = .nil)
  | .eof => s.below = [] ∨ (s.cur.obj.scanned = true ∧ s.cur.rest = .nil)
  | _ => False

structure RInv (env : Env) (R : Obj) (st : Bool) (a : Nat) (s : REnc) : Prop where
  spine : Spine env R s.up s.cur
  off : s.archiveOff = some a
  tabs : Tabs a s.up
  suff : Suff s.cur.rest s.cur.obj.kids
  leaf : s.cur.obj.isDir = false → s.cur.table = []
  pay : s.payloadOff ≤ a
  state : StateOK env R st a s

/-! ### The encoder without seeks -/

def entryOf : NameTable.Chain → Nat
  | [] => 0
  | l :: _ => l.entryOffset

def itemsOf : NameTable.Chain → List Goodbye.NameItem
  | [] => []
  | l :: _ => toItems l.items

def toENode (env : Env) (n : RNode) : ENode :=
  { tree := view env n.rules n.obj, kids := viewKids env (Match.merge n.rules n.obj.own) n.rest, items := itemsOf n.table, entryOff := entryOf n.table }

def toEnc (env : Env) (s : REnc) : Enc :=
  { state := s.state, nodes := (s.cur :: s.up).map (toENode env), buf := s.buf, archiveOff := s.archiveOff.getD 0, payloadOff := s.payloadOff }

theorem toENode_opened (env : Env) (o : Obj) (r : Match.Rules) : toENode env (opened o r) = freshNode (view env r o) := by
  cases o with
  | leaf l => cases l <;> rfl
  | dir e a api own k => rfl

theorem Spine.rulesOK {env : Env} {R : Obj} {us : List RNode} {n : RNode} (h : Spine env R us n) : RulesOK n := by
  cases h with
  | root _ h => exact fun _ => h
  | down _ _ h => exact h

theorem Spine.congr {env : Env} {R : Obj} {us : List RNode} {n n' : RNode} (h : Spine env R us n) (h1 : n'.obj = n.obj) (h2 : n'.rules = n.rules) : Spine env R us n' := by
  cases h with
  | root a b => exact .root (h1.trans a) (h2.trans b)
  | down a b c => exact .down a (h1 ▸ b) (by unfold RulesOK; rw [h1, h2]; exact c)

theorem Suff.named {l m : Objs} (h : Suff l m) (hn : m.Named) : l.Named := by
  induction h with
  | refl => exact hn
  | skip _ ih => unfold Objs.Named at hn; exact ih hn.2.2.2

theorem Suff.local {env : Env} {own : Match.Rules} {l m : Objs} (h : Suff l m) (hn : m.Local env own) : l.Local env own := by
  induction h with
  | refl => exact hn
  | skip _ ih => unfold Objs.Local at hn; exact ih hn.2.2

theorem Obj.kids_named {o : Obj} (h : o.Named) : o.kids.Named := by
  cases o with
  | leaf l => unfold Obj.kids Objs.Named; trivial
  | dir e a api own k => unfold Obj.Named at h; exact h

theorem Obj.kids_local {env : Env} {o : Obj} (h : o.Local env) : o.kids.Local env o.own := by
  cases o with
  | leaf l => unfold Obj.kids Objs.Local; trivial
  | dir e a api own k => unfold Obj.Local at h; exact h

theorem scanned_dir {o : Obj} (h : o.scanned = true) : o.isDir = true := by
  unfold Obj.scanned at h
  split at h
  · rfl
  · cases h

theorem no_leaf {o : Obj} {p : Prop} (h : o.scanned = true) : o.isDir = false → p := by
  intro h'; rw [scanned_dir h] at h'; cases h'

theorem Stored.named {env : Env} {u : RNode} {name : Bytes} {o : Obj} (h : Stored env u name o) (hn : u.obj.Named) : SafeName name ∧ o.Named := by
  obtain ⟨keep, r, sub, h1, h2, _⟩ := h
  have := h2.named (Obj.kids_named hn)
  rw [h1, Objs.Named] at this
  exact ⟨this.1, this.2.2.1⟩

theorem Stored.local {env : Env} {u : RNode} {name : Bytes} {o : Obj} (h : Stored env u name o) (hn : u.obj.Local env) : o.Local env := by
  obtain ⟨keep, r, sub, h1, h2, _⟩ := h
  have := h2.local (Obj.kids_local hn)
  rw [h1, Objs.Local] at this
  exact this.2.1

theorem Spine.subobj {env : Env} {R : Obj} {us : List RNode} {n : RNode} (h : Spine env R us n) (h1 : R.Named) (h2 : R.Local env) : n.obj.Named ∧ n.obj.Local env := by
  induction h with
  | root h _ => rw [h]; exact ⟨h1, h2⟩
  | down _ hs _ ih => exact ⟨(hs.named ih.1).2, hs.local ih.2⟩

theorem verdict_sub {env : Env} {rules sub : Match.Rules} {keep : Bool} {name : Bytes} {d : Bool} (h : verdict env rules keep name d = .ok (some sub)) :
    Match.test env.qsortRules env.fnm rules name d = .ok (false, sub) := by
  unfold verdict at h
  cases keep with
  | false => simp at h
  | true =>
    simp only [Bool.not_true, Bool.false_eq_true, if_false] at h
    generalize Match.test env.qsortRules env.fnm rules name d = z at h
    cases z with
    | ok p =>
      obtain ⟨b, p⟩ := p
      cases b with
      | true => simp at h
      | false =>
        simp only [Match.merge, List.nil_append] at h
        injection h with h; injection h with h; rw [h]
    | err x => simp at h
    | ub => simp at h

/-- What a stored entry inherits plays no role. -/
theorem view_sub {env : Env} {u : RNode} {name : Bytes} {o : Obj} {keep : Bool} {r : Objs} {sub : Match.Rules} (hu : RulesOK u) (hl : u.obj.Local env)
    (h1 : u.rest = .cons keep name o r) (h2 : Suff u.rest u.obj.kids) (h3 : u.obj.scanned = true)
    (h4 : verdict env (Match.merge u.rules u.obj.own) keep name o.isDir = .ok (some sub)) : o.isDir = true → sub = [] := by
  intro hd
  have hr := hu (scanned_dir h3)
  have := h2.local (Obj.kids_local hl)
  rw [h1, Objs.Local] at this
  rw [hr, Match.merge, List.nil_append, hd] at h4
  exact this.1 hd sub (verdict_sub h4)

theorem view_leaf {env : Env} {o : Obj} {r r' : Match.Rules} (h : o.isDir = true → r = r') : view env r o = view env r' o := by
  cases o with
  | leaf l => unfold view; rfl
  | dir e a api own k => rw [h rfl]

theorem Stored.kids {env : Env} {u : RNode} {name : Bytes} {o : Obj} (h : Stored env u name o) (hu : RulesOK u) (hl : u.obj.Local env) :
    ∃ k, viewKids env (Match.merge u.rules u.obj.own) u.rest = .cons true name (view env [] o) k ∧
      viewKids env (Match.merge u.rules u.obj.own) u.rest.tail = k := by
  obtain ⟨keep, r, sub, h1, h2, h3, h4⟩ := h
  have hs := view_sub hu hl h1 h2 h3 h4
  refine ⟨viewKids env (Match.merge u.rules u.obj.own) r, ?_, by rw [h1]; rfl⟩
  rw [h1, viewKids, h4]
  simp only
  rw [view_leaf hs]

/-! ### Steps -/

theorem Tabs.mono {a b : Nat} {l : List RNode} (h : Tabs a l) (hab : a ≤ b) : Tabs b l := by
  induction h with
  | nil => exact .nil
  | cons h1 h2 _ ih =>
    obtain ⟨p, i, e1, e2, e3⟩ := h2
    exact .cons h1 ⟨p, i, e1, e2, by omega⟩ ih

theorem toEnc_enter (env : Env) (s : REnc) (st : EState) : toEnc env (enter s st) = eEnter (toEnc env s) st := rfl

theorem toEnc_advance {env : Env} {s : REnc} {a : Nat} (h : s.archiveOff = some a) : toEnc env (advance s) = eAdvance (toEnc env s) := by
  obtain ⟨st, up, cur, below, buf, off, pay⟩ := s
  simp only at h
  subst h
  rfl

theorem RInv.advance {env : Env} {R : Obj} {st : Bool} {a : Nat} {s : REnc} (h : RInv env R st a s) : RInv env R st (a + s.buf.length) (advance s) := by
  refine ⟨h.spine, by unfold Resume.advance; rw [h.off]; rfl, h.tabs.mono (by omega), h.suff, h.leaf, Nat.add_le_add_right h.pay _, ?_⟩
  have hs := h.state
  unfold StateOK at hs ⊢
  have e1 : (Resume.advance s).state = s.state := rfl
  rw [e1]
  cases hst : s.state <;> rw [hst] at hs <;> simp only at hs ⊢
  case init =>
    rw [hs]; rfl
  case entry =>
    refine ⟨hs.1, fun hd => ?_, hs.2.2.1, hs.2.2.2⟩
    obtain ⟨p, t⟩ := hs.2.1 hd
    refine ⟨Nat.add_le_add_right p _, ?_⟩
    show s.cur.table = ⟨a + s.buf.length - (s.payloadOff + s.buf.length), []⟩ :: parentTable s.up
    rw [t, Nat.add_sub_add_right]
  case inPayload => exact hs
  case filename =>
    obtain ⟨name, o, lv, b, h1, h2, ⟨p, i, e1, e2, e3⟩, h4⟩ := hs
    exact ⟨name, o, lv, b, h1, h2, ⟨p, i, e1, e2, by omega⟩, h4⟩
  case goodbye => exact hs
  case finalize => exact hs
  case eof => exact hs

theorem verdict_ok {env : Env} {rules : Match.Rules} {keep : Bool} {name : Bytes} {d : Bool} (h : SafeName name) : ∃ v, verdict env rules keep name d = .ok v := by
  unfold verdict
  cases keep with
  | false => exact ⟨_, rfl⟩
  | true =>
    simp only [Bool.not_true, Bool.false_eq_true, if_false]
    unfold Match.test
    rw [if_neg (by intro h'; rcases h' with h' | h' | h'; exact h.nonempty h'; exact h.notDot h'; exact h.notDotDot h')]
    simp only
    generalize (!rules.any (Match.hits env.fnm name d .negative) && rules.any (Match.hits env.fnm name d .positive)) = z
    cases z with
    | true => exact ⟨_, rfl⟩
    | false => exact ⟨_, rfl⟩

theorem scan_view {env : Env} {rules : Match.Rules} : ∀ (l : Objs) (last : Obj), l.Named →
    (∃ x, scan env rules l last = .ok (.inl x) ∧ skipKids (viewKids env rules l) = .nil) ∨
    (∃ sub k n o r, scan env rules l last = .ok (.inr (sub, k, n, o, r)) ∧ skipKids (viewKids env rules l) = .cons true n (view env sub o) (viewKids env rules r) ∧
      Suff (.cons k n o r) l ∧ verdict env rules k n o.isDir = .ok (some sub))
  | .nil, last, _ => .inl ⟨last, rfl, rfl⟩
  | .cons k n o r, last, h => by
    rw [Objs.Named] at h
    obtain ⟨v, hv⟩ := verdict_ok (env := env) (rules := rules) (keep := k) (d := o.isDir) h.1
    rw [scan, viewKids, hv]
    cases v with
    | none =>
      simp only [skipKids]
      rcases scan_view r o h.2.2.2 with h' | ⟨sub, k', n', o', r', h1, h2, h3, h4⟩
      · exact .inl h'
      · exact .inr ⟨sub, k', n', o', r', h1, h2, .skip h3, h4⟩
    | some sub =>
      simp only [skipKids]
      exact .inr ⟨sub, k, n, o, r, rfl, rfl, .refl, hv⟩

/-- The last item is complete. -/
def LastClosed (l : List NameTable.Item) : Prop := ∀ i, l.getLast? = some i → i.end ≠ u64max

theorem toItems_append (l m : List NameTable.Item) : toItems (l ++ m) = toItems l ++ toItems m := by
  unfold toItems; exact List.map_append

theorem dirents_sim {env : Env} {R : Obj} {s : REnc} {a : Nat} {lv : NameTable.Level} {e e' : Enc} {ev : EEv} {n : ENode} {rest : List ENode}
    (hsp : Spine env R s.up s.cur) (hn : R.Named) (hl : R.Local env) (hoff : s.archiveOff = some a) (htab : Tabs a s.up) (hsc : s.cur.obj.scanned = true)
    (hsuf : Suff s.cur.rest s.cur.obj.kids) (ht : s.cur.table = lv :: parentTable s.up) (hc : LastClosed lv.items)
    (he1 : e.buf = s.buf) (he2 : e.archiveOff = a) (he3 : e.nodes.length = s.up.length + 1) (hne : n = toENode env s.cur) (hre : rest = s.up.map (toENode env))
    (h : Archive.stepDirents e n rest = (e', .ok ev)) :
    ∃ s', Resume.stepDirents env s = (s', .ok ev) ∧ toEnc env s' = e' ∧ RInv env R false a s' := by
  have hobj := hsp.subobj hn hl
  have hru := hsp.rulesOK
  obtain ⟨st0, up, cur, below, buf, off, pay⟩ := s
  obtain ⟨est, ens, eb, ea, ep⟩ := e
  simp only at *
  subst hoff he1 he2 hne hre
  unfold Archive.stepDirents at h
  unfold Resume.stepDirents
  have hkid : (toENode env cur).kids = viewKids env (Match.merge cur.rules cur.obj.own) cur.rest := rfl
  cases hr : cur.rest with
  | nil =>
    rw [hkid, hr, viewKids] at h
    simp only at h
    injection h with h1 h2
    simp only
    refine ⟨_, Prod.ext rfl h2, ?_, ?_, rfl, htab, ?_, no_leaf hsc, Nat.zero_le _, ?_⟩
    · rw [← h1]; rfl
    · exact hsp
    · exact hsuf
    · exact ⟨scanned_dir hsc, ⟨lv, ht⟩, .inr ⟨hsc, hr⟩⟩
  | cons k nm o r =>
    have hk2 : ∃ k2 n2 t2 r2, viewKids env (Match.merge cur.rules cur.obj.own) cur.rest = .cons k2 n2 t2 r2 := by
      rw [hr, viewKids]
      split <;> exact ⟨_, _, _, _, rfl⟩
    obtain ⟨k2, n2, t2, r2, hk2⟩ := hk2
    rw [hkid, hk2] at h
    simp only at h
    rw [he3] at h
    by_cases hd : up.length + 1 ≥ 64
    · rw [if_pos hd] at h; cases h
    · rw [if_neg hd] at h
      simp only
      rw [if_neg hd]
      have hnm := hsuf.named (Obj.kids_named hobj.1)
      rw [← hk2] at h
      rcases scan_view (env := env) (rules := Match.merge cur.rules cur.obj.own) cur.rest o hnm with ⟨x, h1, h2⟩ | ⟨sub, k', n', o', r', h1, h2, h3, h4⟩
      · rw [h2] at h
        rw [hr] at h1
        rw [h1]
        simp only at h ⊢
        injection h with g1 g2
        refine ⟨_, Prod.ext rfl g2, ?_, ?_, rfl, htab, Suff.nil _, no_leaf hsc, Nat.zero_le _, ?_⟩
        · rw [← g1]; rfl
        · exact hsp.congr rfl rfl
        · exact ⟨scanned_dir hsc, ⟨lv, ht⟩, .inr ⟨hsc, rfl⟩⟩
      · rw [h2] at h
        rw [hr] at h1
        rw [h1]
        simp only at h ⊢
        injection h with g1 g2
        have hadd : addTable cur.table n' (some ea) = .ok ({ lv with items := lv.items ++ [⟨nameHash n', ea, u64max⟩] } :: parentTable up) := by
          rw [ht]
          unfold addTable
          simp only
          rw [if_neg]
          intro hh
          cases hg : lv.items.getLast? with
          | none => rw [hg] at hh; simp at hh
          | some i => rw [hg] at hh; simp only [decide_eq_true_eq] at hh; exact hc i hg hh
        rw [hadd]
        simp only
        refine ⟨_, Prod.ext rfl g2, ?_, ?_, rfl, htab, h3.trans hsuf, no_leaf hsc, Nat.zero_le _, ?_⟩
        · rw [← g1]
          have hvs : view env sub o' = view env [] o' :=
            view_leaf (view_sub (u := { cur with rest := .cons k' n' o' r' }) hru hobj.2 rfl (h3.trans hsuf) hsc h4)
          simp only [toEnc, enter, eEnter, setTop, List.map_cons, toENode, itemsOf, entryOf, ht, Option.getD_some, toItems_append, addItem, viewKids, h4]
          rfl
        · exact hsp.congr rfl rfl
        · refine ⟨n', o', _, opened o' sub, ⟨k', r', sub, rfl, h3.trans hsuf, hsc, h4⟩, rfl, ⟨lv.items, _, rfl, rfl, Nat.le_refl _⟩, rfl, rfl, rfl, rfl, ?_⟩
          exact view_sub (u := { cur with rest := .cons k' n' o' r' }) hru hobj.2 rfl (h3.trans hsuf) hsc h4

theorem closeItem_last (off : Nat) (pre : List NameTable.Item) (i : NameTable.Item) :
    closeItem off (toItems (pre ++ [i])) = toItems (pre ++ [{ i with «end» := off }]) := by
  rw [toItems_append, toItems_append]
  exact closeItem_append off _ _

theorem closeTable_ok {a : Nat} {lv : NameTable.Level} {ts : NameTable.Chain} (h : OpenLast a lv.items) (ha : a < u64max) :
    ∃ lv', closeTable (lv :: ts) (some a) = .ok (lv' :: ts) ∧ lv'.entryOffset = lv.entryOffset ∧ toItems lv'.items = closeItem a (toItems lv.items) ∧ LastClosed lv'.items := by
  obtain ⟨pre, i, h1, h2, h3⟩ := h
  refine ⟨{ lv with items := pre ++ [{ i with «end» := a }] }, ?_, rfl, ?_, ?_⟩
  · unfold closeTable
    simp only [h1, List.getLast?_append, List.getLast?_singleton, Option.some_or, List.dropLast_concat]
    rw [if_neg (by omega)]
  · simp only
    rw [h1, closeItem_last]
  · intro j hj
    simp only [List.getLast?_append, List.getLast?_singleton, Option.some_or, Option.some.injEq] at hj
    subst hj
    simp only
    omega

/-- From the end of an entry to the next one. -/
theorem next_sim {env : Env} {R : Obj} {s : REnc} {a : Nat} {lv : NameTable.Level} {e e' : Enc} {ev : EEv} {name : Bytes} {o : Obj}
    (hsp : Spine env R s.up s.cur) (hn : R.Named) (hl : R.Local env) (hoff : s.archiveOff = some a) (htab : Tabs a s.up) (ha : a < u64max)
    (hst : Stored env s.cur name o) (ht : s.cur.table = lv :: parentTable s.up) (hc : OpenLast a lv.items)
    (he1 : e.buf = s.buf) (he2 : e.archiveOff = a) (he3 : e.nodes.length = s.up.length + 1)
    (h : Archive.stepDirents e { toENode env s.cur with items := closeItem a (toENode env s.cur).items, kids := (toENode env s.cur).kids.tail } (s.up.map (toENode env)) = (e', .ok ev)) :
    ∃ s', stepNextDirent env s = (s', .ok ev) ∧ toEnc env s' = e' ∧ RInv env R false a s' := by
  obtain ⟨lv', c1, c2, c3, c4⟩ := closeTable_ok (ts := parentTable s.up) hc ha
  unfold stepNextDirent
  rw [ht, hoff, c1]
  simp only
  obtain ⟨k, hk1, hk2⟩ := hst.kids hsp.rulesOK (hsp.subobj hn hl).2
  obtain ⟨keep, r, sub, g1, g2, g3, g4⟩ := hst
  refine dirents_sim (e := e) (R := R) (lv := lv') (rest := s.up.map (toENode env))
    (n := { toENode env s.cur with items := closeItem a (toENode env s.cur).items, kids := (toENode env s.cur).kids.tail })
    (hsp.congr rfl rfl) hn hl rfl htab g3 ?_ rfl c4 he1 he2 he3 ?_ rfl h
  · show Suff s.cur.rest.tail s.cur.obj.kids
    rw [g1] at g2 ⊢
    exact g2.tail
  · show _ = toENode env { s.cur with table := lv' :: parentTable s.up, rest := s.cur.rest.tail }
    unfold toENode
    simp only [itemsOf, entryOf, ht, c2, c3]
    rw [hk1, hk2]
    rfl

theorem entered_sim {env : Env} {R : Obj} {s : REnc} {a : Nat} (hsp : Spine env R s.up s.cur) (hoff : s.archiveOff = some a) (htab : Tabs a s.up)
    (ht : s.cur.table = []) (hr : s.cur.rest = s.cur.obj.kids) (hb : s.below = []) :
    ∃ s', Resume.stepEntered s = (s', .ok .nextFile) ∧ Archive.stepEntered (toEnc env s) = (toEnc env s', .ok .nextFile) ∧ RInv env R false a s' := by
  obtain ⟨st0, up, cur, below, buf, off, pay⟩ := s
  simp only at hsp hoff htab ht hr hb
  subst hoff hb
  have hi : ∃ t, initTable ⟨st0, up, cur, [], buf, some a, pay⟩ 0 = .ok t ∧ (cur.obj.isDir = true → t = ⟨a, []⟩ :: parentTable up) ∧ (cur.obj.isDir = false → t = []) := by
    unfold initTable
    simp only
    rw [if_neg (by rw [ht]; simp)]
    cases hd : cur.obj.isDir with
    | false => exact ⟨[], rfl, by simp, fun _ => rfl⟩
    | true =>
      rw [if_neg (by simp), if_neg (by omega)]
      cases htab with
      | nil => exact ⟨_, rfl, fun _ => rfl, by simp⟩
      | cons t1 t2 t3 =>
        simp only
        rw [if_neg (by rw [t1]; simp)]
        exact ⟨_, rfl, fun _ => rfl, by simp⟩
  obtain ⟨t, h1, h2, h3⟩ := hi
  refine ⟨{ state := .entry, up := up, cur := { cur with table := t }, below := [], buf := buf, archiveOff := some a, payloadOff := 0 }, ?_, ?_,
    hsp.congr (n' := { cur with table := t }) rfl rfl, ?_, htab, ?_, h3, Nat.zero_le _, ?_⟩
  · unfold Resume.stepEntered; rw [h1]; rfl
  · unfold Archive.stepEntered
    simp only [toEnc, List.map_cons, setTop, eEnter]
    have : enteredNode (toENode env cur) a = toENode env { cur with table := t } := by
      clear h1 hsp hr
      obtain ⟨co, cr, cre, ct⟩ := cur
      simp only at ht h2 h3
      subst ht
      cases co with
      | leaf l =>
        rw [h3 rfl]
        cases l <;> rfl
      | dir e' a' api own k =>
        rw [h2 rfl]
        rfl
    simp only [Option.getD_some, this]
  · rfl
  · show Suff cur.rest cur.obj.kids
    rw [hr]; exact .refl
  · exact ⟨hr, fun hd => ⟨Nat.zero_le _, h2 hd⟩, h3, .inl rfl⟩

theorem naked_sim {env : Env} {s : REnc} (h : s.below = [] ∨ isFile s.cur.obj = false) : naked s = eNaked (toEnc env s) := by
  obtain ⟨st0, up, cur, below, buf, off, pay⟩ := s
  unfold naked eNaked toEnc
  simp only at h ⊢
  cases up with
  | cons u us => rfl
  | nil =>
    rcases h with h | h
    · subst h
      cases ho : cur.obj with
      | leaf l => cases l <;> simp [toENode, ho, view, Leaf.tree]
      | dir e a api own k => simp [toENode, ho, view]
    · cases ho : cur.obj with
      | leaf l =>
        rw [ho] at h
        cases l <;> simp [toENode, ho, view, Leaf.tree, isFile] at h ⊢
      | dir e a api own k => simp [toENode, ho, view]

theorem payload_sim {env : Env} {R : Obj} {st : Bool} {s : REnc} {a : Nat} {e' : Enc} {ev : EEv} (hsp : Spine env R s.up s.cur) (hoff : s.archiveOff = some a) (htab : Tabs a s.up)
    (hs : s.state = .inPayload)
    (hpy : s.payloadOff ≤ a) (hf : isFile s.cur.obj = true) (ht : s.cur.table = []) (hr : s.cur.rest = .nil) (hb : s.below = [])
    (h : stepEPayload (toEnc env s) = (e', .ok ev)) :
    ∃ s', stepPayload s = (s', .ok ev) ∧ toEnc env s' = e' ∧ RInv env R st a s' := by
  have hnk := naked_sim (env := env) (s := s) (.inl hb)
  have hsu : Suff s.cur.rest s.cur.obj.kids := by rw [hr]; exact Suff.nil _
  unfold stepEPayload at h
  unfold stepPayload
  cases ho : s.cur.obj with
  | dir _ _ _ _ _ => rw [ho] at hf; cases hf
  | leaf l =>
    cases l with
    | symlink _ _ _ => rw [ho] at hf; cases hf
    | device _ _ _ _ => rw [ho] at hf; cases hf
    | special _ _ => rw [ho] at hf; cases hf
    | file e0 a0 api c =>
      have hn : (toEnc env s).nodes = toENode env s.cur :: s.up.map (toENode env) := rfl
      have htr : (toENode env s.cur).tree = .file e0 a0 api c := by simp [toENode, ho, view, Leaf.tree]
      rw [hn] at h
      simp only [htr] at h
      have hpo : (toEnc env s).payloadOff = s.payloadOff := rfl
      rw [hpo, ← hnk] at h
      simp only
      by_cases hp : s.payloadOff ≥ c.length
      · rw [if_pos hp] at h ⊢
        cases hnn : naked s with
        | true =>
          rw [hnn] at h
          simp only [if_true] at h ⊢
          injection h with h1 h2
          exact ⟨_, Prod.ext rfl h2, h1, hsp, hoff, htab, hsu, fun _ => ht, Nat.zero_le _, .inl hb⟩
        | false =>
          rw [hnn] at h
          simp only [Bool.false_eq_true, if_false] at h ⊢
          injection h with h1 h2
          exact ⟨_, Prod.ext rfl h2, h1, hsp, hoff, htab, hsu, fun _ => ht, Nat.zero_le _, .inl hb⟩
      · rw [if_neg hp] at h ⊢
        injection h with h1 h2
        refine ⟨s, Prod.ext rfl h2, h1, hsp, hoff, htab, hsu, fun _ => ht, hpy, ?_⟩
        unfold StateOK
        rw [hs]
        exact ⟨hf, hr, ht, hb⟩

theorem step_sim {env : Env} {R : Obj} {st : Bool} {s : REnc} {a : Nat} {e' : Enc} {ev : EEv} (hf : Fine env R) (hi : RInv env R st a s) (ha : a + s.buf.length < u64max)
    (h : eStep (toEnc env s) = (e', .ok ev)) : ∃ s', step env s = (s', .ok ev) ∧ toEnc env s' = e' ∧ RInv env R (st && s.state = .eof) (if s.state = .eof then a else a + s.buf.length) s' := by
  unfold eStep at h
  unfold step
  have hst : (toEnc env s).state = s.state := rfl
  rw [hst] at h
  by_cases he : s.state = .eof
  · rw [if_pos he] at h ⊢
    injection h with h1 h2
    refine ⟨s, Prod.ext rfl h2, h1, hi.spine, by rw [if_pos he]; exact hi.off, by rw [if_pos he]; exact hi.tabs, hi.suff, hi.leaf, by rw [if_pos he]; exact hi.pay, ?_⟩
    have := hi.state
    unfold StateOK at this ⊢
    rw [he] at this ⊢
    exact this
  · rw [if_neg he] at h ⊢
    rw [if_neg he]
    rw [← toEnc_advance hi.off] at h
    have hi := hi.advance
    have hb : (advance s).buf = [] := rfl
    have hse : (advance s).state = s.state := rfl
    rw [show (st && decide (s.state = .eof)) = false by simp [he]]
    rw [← hse] at he
    generalize a + s.buf.length = a at ha hi
    generalize advance s = s at h hi hb he
    clear hse hst
    obtain ⟨hsp, hoff, htab, hsu, hle, hpy, hso⟩ := hi
    have hnam := hf.names
    have hloc := hf.rules
    unfold eStepNode at h
    unfold stepNode
    have hn : (toEnc env s).nodes = toENode env s.cur :: s.up.map (toENode env) := rfl
    have hst : (toEnc env s).state = s.state := rfl
    rw [hn] at h
    simp only at h
    rw [hst] at h
    unfold StateOK at hso
    cases hs : s.state with
    | eof => exact absurd hs he
    | entered => rw [hs] at hso; exact hso.elim
    | nextDirent => rw [hs] at hso; exact hso.elim
    | firstDirent => rw [hs] at hso; exact hso.elim
    | init =>
      rw [hs] at hso h
      simp only at hso h ⊢
      have hbe : s.below = [] := by rw [hso]; rfl
      have hta : s.cur.table = [] := by rw [hso]; rfl
      have hre : s.cur.rest = s.cur.obj.kids := by rw [hso]; rfl
      rw [← naked_sim (.inl hbe)] at h
      cases hnk : naked s with
      | true =>
        rw [hnk] at h
        simp only [if_true] at h ⊢
        have hfi : isFile s.cur.obj = true := by
          unfold naked at hnk
          unfold isFile
          simp only [Bool.and_eq_true] at hnk
          exact hnk.2
        rw [← toEnc_enter] at h
        refine payload_sim (s := enter s .inPayload) hsp hoff htab rfl (Nat.zero_le _) hfi hta ?_ hbe h
        show s.cur.rest = .nil
        rw [hre]
        cases ho : s.cur.obj with
        | leaf l => rfl
        | dir _ _ _ _ _ => rw [ho] at hfi; cases hfi
      | false =>
        rw [hnk] at h
        simp only [Bool.false_eq_true, if_false] at h ⊢
        rw [← toEnc_enter] at h
        obtain ⟨s', h1, h2, h3⟩ := entered_sim (env := env) (s := enter s .entered) hsp hoff htab hta hre hbe
        rw [h2] at h
        injection h with h4 h5
        injection h5 with h5
        subst h5
        exact ⟨s', h1, h4, h3⟩
    | entry =>
      rw [hs] at hso h
      simp only at hso h ⊢
      obtain ⟨o1, o2, o3, o4⟩ := hso
      have htr : (toENode env s.cur).tree = view env s.cur.rules s.cur.obj := rfl
      rw [htr] at h
      cases ho : s.cur.obj with
      | leaf l =>
        have hbe : s.below = [] := o4.resolve_right (by rw [ho]; simp [Obj.scanned])
        have hta := o3 (by rw [ho]; rfl)
        have hre : s.cur.rest = .nil := by rw [o1, ho]; rfl
        rw [ho, view] at h
        have plain : ∀ e'', (eEnter (toEnc env s) .finalize, Res.ok EEv.doneFile) = (e'', Res.ok ev) →
            ∃ s', (enter s .finalize, Res.ok EEv.doneFile) = (s', Res.ok ev) ∧ toEnc env s' = e'' ∧ RInv env R false a s' := by
          intro e'' h'
          injection h' with h1 h2
          exact ⟨enter s .finalize, Prod.ext rfl h2, h1, hsp, hoff, htab, hsu, hle, Nat.zero_le _, .inl hbe⟩
        cases l with
        | file e0 a0 api c =>
          cases api with
          | true => exact plain _ h
          | false =>
            simp only [Leaf.tree] at h ⊢
            rw [← toEnc_enter] at h
            exact payload_sim (s := enter s .inPayload) hsp hoff htab rfl (Nat.zero_le _) (by show isFile s.cur.obj = true; rw [ho]; rfl) hta hre hbe h
        | symlink _ _ _ => exact plain _ h
        | device _ _ _ _ => exact plain _ h
        | special _ _ => exact plain _ h
      | dir e0 a0 api own k =>
        obtain ⟨p1, p2⟩ := o2 (by rw [ho]; rfl)
        rw [ho, view] at h
        cases api with
        | true =>
          simp only at h ⊢
          injection h with h1 h2
          refine ⟨enter s .goodbye, Prod.ext rfl h2, h1, hsp, hoff, htab, hsu, hle, Nat.zero_le _, ?_⟩
          exact ⟨by show s.cur.obj.isDir = true; rw [ho]; rfl, ⟨_, p2⟩, .inl (o4.resolve_right (by rw [ho]; simp [Obj.scanned]))⟩
        | false =>
          simp only at h ⊢
          refine dirents_sim (s := enter s .firstDirent) (R := R) (a := a) (lv := ⟨a - s.payloadOff, []⟩) hsp hnam hloc hoff htab ?_ ?_ p2 (by intro i hi; simp at hi) rfl ?_ ?_ rfl rfl h
          · show s.cur.obj.scanned = true
            rw [ho]; rfl
          · show Suff s.cur.rest s.cur.obj.kids
            rw [o1]; exact .refl
          · show (toEnc env s).archiveOff = a
            unfold toEnc
            simp only [hoff, Option.getD_some]
          · show (toEnc env s).nodes.length = s.up.length + 1
            rw [hn, List.length_cons, List.length_map]
    | inPayload =>
      rw [hs] at hso h
      simp only at hso h ⊢
      exact payload_sim hsp hoff htab hs hpy hso.1 hso.2.2.1 hso.2.1 hso.2.2.2 h
    | filename =>
      rw [hs] at hso h
      simp only at hso h ⊢
      obtain ⟨name, o, lv, b, s1, s2, s3, s4, s5, s6, s7, s8⟩ := hso
      obtain ⟨k, hk1, hk2⟩ := s1.kids hsp.rulesOK (hsp.subobj hnam hloc).2
      have hkid : (toENode env s.cur).kids = .cons true name (view env [] o) k := hk1
      rw [hkid] at h
      simp only at h
      unfold enterChild
      rw [s4]
      simp only
      obtain ⟨s', h1, h2, h3⟩ := entered_sim (env := env) (R := R) (a := a) (s := enter { s with up := s.cur :: s.up, cur := b, below := [] } .entered)
        (.down hsp (s5 ▸ s1) s8) hoff (.cons s2 s3 htab) s7 (by show b.rest = b.obj.kids; rw [s6, s5]) rfl
      have hfr : freshNode (view env [] o) = toENode env b := by
        have : view env [] o = view env b.rules b.obj := by rw [← s5]; exact view_leaf (fun hd => (s8 hd).symm)
        rw [this]
        obtain ⟨bo, br, bre, bt⟩ := b
        simp only at s5 s6 s7
        subst s5 s6 s7
        exact (toENode_opened env _ _).symm
      rw [hfr] at h
      have : eEnter (setTop (toEnc env s) (toENode env b) (toENode env s.cur :: s.up.map (toENode env))) .entered =
          toEnc env (enter { s with up := s.cur :: s.up, cur := b, below := [] } .entered) := rfl
      rw [this, h2] at h
      injection h with h4 h5
      injection h5 with h5
      subst h5
      exact ⟨s', h1, h4, h3⟩
    | goodbye =>
      rw [hs] at hso h
      simp only at hso h ⊢
      injection h with h1 h2
      exact ⟨enter s .finalize, Prod.ext rfl h2, h1, hsp, hoff, htab, hsu, hle, Nat.zero_le _, hso.2.2⟩
    | finalize =>
      rw [hs] at hso h
      simp only at hso h ⊢
      cases hu : s.up with
      | nil =>
        rw [hu] at h
        simp only [List.map_nil] at h ⊢
        injection h with h1 h2
        exact ⟨enter s .eof, Prod.ext rfl h2, h1, hsp, hoff, htab, hsu, hle, Nat.zero_le _, hso⟩
      | cons p us =>
        rw [hu] at h hsp htab
        simp only [List.map_cons] at h ⊢
        cases hsp with
        | @down _ _ _ name q1 q2 q3 =>
          cases htab with
          | @cons _ _ lv t1 t2 t3 =>
            refine next_sim (s := enter { s with up := us, cur := p, below := s.cur :: s.below } .nextDirent) (R := R) (a := a) q1 hnam hloc hoff t3 ha q2 t1 t2
              (e := eEnter (setTop (toEnc env s) (toENode env p) (us.map (toENode env))) .nextDirent) rfl ?_ ?_ ?_
            · show s.archiveOff.getD 0 = a
              rw [hoff]; rfl
            · show (toENode env p :: us.map (toENode env)).length = us.length + 1
              rw [List.length_cons, List.length_map]
            · have : (toEnc env s).archiveOff = a := by unfold toEnc; simp only [hoff, Option.getD_some]
              rw [this] at h
              exact h

end Casync.Resume
