import Verif.Lemmas.SeekParse
import Verif.Lemmas.SeekPath
/-!
The open nodes of a decoder that reads the archive of a tree.
-/
namespace Casync.Archive
open Casync Flags

variable {q : List Goodbye.NameItem → List Goodbye.NameItem} {A : Bytes}

/-- What is kept for an object is right. -/
structure NodeOK (q : List Goodbye.NameItem → List Goodbye.NameItem) (A : Bytes) (s : Tree) (n : DNode) (x : NX) : Prop where
  parsed : ∀ p, n.parsed = some p → p.Of s
  mode : ∀ m, x.mode = some m → isType m ifDir = true ∧ s.isDir = true
  endOff : ∀ e, x.endOff = some e → e = n.entryOff + (encTree q n.entryOff s).length
  goodbyeOff : ∀ g, x.goodbyeOff = some g → s.isDir = true ∧ g = gst q n.entryOff s
  goodbye : ∀ r, x.goodbye = some r → s.isDir = true ∧ r = grows q n.entryOff s
  payloadOff : ∀ o, x.payloadOff = some o → (∃ e a api b, s = .file e a api b) ∧ o = n.entryOff + (headBytes s).length
  pay : n.parsed.isSome = true → (∃ e a api b, s = .file e a api b) → x.payloadOff.isSome = true

/-- The open nodes, the current one first, with the object of the current one, its path and what follows it in the archive. -/
inductive Stack (q : List Goodbye.NameItem → List Goodbye.NameItem) (A : Bytes) (t : Tree) : List DNode → List NX → Tree → List Bytes → Bytes → Prop
  | root {n x} : n.name = none → n.entryOff = 0 → NodeOK q A t n x → Stack q A t [n] [x] t [] []
  | down {p ns x0 xs s path y n x nm s' r o} : Stack q A t (p :: ns) (x0 :: xs) s path y → s.isDir = true → (sMode p x0).isSome = true → n.name = some nm →
      NodeOK q A s' n x → Suf (.cons true nm s' r) s.kids → KidsAt q A o (.cons true nm s' r) (gbytes q p.entryOff s ++ y) →
      n.entryOff = o + (17 + nm.length) →
      Stack q A t (n :: p :: ns) (x :: x0 :: xs) s' (path ++ [nm])
        ((encKids q (n.entryOff + (encTree q n.entryOff s').length) r).1 ++ (gbytes q p.entryOff s ++ y))

/-- An archive of a tree. -/
structure Ctx (q : List Goodbye.NameItem → List Goodbye.NameItem) (A : Bytes) (t : Tree) (ff : Word) (f' : FF) : Prop where
  sorts : Goodbye.Sorts q
  arch : A = encTree q 0 t
  small : A.length < 2 ^ 62
  storable : Storable ff t
  unique : t.Unique
  dir : t.isDir = true
  height : t.height ≤ 64
  known : ff &&& ~~~flagsMax = 0#64
  again : validateFeatureFlags f' ff = some f'

theorem Tree.kids_storable {ff : Word} {s : Tree} (h : Storable ff s) : StorableKids ff s.kids := by
  cases s with
  | dir e a api k =>
    cases api with
    | false => rw [Storable] at h; exact h.2.2
    | true => unfold Tree.kids; rw [StorableKids]; trivial
  | file e a api k => unfold Tree.kids; rw [StorableKids]; trivial
  | symlink e a b => unfold Tree.kids; rw [StorableKids]; trivial
  | device e a x y => unfold Tree.kids; rw [StorableKids]; trivial
  | special e a => unfold Tree.kids; rw [StorableKids]; trivial

theorem Tree.kids_unique {s : Tree} (h : s.Unique) : (s.kids.listed.map Prod.fst).Nodup ∧ s.kids.Unique := by
  have hn : ((Kids.nil).listed.map Prod.fst).Nodup ∧ Kids.nil.Unique := ⟨by rw [Kids.listed]; exact List.nodup_nil, by rw [Kids.Unique]; trivial⟩
  cases s with
  | dir e a api k =>
    cases api with
    | false => rw [Tree.Unique] at h; exact h
    | true => exact hn
  | file e a api k => exact hn
  | symlink e a b => exact hn
  | device e a x y => exact hn
  | special e a => exact hn

theorem Tree.kids_height (s : Tree) : 1 + s.kids.height ≤ s.height := by
  have h0 : Kids.nil.height = 0 := by rw [Kids.height]
  have hp := s.height_pos
  cases s with
  | dir e a api k =>
    cases api with
    | false => unfold Tree.kids; rw [Tree.height]; exact Nat.le_refl _
    | true => unfold Tree.kids; rw [h0]; exact hp
  | file e a api k => unfold Tree.kids; rw [h0]; exact hp
  | symlink e a b => unfold Tree.kids; rw [h0]; exact hp
  | device e a x y => unfold Tree.kids; rw [h0]; exact hp
  | special e a => unfold Tree.kids; rw [h0]; exact hp

theorem find?_nodup {nm : Bytes} {s : Tree} : ∀ {l : List (Bytes × Tree)}, (l.map Prod.fst).Nodup → (nm, s) ∈ l → l.find? (fun x => x.1 == nm) = some (nm, s)
  | [], _, h => nomatch h
  | (m, u) :: l, hn, h => by
    rw [List.map_cons, List.nodup_cons] at hn
    rcases List.mem_cons.1 h with h | h
    · injection h with h1 h2
      subst h1 h2
      rw [List.find?_cons_of_pos (by simp)]
    · have : m ≠ nm := by
        intro e
        subst e
        exact hn.1 (List.mem_map.2 ⟨_, h, rfl⟩)
      rw [List.find?_cons_of_neg (by simpa using this)]
      exact find?_nodup hn.2 h

theorem find_step {s s' : Tree} {nm : Bytes} (hu : s.Unique) (h : (nm, s') ∈ s.kids.listed) (r : List Bytes) : s.find (nm :: r) = s'.find r := by
  rw [Tree.find, Tree.entries_eq, find?_nodup (Tree.kids_unique hu).1 h]

theorem find_none {s : Tree} {c : Bytes} (h : ∀ x ∈ s.kids.listed, x.1 ≠ c) (r : List Bytes) : s.find (c :: r) = none := by
  rw [Tree.find, Tree.entries_eq, List.find?_eq_none.2 (by intro x hx; simpa using h x hx)]

theorem find_append {s u : Tree} {p r : List Bytes} (h : s.find p = some u) : s.find (p ++ r) = u.find r := by
  induction p generalizing s with
  | nil => rw [Tree.find] at h; injection h with h; rw [h, List.nil_append]
  | cons c p ih =>
    rw [List.cons_append, Tree.find]
    rw [Tree.find] at h
    cases hf : s.entries.find? (fun x => x.1 == c) with
    | none => rw [hf] at h; cases h
    | some x => rw [hf] at h; simp only at h ⊢; exact ih h

/-- What follows an object lets its records be read. -/
def Follows (s : Tree) (y : Bytes) : Prop := s.isDir = true ∨ DirNext y

theorem mem_of_suf {s : Tree} {nm : Bytes} {s' : Tree} {r : Kids} (h : Suf (.cons true nm s' r) s.kids) : (nm, s') ∈ s.kids.listed := by
  apply h.listed
  rw [Kids.listed]
  exact List.mem_cons_self ..

/-- What is known of the current object. -/
structure Facts (q : List Goodbye.NameItem → List Goodbye.NameItem) (A : Bytes) (t : Tree) (ff : Word) (nodes : List DNode) (exts : List NX) (s : Tree) (path : List Bytes) (y : Bytes) : Prop where
  storable : Storable ff s
  unique : s.Unique
  find : t.find path = some s
  height : path.length + s.height ≤ t.height
  len : nodes.length = path.length + 1
  elen : exts.length = nodes.length
  names : pathOf nodes = path
  placed : ∀ n ns, nodes = n :: ns → Placed q A s n.entryOff y
  follows : Follows s y
  root : path = [] → s.isDir = true

theorem Stack.facts {t : Tree} {ff : Word} {f' : FF} (hc : Ctx q A t ff f') {nodes : List DNode} {exts : List NX} {s : Tree} {path : List Bytes} {y : Bytes}
    (h : Stack q A t nodes exts s path y) : Facts q A t ff nodes exts s path y := by
  induction h with
  | @root n x h1 h2 h3 =>
    exact { storable := hc.storable, unique := hc.unique, find := rfl, height := by simp, len := rfl, elen := rfl,
            names := by rw [pathOf_cons, h1]; rfl,
            placed := by
              intro m ns e
              injection e with e1 _
              subst e1
              unfold Placed
              rw [h2, hc.arch, List.drop_zero, List.append_nil]
            follows := .inl hc.dir, root := fun _ => hc.dir }
  | @down p ns x0 xs s path y n x nm s' r o hs hd hk hn hno hsuf hat ho ih =>
    have hpl := ih.placed p ns rfl
    have hst := hsuf.storable (Tree.kids_storable ih.storable)
    rw [StorableKids] at hst
    have hun := hsuf.unique (Tree.kids_unique ih.unique).2
    rw [Kids.Unique] at hun
    have hhe := hsuf.height
    have hkh := s.kids_height
    rw [Kids.height] at hhe
    have hmem := mem_of_suf hsuf
    obtain ⟨a1, ⟨y', a2, a3⟩, a4⟩ := hat.here
    rw [← ho] at a2 a3 a4
    have hle : (encKids q (n.entryOff + (encTree q n.entryOff s').length) r).1.length ≤ A.length := by
      have := congrArg List.length a4
      rw [List.length_drop, List.length_append] at this
      omega
    exact { storable := hst.2.1, unique := hun.1,
            find := by rw [find_append ih.find, find_step ih.unique hmem]; rfl
            height := by
              have := ih.height
              rw [List.length_append, List.length_singleton]
              omega
            len := by rw [List.length_cons, ih.len, List.length_append, List.length_singleton]
            elen := by rw [List.length_cons, ih.elen, List.length_cons (as := p :: ns)]
            names := by rw [pathOf_cons, ih.names, hn]; rfl
            placed := by
              intro m ns' e
              injection e with e1 _
              subst e1
              unfold Placed
              rw [a2, a3]
            follows := .inr (dirNext_kids q r _ _ hst.2.2 (hpl.dirNext hd hc.small) (by have := hc.small; omega))
            root := by
              intro e
              have := congrArg List.length e
              simp at this }

theorem Stack.head {t : Tree} {nodes : List DNode} {exts : List NX} {s : Tree} {path : List Bytes} {y : Bytes} (h : Stack q A t nodes exts s path y) :
    ∃ n ns x xs, nodes = n :: ns ∧ exts = x :: xs ∧ NodeOK q A s n x := by
  cases h with
  | root h1 h2 h3 => exact ⟨_, _, _, _, rfl, rfl, h3⟩
  | down _ _ _ _ h => exact ⟨_, _, _, _, rfl, rfl, h⟩

/-- Change what is kept for the current object. -/
theorem Stack.replace {t : Tree} {n n' : DNode} {ns : List DNode} {x x' : NX} {xs : List NX} {s : Tree} {path : List Bytes} {y : Bytes}
    (h : Stack q A t (n :: ns) (x :: xs) s path y) (h1 : n'.name = n.name) (h2 : n'.entryOff = n.entryOff) (h3 : NodeOK q A s n' x') :
    Stack q A t (n' :: ns) (x' :: xs) s path y := by
  cases h with
  | root a1 a2 a3 => exact .root (h1.trans a1) (h2.trans a2) h3
  | down a1 a2 a3 a4 a5 a6 a7 a8 =>
    have := Stack.down a1 a2 a3 (h1.trans a4) h3 a6 a7 (h2.trans a8)
    rw [h2] at this
    exact this

theorem Stack.unique {t : Tree} {ff : Word} {f' : FF} (hc : Ctx q A t ff f') {nodes : List DNode} {exts : List NX} {s s2 : Tree} {path path2 : List Bytes} {y y2 : Bytes}
    (h : Stack q A t nodes exts s path y) (h2 : Stack q A t nodes exts s2 path2 y2) : s = s2 ∧ path = path2 ∧ y = y2 := by
  have f1 := h.facts hc
  have f2 := h2.facts hc
  have hp : path = path2 := f1.names.symm.trans f2.names
  subst hp
  have hs : s = s2 := Option.some.inj (f1.find.symm.trans f2.find)
  subst hs
  obtain ⟨n, ns, _, _, e, _, _⟩ := h.head
  have a := f1.placed n ns e
  have b := f2.placed n ns e
  unfold Placed at a b
  exact ⟨rfl, rfl, List.append_cancel_left (a.symm.trans b)⟩

/-- The upper part of the open nodes. -/
theorem Stack.upper {t : Tree} : ∀ {l : List DNode} {lx : List NX} {nodes : List DNode} {exts : List NX} {s : Tree} {path : List Bytes} {y : Bytes},
    Stack q A t (l ++ nodes) (lx ++ exts) s path y → l.length = lx.length → nodes ≠ [] → ∃ s' path' y', Stack q A t nodes exts s' path' y'
  | [], [], _, _, _, _, _, h, _, _ => ⟨_, _, _, h⟩
  | [], _ :: _, _, _, _, _, _, _, h, _ => nomatch h
  | _ :: _, [], _, _, _, _, _, _, h, _ => nomatch h
  | m :: l, x :: lx, nodes, exts, s, path, y, h, hl, hn => by
    have hl' : l.length = lx.length := by simpa using hl
    rw [List.cons_append, List.cons_append] at h
    generalize e1 : l ++ nodes = L at h
    generalize e2 : lx ++ exts = X at h
    cases h with
    | root a1 a2 a3 =>
      exact absurd (List.append_eq_nil_iff.1 e1).2 hn
    | down a1 =>
      rw [← e1, ← e2] at a1
      exact Stack.upper a1 hl' hn

/-- Change what is kept for an object that is not the last one. -/
theorem Stack.replaceUp {t : Tree} {ff : Word} {f' : FF} (hc : Ctx q A t ff f') {n n' : DNode} {ns : List DNode} {x x' : NX} {xs : List NX}
    (h1 : n'.name = n.name) (h2 : n'.entryOff = n.entryOff) (hm : (sMode n x).isSome = true → (sMode n' x').isSome = true) {s0 : Tree} {path0 : List Bytes} {y0 : Bytes}
    (h0 : Stack q A t (n :: ns) (x :: xs) s0 path0 y0) (h3 : NodeOK q A s0 n' x') :
    ∀ {l : List DNode} {lx : List NX} {s : Tree} {path : List Bytes} {y : Bytes},
    Stack q A t (l ++ n :: ns) (lx ++ x :: xs) s path y → l.length = lx.length → Stack q A t (l ++ n' :: ns) (lx ++ x' :: xs) s path y
  | [], [], s, path, y, h, _ => by
    obtain ⟨e1, e2, e3⟩ := h0.unique hc h
    subst e1 e2 e3
    exact h.replace h1 h2 h3
  | [], _ :: _, _, _, _, _, h => nomatch h
  | _ :: _, [], _, _, _, _, h => nomatch h
  | [m], [z], s, path, y, h, hl => by
    rw [List.cons_append, List.cons_append, List.nil_append, List.nil_append] at h ⊢
    cases h with
    | down a1 a2 a3 a4 a5 a6 a7 a8 =>
      obtain ⟨e1, e2, e3⟩ := h0.unique hc a1
      subst e1 e2 e3
      have := Stack.down (a1.replace h1 h2 h3) a2 (hm a3) a4 a5 a6 (by rw [h2]; exact a7) a8
      rw [h2] at this
      exact this
  | _ :: _ :: _, [_], _, _, _, _, h => nomatch h
  | [_], _ :: _ :: _, _, _, _, _, h => by simp at h
  | m :: m2 :: l, z :: z2 :: lx, s, path, y, h, hl => by
    rw [List.cons_append, List.cons_append, List.cons_append, List.cons_append] at h ⊢
    cases h with
    | down a1 a2 a3 a4 a5 a6 a7 a8 =>
      have ih := Stack.replaceUp hc h1 h2 hm h0 h3 (l := m2 :: l) (lx := z2 :: lx) a1 (by simpa using hl)
      exact .down ih a2 a3 a4 a5 a6 a7 a8

/-- All open nodes, the last one first. -/
def fullN (d : SDec) : List DNode := (d.below.map Prod.fst).reverse ++ d.core.nodes
def fullX (d : SDec) : List NX := (d.below.map Prod.snd).reverse ++ d.exts

end Casync.Archive
