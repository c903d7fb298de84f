import Verif.Spec.Seek
import Verif.Lemmas.ArchiveTree
import Verif.Props.Goodbye
/-!
Where things are in the archive of a tree.
-/
namespace Casync.Archive
open Casync Flags

variable {q : List Goodbye.NameItem → List Goodbye.NameItem}

/-- The stored entries of a directory. -/
def Tree.kids : Tree → Kids
  | .dir _ _ false k => k
  | _ => .nil

theorem Tree.entries_eq (s : Tree) : s.entries = s.kids.listed := by
  cases s with
  | dir e a api k => cases api <;> rfl
  | file e a api k => rfl
  | symlink e a b => rfl
  | device e a x y => rfl
  | special e a => rfl

/-- Where the entries start. -/
def kstart (off : Nat) (s : Tree) : Nat := off + (headBytes s).length

/-- The bytes of the entries and their places. -/
def kenc (q : List Goodbye.NameItem → List Goodbye.NameItem) (off : Nat) (s : Tree) : Bytes × List Goodbye.NameItem := encKids q (kstart off s) s.kids

/-- Where the GOODBYE record of a directory starts. -/
def gst (q : List Goodbye.NameItem → List Goodbye.NameItem) (off : Nat) (s : Tree) : Nat := off + ((headBytes s).length + (kenc q off s).1.length)

/-- Its rows. -/
def grows (q : List Goodbye.NameItem → List Goodbye.NameItem) (off : Nat) (s : Tree) : List Goodbye.Item := rowsOf q (kenc q off s).2 (gst q off s)

/-- The GOODBYE record. -/
def gbytes (q : List Goodbye.NameItem → List Goodbye.NameItem) (off : Nat) (s : Tree) : Bytes :=
  goodbyeBytes (grows q off s) ((headBytes s).length + (kenc q off s).1.length)

theorem encTree_dir_false (e : Entry) (a : Attrs) (k : Kids) (off : Nat) : encTree q off (.dir e a false k) =
    headBytes (.dir e a false k) ++ ((kenc q off (.dir e a false k)).1 ++ gbytes q off (.dir e a false k)) := by
  unfold encTree
  unfold gbytes grows gst kenc kstart Tree.kids
  with_reducible rfl

theorem encTree_dir_true (e : Entry) (a : Attrs) (k : Kids) (off : Nat) : encTree q off (.dir e a true k) =
    headBytes (.dir e a true k) ++ ((kenc q off (.dir e a true k)).1 ++ gbytes q off (.dir e a true k)) := by
  have hk : kenc q off (.dir e a true k) = ([], []) := by unfold kenc Tree.kids encKids; with_reducible rfl
  unfold encTree
  unfold gbytes grows gst
  generalize headBytes (.dir e a true k) = h
  rw [hk]
  generalize h.length = l
  rw [List.length_nil, Nat.add_zero, List.nil_append]

theorem encTree_dir {s : Tree} (h : s.isDir = true) (off : Nat) : encTree q off s = headBytes s ++ ((kenc q off s).1 ++ gbytes q off s) := by
  cases s with
  | dir e a api k =>
    cases api with
    | false => exact encTree_dir_false e a k off
    | true => exact encTree_dir_true e a k off
  | file e a api k => cases h
  | symlink e a b => cases h
  | device e a x y => cases h
  | special e a => cases h

theorem gbytes_length (off : Nat) (s : Tree) : (gbytes q off s).length = 40 + 24 * (grows q off s).length := by
  unfold gbytes
  rw [goodbyeBytes_eq, record_length, goodbyeBody_length]; omega

theorem grows_length (off : Nat) (s : Tree) : 40 + 24 * (grows q off s).length ≤ (headBytes s).length + (kenc q off s).1.length := by
  have h1 := rowsOf_length q (kenc q off s).2 (gst q off s)
  have h2 := encKids_items q s.kids (kstart off s)
  have h3 := headBytes_length s
  have h4 : 24 * (kenc q off s).2.length ≤ (kenc q off s).1.length := h2
  unfold grows
  omega

theorem encTree_dir_length {s : Tree} (h : s.isDir = true) (off : Nat) :
    off + (encTree q off s).length = gst q off s + (gbytes q off s).length := by
  rw [encTree_dir h]
  unfold gst
  simp only [List.length_append]
  omega

/-- One list of entries is the rest of another. -/
inductive Suf : Kids → Kids → Prop
  | refl {k} : Suf k k
  | cons {k k' b n t} : Suf k k' → Suf k (.cons b n t k')

theorem Suf.trans {a b c : Kids} (h1 : Suf a b) (h2 : Suf b c) : Suf a c := by
  induction h2 with
  | refl => exact h1
  | cons _ ih => exact .cons ih

theorem Suf.tail {a : Bool} {n : Bytes} {t : Tree} {k k' : Kids} (h : Suf (.cons a n t k) k') : Suf k k' := Suf.trans (.cons .refl) h

theorem Suf.listed {k k' : Kids} (h : Suf k k') : ∀ x ∈ k.listed, x ∈ k'.listed := by
  induction h with
  | refl => exact fun x hx => hx
  | @cons k' b n t _ ih =>
    intro x hx
    cases b with
    | true => rw [Kids.listed]; exact List.mem_cons_of_mem _ (ih x hx)
    | false => rw [Kids.listed]; exact ih x hx

theorem Suf.storable {ff : Word} {k k' : Kids} (h : Suf k k') (hs : StorableKids ff k') : StorableKids ff k := by
  induction h with
  | refl => exact hs
  | @cons k' b n t _ ih =>
    cases b with
    | true => rw [StorableKids] at hs; exact ih hs.2.2
    | false => rw [StorableKids] at hs; exact ih hs

theorem Suf.unique {k k' : Kids} (h : Suf k k') (hs : k'.Unique) : k.Unique := by
  induction h with
  | refl => exact hs
  | @cons k' b n t _ ih => rw [Kids.Unique] at hs; exact ih hs.2

theorem Suf.height {k k' : Kids} (h : Suf k k') : k.height ≤ k'.height := by
  induction h with
  | refl => exact Nat.le_refl _
  | @cons k' b n t _ ih => cases b <;> rw [Kids.height] <;> omega

theorem Suf.of_listed {n : Bytes} {s : Tree} : ∀ {k : Kids}, (n, s) ∈ k.listed → ∃ r, Suf (.cons true n s r) k
  | .nil, h => by rw [Kids.listed] at h; cases h
  | .cons true m t r, h => by
    rw [Kids.listed] at h
    rcases List.mem_cons.1 h with h | h
    · injection h with h1 h2; subst h1 h2; exact ⟨r, .refl⟩
    · obtain ⟨r', hr⟩ := Suf.of_listed h; exact ⟨r', .cons hr⟩
  | .cons false m t r, h => by
    rw [Kids.listed] at h
    obtain ⟨r', hr⟩ := Suf.of_listed h; exact ⟨r', .cons hr⟩

/-- From `off` on the archive holds these entries, and then `z`. -/
def KidsAt (q : List Goodbye.NameItem → List Goodbye.NameItem) (A : Bytes) (off : Nat) (k : Kids) (z : Bytes) : Prop := A.drop off = (encKids q off k).1 ++ z

theorem drop_of_append {A x y : Bytes} {off : Nat} (h : A.drop off = x ++ y) : A.drop (off + x.length) = y := by
  rw [← List.drop_drop, h, List.drop_left]

theorem KidsAt.skip {A z : Bytes} {off : Nat} {n : Bytes} {t : Tree} {k : Kids} (h : KidsAt q A off (.cons false n t k) z) : KidsAt q A off k z := by
  unfold KidsAt at *; rw [h, encKids]

/-- Where the archive of an entry starts and ends. -/
theorem KidsAt.here {A z : Bytes} {off : Nat} {n : Bytes} {t : Tree} {k : Kids} (h : KidsAt q A off (.cons true n t k) z) :
    A.drop off = strRecord .filename n ++ A.drop (off + (17 + n.length)) ∧
    (∃ y, A.drop (off + (17 + n.length)) = encTree q (off + (17 + n.length)) t ++ y ∧
      y = (encKids q (off + (17 + n.length) + (encTree q (off + (17 + n.length)) t).length) k).1 ++ z) ∧
    KidsAt q A (off + (17 + n.length) + (encTree q (off + (17 + n.length)) t).length) k z := by
  unfold KidsAt at *
  rw [encKids] at h
  simp only [List.append_assoc, List.length_append] at h
  rw [← Nat.add_assoc, strRecord_length] at h
  have h1 := drop_of_append h
  rw [strRecord_length] at h1
  generalize off + (17 + n.length) = w at *
  exact ⟨by rw [h, h1], ⟨_, h1, rfl⟩, drop_of_append h1⟩

/-- The entry of a directory that belongs to an item of the name table. -/
structure Item (q : List Goodbye.NameItem → List Goodbye.NameItem) (A z : Bytes) (k : Kids) (it : Goodbye.NameItem) (n : Bytes) (s : Tree) (r : Kids) : Prop where
  suf : Suf (.cons true n s r) k
  hash : it.hash = nameHash n
  fin : it.endOffset = it.startOffset + (17 + n.length) + (encTree q (it.startOffset + (17 + n.length)) s).length
  at_ : KidsAt q A it.startOffset (.cons true n s r) z

theorem Item.cons {A z : Bytes} {k : Kids} {it : Goodbye.NameItem} {n m : Bytes} {s t : Tree} {r : Kids} {b : Bool} (h : Item q A z k it n s r) :
    Item q A z (.cons b m t k) it n s r := { h with suf := .cons h.suf }

theorem kids_items {A z : Bytes} : ∀ (k : Kids) (base : Nat), KidsAt q A base k z →
    (∀ it ∈ (encKids q base k).2, (∃ n s r, Item q A z k it n s r) ∧ base ≤ it.startOffset ∧ it.startOffset < it.endOffset ∧
      it.endOffset ≤ base + (encKids q base k).1.length) ∧
    (∀ n s, (n, s) ∈ k.listed → ∃ it ∈ (encKids q base k).2, ∃ r, Item q A z k it n s r)
  | .nil, base, _ => by
    constructor
    · intro it h; rw [encKids] at h; cases h
    · intro n s h; rw [Kids.listed] at h; cases h
  | .cons false m t k, base, h => by
    have ih := kids_items k base h.skip
    rw [encKids]
    refine ⟨fun it hit => ?_, fun n s hns => ?_⟩
    · obtain ⟨⟨n, s, r, a⟩, b⟩ := ih.1 it hit
      exact ⟨⟨n, s, r, a.cons⟩, b⟩
    · rw [Kids.listed] at hns
      obtain ⟨it, a, r, b⟩ := ih.2 n s hns
      exact ⟨it, a, r, b.cons⟩
  | .cons true m t k, base, h => by
    obtain ⟨h1, h2, h3⟩ := h.here
    have ih := kids_items k _ h3
    have he := encTree_length q (base + (17 + m.length)) t
    have hh := headBytes_length t
    rw [encKids]
    simp only [List.length_append, strRecord_length]
    rw [← Nat.add_assoc]
    have hfirst : Item q A z (.cons true m t k) ⟨nameHash m, base, base + (17 + m.length) + (encTree q (base + (17 + m.length)) t).length⟩ m t k :=
      { suf := .refl, hash := rfl, fin := rfl, at_ := h }
    refine ⟨fun it hit => ?_, fun n s hns => ?_⟩
    · rcases List.mem_cons.1 hit with hit | hit
      · subst hit
        refine ⟨⟨m, t, k, hfirst⟩, ?_⟩
        simp only
        omega
      · obtain ⟨⟨n, s, r, a⟩, b⟩ := ih.1 it hit
        refine ⟨⟨n, s, r, a.cons⟩, ?_⟩
        omega
    · rw [Kids.listed] at hns
      rcases List.mem_cons.1 hns with hns | hns
      · injection hns with e1 e2
        subst e1 e2
        exact ⟨_, List.mem_cons_self .., k, hfirst⟩
      · obtain ⟨it, a, r, b⟩ := ih.2 n s hns
        exact ⟨it, List.mem_cons_of_mem _ a, r, b.cons⟩

/-! ### The directory table -/

theorem nameHash_lt (n : Bytes) : nameHash n < 2 ^ 64 := by
  unfold nameHash
  split
  · exact BitVec.isLt _
  · decide

theorem itemBytes_length (i : Goodbye.Item) : (itemBytes i).length = 24 := by unfold itemBytes; simp only [List.length_append, le64_length]

theorem readRow {i : Goodbye.Item} (h : i.offset < 2 ^ 64 ∧ i.size < 2 ^ 64 ∧ i.hash < 2 ^ 64) (x : Bytes) :
    word 0 (itemBytes i ++ x) = i.offset ∧ word 1 (itemBytes i ++ x) = i.size ∧ word 2 (itemBytes i ++ x) = i.hash := by
  unfold itemBytes
  simp only [List.append_assoc]
  refine ⟨word_zero h.1 _, word_one h.2.1 _, ?_⟩
  rw [word_succ]
  exact word_one h.2.2 _

/-- A row. -/
def rowOf (b : Bytes) : Goodbye.Item := { offset := word 0 b, size := word 1 b, hash := word 2 b }

theorem rows_many (f : Bytes → Goodbye.Item) (g : Goodbye.Item → Bytes) (hg : ∀ i, (g i).length = 24) : ∀ (rows : List Goodbye.Item),
    (∀ i ∈ rows, ∀ x, f (g i ++ x) = i) → (List.range rows.length).map (fun i => f ((rows.flatMap g).drop (24 * i))) = rows := by
  intro rows
  induction rows with
  | nil => intro _; rfl
  | cons a rows ih =>
    intro h
    rw [List.length_cons, List.range_succ_eq_map, List.map_cons, List.map_map, List.flatMap_cons, Nat.mul_zero, List.drop_zero, h a (List.mem_cons_self ..)]
    refine congrArg (List.cons a) ?_
    refine Eq.trans ?_ (ih fun i hi => h i (List.mem_cons_of_mem _ hi))
    refine List.map_congr_left fun i _ => ?_
    have hd : (g a ++ rows.flatMap g).drop (24 * (i + 1)) = (rows.flatMap g).drop (24 * i) := by
      rw [show 24 * (i + 1) = (g a).length + 24 * i by rw [hg]; omega, ← List.drop_drop, List.drop_left]
    simp only [Function.comp, Nat.succ_eq_add_one, hd]

theorem readRows_rows (rows : List Goodbye.Item) (h : ∀ i ∈ rows, i.offset < 2 ^ 64 ∧ i.size < 2 ^ 64 ∧ i.hash < 2 ^ 64) :
    readRows (rows.flatMap itemBytes) = rows := by
  have := rows_many rowOf itemBytes itemBytes_length rows (by
    intro i hi x
    have := readRow (h i hi) x
    unfold rowOf
    rw [this.1, this.2.1, this.2.2])
  unfold readRows
  rw [items_length, Nat.mul_div_cancel_left _ (by decide)]
  exact this

/-- The archive of `s` is at `off`, and then comes `y`. -/
def Placed (q : List Goodbye.NameItem → List Goodbye.NameItem) (A : Bytes) (s : Tree) (off : Nat) (y : Bytes) : Prop := A.drop off = encTree q off s ++ y

theorem Placed.le {A y : Bytes} {s : Tree} {off : Nat} (h : Placed q A s off y) : off + (encTree q off s).length + y.length = A.length ∧ off + 64 ≤ A.length := by
  have h1 := congrArg List.length h
  rw [List.length_drop, List.length_append] at h1
  have h2 := encTree_length q off s
  have h3 := headBytes_length s
  omega

theorem Placed.kids {A y : Bytes} {s : Tree} {off : Nat} (h : Placed q A s off y) (hd : s.isDir = true) :
    KidsAt q A (kstart off s) s.kids (gbytes q off s ++ y) := by
  unfold Placed at h
  rw [encTree_dir hd, List.append_assoc, List.append_assoc] at h
  exact drop_of_append h

theorem Placed.goodbye {A y : Bytes} {s : Tree} {off : Nat} (h : Placed q A s off y) (hd : s.isDir = true) : A.drop (gst q off s) = gbytes q off s ++ y := by
  have h1 := drop_of_append (h.kids hd)
  rw [show gst q off s = kstart off s + (encKids q (kstart off s) s.kids).1.length by unfold gst kenc kstart; omega]
  exact h1

theorem Placed.dist {A y : Bytes} {s : Tree} {off : Nat} (h : Placed q A s off y) (hd : s.isDir = true) :
    gst q off s + (gbytes q off s).length + y.length = A.length ∧ off + 64 ≤ gst q off s := by
  have h1 := h.le
  have h2 := encTree_dir_length (q := q) hd off
  have h3 := headBytes_length s
  have h4 : gst q off s = off + ((headBytes s).length + (kenc q off s).1.length) := rfl
  omega

theorem Placed.parseGoodbye {A y : Bytes} {s : Tree} {off : Nat} (h : Placed q A s off y) (hd : s.isDir = true) (hl : A.length < 2 ^ 62) :
    parseDirRec (A.drop (gst q off s)) = .ok (.goodbye ((grows q off s).flatMap itemBytes) (gst q off s - off), (gbytes q off s).length) := by
  have hmax : u64max = 2 ^ 64 - 1 := by decide
  have h2 := h.dist hd
  have h3 := grows_length (q := q) off s
  have h4 : gst q off s = off + ((headBytes s).length + (kenc q off s).1.length) := rfl
  have h5 := parseDirRec_goodbye h3 (by omega) y
  rw [h.goodbye hd, show gst q off s - off = (headBytes s).length + (kenc q off s).1.length by omega]
  exact h5

theorem Placed.dirNext {A y : Bytes} {s : Tree} {off : Nat} (h : Placed q A s off y) (hd : s.isDir = true) (hl : A.length < 2 ^ 62) :
    DirNext (gbytes q off s ++ y) := by
  have hmax : u64max = 2 ^ 64 - 1 := by decide
  have h2 := h.dist hd
  have h3 := grows_length (q := q) off s
  have h4 : gst q off s = off + ((headBytes s).length + (kenc q off s).1.length) := rfl
  exact dirNext_goodbye h3 (by omega) y

theorem Placed.items {A y : Bytes} {s : Tree} {off : Nat} (h : Placed q A s off y) (hd : s.isDir = true) :
    ∀ x ∈ (kenc q off s).2, off ≤ x.startOffset ∧ x.startOffset < x.endOffset ∧ x.endOffset ≤ gst q off s := by
  intro x hx
  have h1 := (kids_items _ _ (h.kids hd)).1 x hx
  have h4 : gst q off s = off + ((headBytes s).length + (kenc q off s).1.length) := rfl
  have h5 : kstart off s = off + (headBytes s).length := rfl
  have h6 : (kenc q off s).1.length = (encKids q (kstart off s) s.kids).1.length := rfl
  omega

theorem Placed.rows {A y : Bytes} {s : Tree} {off : Nat} (h : Placed q A s off y) (hd : s.isDir = true) (hq : Goodbye.Sorts q) (hl : A.length < 2 ^ 62) :
    readRows ((grows q off s).flatMap itemBytes) = grows q off s := by
  refine readRows_rows _ ?_
  intro i hi
  have h2 := h.dist hd
  obtain ⟨tbl, t1, t2, t3⟩ := Goodbye.nameTable_ok hq (kenc q off s).2
  have hmem : ∀ x ∈ tbl, x.startOffset < x.endOffset ∧ x.endOffset ≤ gst q off s :=
    fun x hx => (h.items hd x (t2.mem_iff.1 hx)).2
  have hrows := Goodbye.goodbyeItems_ok (gst q off s) tbl hmem
  unfold grows rowsOf at hi
  unfold Goodbye.goodbyeTable at hi
  rw [t1, Res.bind_ok, hrows] at hi
  obtain ⟨x, hx, rfl⟩ := List.mem_map.1 hi
  obtain ⟨⟨n, s', r, hit⟩, _⟩ := (kids_items _ _ (h.kids hd)).1 x (t2.mem_iff.1 hx)
  have := hmem x hx
  refine ⟨?_, ?_, ?_⟩
  · show gst q off s - x.startOffset < 2 ^ 64
    omega
  · show x.endOffset - x.startOffset < 2 ^ 64
    omega
  · show x.hash < 2 ^ 64
    rw [hit.hash]; exact nameHash_lt n

theorem Placed.lookup {A y : Bytes} {s : Tree} {off : Nat} (h : Placed q A s off y) (hd : s.isDir = true) (hq : Goodbye.Sorts q) (c : Bytes) :
    ∃ P : List Goodbye.NameItem, (∀ idx, Goodbye.locate (grows q off s) (gst q off s) off (nameHash c) idx = .ok (P[idx]?.map fun x => (x.startOffset, x.endOffset))) ∧
      ∀ it, it ∈ P ↔ it ∈ (kenc q off s).2 ∧ it.hash = nameHash c := by
  obtain ⟨table, h1, h2⟩ := Goodbye.C21_lookup q hq (kenc q off s).2 off (gst q off s) (h.items hd)
  obtain ⟨P, p1, p2⟩ := h2 (nameHash c)
  refine ⟨P, ?_, ?_⟩
  · have : grows q off s = table := by unfold grows rowsOf; rw [h1]
    rw [this]
    exact p2
  · intro it
    rw [p1.mem_iff, List.mem_filter, decide_eq_true_eq]

theorem goodbye_tail (rows : List Goodbye.Item) (w : Nat) (y : Bytes) : (goodbyeBytes rows w ++ y).drop (16 + 24 * rows.length) =
    le64 w ++ (le64 (16 + 24 * rows.length + 24) ++ (le64 tailMarker ++ y)) := by
  unfold goodbyeBytes
  rw [record_append]
  have hx := items_length rows
  generalize rows.flatMap itemBytes = X at *
  have h1 := le64_length (16 + (X ++ (le64 w ++ le64 (16 + 24 * rows.length + 24) ++ le64 tailMarker)).length)
  generalize le64 (16 + (X ++ (le64 w ++ le64 (16 + 24 * rows.length + 24) ++ le64 tailMarker)).length) = a at *
  have h2 := le64_length (code .goodbye)
  generalize le64 (code .goodbye) = b at *
  generalize le64 w = c, le64 (16 + 24 * rows.length + 24) = d, le64 tailMarker = e
  rw [show a ++ (b ++ (X ++ (c ++ d ++ e) ++ y)) = (a ++ b ++ X) ++ (c ++ (d ++ (e ++ y))) by simp only [List.append_assoc]]
  refine List.drop_left' ?_
  rw [List.length_append, List.length_append]
  omega

theorem Placed.tail {A y : Bytes} {s : Tree} {off : Nat} (h : Placed q A s off y) (hd : s.isDir = true) :
    24 ≤ off + (encTree q off s).length ∧
    A.drop (off + (encTree q off s).length - 24) = le64 (gst q off s - off) ++ (le64 (gbytes q off s).length ++ (le64 tailMarker ++ y)) := by
  have h1 := encTree_dir_length (q := q) hd off
  have h2 := gbytes_length (q := q) off s
  have h3 := h.goodbye hd
  have h4 : gst q off s = off + ((headBytes s).length + (kenc q off s).1.length) := rfl
  refine ⟨by omega, ?_⟩
  rw [show off + (encTree q off s).length - 24 = gst q off s + (16 + 24 * (grows q off s).length) by omega, ← List.drop_drop, h3]
  rw [show (gbytes q off s).length = 16 + 24 * (grows q off s).length + 24 by omega, show gst q off s - off = (headBytes s).length + (kenc q off s).1.length by omega]
  unfold gbytes
  exact goodbye_tail _ _ _

end Casync.Archive
