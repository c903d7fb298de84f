import Verif.Spec.Delete
import Verif.Lemmas.MetaOrder
/-!
C28: deletion during extraction.
-/
namespace Casync.Delete
open Casync Archive

theorem strcmpp_eq {a b : Bytes} : strcmpp a b = .eq ↔ a = b := by
  unfold strcmpp
  by_cases h : a = b
  · simp [h]
  · rw [if_neg h]
    constructor
    · intro h'; split at h' <;> cases h'
    · intro h'; exact absurd h' h

/-- On an ascending list the binary search finds exactly the elements. -/
theorem bsearch_iff (key : Bytes) (a : List Bytes) (ha : Ascending a) : ∀ (fuel l u : Nat), u - l ≤ fuel → u ≤ a.length →
    (bsearch key a fuel l u = true ↔ ∃ i, l ≤ i ∧ i < u ∧ a[i]? = some key) := by
  have hpw := List.pairwise_iff_getElem.1 ha
  intro fuel
  induction fuel with
  | zero =>
    intro l u hf hu
    constructor
    · intro h; cases h
    · rintro ⟨i, h1, h2, _⟩; omega
  | succ fuel ih =>
    intro l u hf hu
    unfold bsearch
    by_cases hlu : l < u
    · rw [if_pos hlu]
      simp only
      have hi : (l + u) / 2 < a.length := by omega
      rw [List.getElem?_eq_getElem hi]
      simp only
      cases hc : strcmpp key a[(l + u) / 2] with
      | eq =>
        simp only [true_iff]
        exact ⟨(l + u) / 2, by omega, by omega, by rw [List.getElem?_eq_getElem hi, ← strcmpp_eq.1 hc]⟩
      | lt =>
        have hlt : strLt key a[(l + u) / 2] = true := by
          unfold strcmpp at hc
          split at hc; · cases hc
          split at hc
          · assumption
          · cases hc
        simp only
        rw [ih l ((l + u) / 2) (by omega) (by omega)]
        constructor
        · rintro ⟨i, h1, h2, h3⟩; exact ⟨i, h1, by omega, h3⟩
        · rintro ⟨i, h1, h2, h3⟩
          refine ⟨i, h1, ?_, h3⟩
          have hia : i < a.length := by omega
          rw [List.getElem?_eq_getElem hia] at h3
          have h3 := Option.some.inj h3
          by_cases h4 : i < (l + u) / 2
          · exact h4
          · exfalso
            by_cases h5 : i = (l + u) / 2
            · subst h5; rw [h3, strLt_irrefl] at hlt; cases hlt
            · have := hpw _ _ hi hia (by omega)
              rw [h3] at this
              rw [strLt_asymm this] at hlt; cases hlt
      | gt =>
        have hgt : strLt a[(l + u) / 2] key = true := by
          unfold strcmpp at hc
          split at hc; · cases hc
          rename_i hne
          split at hc; · cases hc
          rename_i hnl
          cases hx : strLt a[(l + u) / 2] key with
          | true => rfl
          | false => exact absurd (strLt_tri (by simpa using hnl) hx) hne
        simp only
        rw [ih ((l + u) / 2 + 1) u (by omega) hu]
        constructor
        · rintro ⟨i, h1, h2, h3⟩; exact ⟨i, by omega, h2, h3⟩
        · rintro ⟨i, h1, h2, h3⟩
          refine ⟨i, ?_, h2, h3⟩
          have hia : i < a.length := by omega
          rw [List.getElem?_eq_getElem hia] at h3
          have h3 := Option.some.inj h3
          by_cases h4 : (l + u) / 2 < i
          · omega
          · exfalso
            by_cases h5 : i = (l + u) / 2
            · subst h5; rw [h3, strLt_irrefl] at hgt; cases hgt
            · have := hpw _ _ hia hi (by omega)
              rw [h3] at this
              rw [strLt_asymm this] at hgt; cases hgt
    · rw [if_neg hlu]
      constructor
      · intro h; cases h
      · rintro ⟨i, h1, h2, _⟩; omega

theorem listed_iff {dirents : List Bytes} (h : Ascending dirents) (name : Bytes) : listed dirents name = true ↔ name ∈ dirents := by
  unfold listed
  rw [bsearch_iff name dirents h _ _ _ (by omega) (Nat.le_refl _)]
  constructor
  · rintro ⟨i, _, _, h⟩; exact List.mem_of_getElem? h
  · intro h
    obtain ⟨i, hi, he⟩ := List.getElem_of_mem h
    exact ⟨i, Nat.zero_le _, hi, by rw [List.getElem?_eq_getElem hi, he]⟩

/-- Nobody else removes anything. -/
def Alone (fail : Fail) : Prop := ∀ p s, fail p s ≠ some .ENOENT

theorem unlinkImm_gone {fail : Fail} (ha : Alone fail) {undo able path} (h : gone (unlinkImm fail undo able path) = true) :
    unlinkImm fail undo able path = none := by
  generalize hu : unlinkImm fail undo able path = u at h
  cases u with
  | none => rfl
  | some e =>
    exfalso
    have he : e = .ENOENT := by simpa [gone] using h
    subst he
    unfold unlinkImm at hu
    split at hu
    · cases hu
    · rename_i e he
      split at hu
      · cases hu; exact ha _ _ he
      split at hu; · cases hu
      split at hu
      · rename_i e he'; cases hu; exact ha _ _ he'
      split at hu; · cases hu
      split at hu
      · rename_i e he'; cases hu; exact ha _ _ he'
      · exact ha _ _ hu

theorem rmdirImm_gone {fail : Fail} {undo path d} (h : gone (rmdirImm fail undo path d) = true) : d = .nil := by
  cases d with
  | nil => rfl
  | cons => simp [rmdirImm, gone] at h

theorem DirLess.refl (dev : Nat) : ∀ d, DirLess dev d d
  | .nil => .nil
  | .cons _ _ r => .keep .same (DirLess.refl dev r)

theorem DirLess.nil_inv {dev : Nat} : ∀ {d}, DirLess dev .nil d → d.onDevice dev
  | .nil, _ => by unfold Dir.onDevice; trivial
  | .cons _ _ _, .drop h1 h2 => by unfold Dir.onDevice; exact ⟨h1, h2.nil_inv⟩

theorem rmChildren_less (fail : Fail) (ha : Alone fail) (undo : Bool) (dev : Nat) : ∀ (d : Dir) (path : List Bytes) (k : Nat) (ret : Option Errno),
    DirLess dev (rmChildren fail undo dev path k ret d).1 d
  | .nil, path, k, ret => by
    unfold rmChildren
    split <;> exact .nil
  | .cons name (.leaf reg data) rest, path, k, ret => by
    unfold rmChildren
    split
    · exact DirLess.refl _ _
    · simp only
      have ih := rmChildren_less fail ha undo dev rest path (k + 1)
      split
      · exact .drop (by unfold Obj.onDevice; trivial) (ih _)
      · exact .keep .same (ih _)
  | .cons name (.dir dv kids) rest, path, k, ret => by
    unfold rmChildren
    have ih := rmChildren_less fail ha undo dev rest path (k + 1)
    split
    · exact DirLess.refl _ _
    split
    · rename_i e he
      simp only
      rw [if_neg (by intro h; have : e = .ENOENT := by simpa [gone] using h
                     subst this; exact ha _ _ he)]
      exact .keep .same (ih _)
    split
    · exact .keep .same (ih _)
    rename_i hdv
    have hdv : dv = dev := by simpa using hdv
    subst hdv
    split
    · rename_i e he
      simp only
      rw [if_neg (by intro h; have : e = .ENOENT := by simpa [gone] using h
                     subst this; exact ha _ _ he)]
      exact .keep .same (ih _)
    · simp only
      have hk := rmChildren_less fail ha undo dv kids (path ++ [name]) 0 none
      split
      · rename_i hg
        rw [rmdirImm_gone hg] at hk
        exact .drop (by unfold Obj.onDevice; exact ⟨rfl, hk.nil_inv⟩) (ih _)
      · exact .keep (.dir hk) (ih _)

/-- `rm_rf_at`: what is left. -/
theorem rmAt_left (fail : Fail) (ha : Alone fail) (undo : Bool) (path : List Bytes) (o : Obj) :
    (∀ o', (rmAt fail undo path o).1 = some o' → o' = o ∨ ∃ dev kids' kids, o = .dir dev kids ∧ o' = .dir dev kids' ∧ DirLess dev kids' kids) ∧
    ((rmAt fail undo path o).1 = none → o.uniform) := by
  cases o with
  | leaf reg data =>
    refine ⟨?_, fun _ => by unfold Obj.uniform; trivial⟩
    intro o' h
    simp only [rmAt] at h
    left
    split at h
    · simp only at h
      split at h <;> cases h; rfl
    · split at h
      · cases h
      · split at h <;> cases h; rfl
  | dir dev kids =>
    have hk := rmChildren_less fail ha undo dev kids path 0 none
    constructor
    · intro o' h
      simp only [rmAt] at h
      split at h
      · simp only at h
        split at h <;> cases h; exact .inl rfl
      · skip
        split at h
        · cases h
        · split at h
          · cases h
          · cases h
            exact .inr ⟨dev, _, kids, rfl, rfl, hk⟩
    · intro h
      simp only [rmAt] at h
      split at h
      · rename_i e he
        simp only at h
        split at h
        · rename_i hg
          have : e = .ENOENT := by simpa [gone] using hg
          subst this; exact absurd he (ha _ _)
        · cases h
      · have hg : gone (rmdirImm fail undo path (rmChildren fail undo dev path 0 none kids).1) = true := by
          split at h
          · rename_i hh; rw [hh]; rfl
          · rename_i e hh
            split at h
            · rename_i he; rw [hh, he]; rfl
            · cases h
        rw [rmdirImm_gone hg] at hk
        unfold Obj.uniform
        exact hk.nil_inv

theorem Allowed.refl (dirents : List Bytes) : ∀ d, Allowed dirents d d
  | .nil => .nil
  | .cons _ _ r => .same (Allowed.refl dirents r)

theorem deleteLoop_allowed (fail : Fail) (ha : Alone fail) (undo : Bool) (path : List Bytes) (dirents : List Bytes) (hs : Ascending dirents) :
    ∀ (d : Dir) (k : Nat), Allowed dirents (deleteLoop fail undo path dirents k d).1 d
  | .nil, k => by
    unfold deleteLoop
    split <;> exact .nil
  | .cons name o rest, k => by
    have ih := deleteLoop_allowed fail ha undo path dirents hs rest (k + 1)
    unfold deleteLoop
    split
    · exact Allowed.refl _ _
    split
    · exact .same ih
    rename_i hl
    have hn : name ∉ dirents := fun h => hl ((listed_iff hs name).2 h)
    simp only
    obtain ⟨h1, h2⟩ := rmAt_left fail ha undo (path ++ [name]) o
    generalize rmAt fail undo (path ++ [name]) o = x at h1 h2
    obtain ⟨l, e⟩ := x
    have tail : ∀ r, Allowed dirents r rest → Allowed dirents (putBack name l r) (.cons name o rest) := by
      intro r hr
      cases l with
      | none => exact .gone hn (h2 rfl) hr
      | some o' =>
        rcases h1 o' rfl with rfl | ⟨dev, kids', kids, rfl, rfl, hk⟩
        · exact .same hr
        · exact .less hn hk hr
    cases e with
    | none => exact tail _ ih
    | some e => exact tail _ (Allowed.refl _ _)

/-- **C28** Whatever fails, however far the pass gets: if the archive lists the names in ascending order, then the entries it lists stay
exactly as they are; nothing is added; of an entry that is not listed only things on the device of the entry itself are removed. -/
theorem C28_only_unlisted (fail : Fail) (ha : Alone fail) (undo delete : Bool) (path : List Bytes) (dirents : List Bytes)
    (hs : Ascending dirents) (target : Dir) : Allowed dirents (nodeDelete fail undo delete path dirents target).1 target := by
  unfold nodeDelete
  split
  · exact Allowed.refl _ _
  split
  · exact Allowed.refl _ _
  · exact deleteLoop_allowed fail ha undo path dirents hs target 0

theorem Allowed.kept {dirents : List Bytes} {a b : Dir} (h : Allowed dirents a b) : Delete.kept dirents a = Delete.kept dirents b := by
  unfold Delete.kept
  induction h with
  | nil => rfl
  | same _ ih => simp only [Dir.list, List.filter_cons, ih]
  | gone hn _ _ ih => simp only [Dir.list, List.filter_cons, hn, decide_false, ih]; simp
  | less hn _ _ ih => simp only [Dir.list, List.filter_cons, hn, decide_false, ih]; simp

/-- **C28** In particular the listed entries are the same before and after. -/
theorem C28_listed_kept (fail : Fail) (ha : Alone fail) (undo delete : Bool) (path : List Bytes) (dirents : List Bytes)
    (hs : Ascending dirents) (target : Dir) : kept dirents (nodeDelete fail undo delete path dirents target).1 = kept dirents target :=
  (C28_only_unlisted fail ha undo delete path dirents hs target).kept

theorem deleteLoop_ok (fail : Fail) (undo : Bool) (path : List Bytes) (dirents : List Bytes) (hs : Ascending dirents) :
    ∀ (d : Dir) (k : Nat), (deleteLoop fail undo path dirents k d).2 = .ok () →
      (deleteLoop fail undo path dirents k d).1.list = kept dirents d
  | .nil, k => by
    intro _
    unfold deleteLoop
    split <;> rfl
  | .cons name o rest, k => by
    have ih := deleteLoop_ok fail undo path dirents hs rest (k + 1)
    unfold deleteLoop
    intro h
    split at h
    · cases h
    split at h
    · rename_i hl
      rw [if_pos hl]
      have hm := (listed_iff hs name).1 hl
      simp only [Dir.list, kept, List.filter_cons, hm, decide_true, if_true]
      rw [ih h]; rfl
    · rename_i hl
      rw [if_neg hl]
      have hn : name ∉ dirents := fun h => hl ((listed_iff hs name).2 h)
      simp only at h ⊢
      have hnone : (rmAt fail undo (path ++ [name]) o).2 = none → (rmAt fail undo (path ++ [name]) o).1 = none := by
        intro h2
        unfold rmAt at h2 ⊢
        cases o with
        | leaf reg data =>
          simp only at h2 ⊢
          cases ho : fail (path ++ [name]) Sys.open with
          | some e => simp only [ho] at h2; cases h2
          | none =>
            simp only [ho] at h2 ⊢
            cases hu : unlinkImm fail undo reg (path ++ [name]) with
            | none => rfl
            | some e =>
              simp only [hu] at h2 ⊢
              by_cases he : e = Errno.ENOENT
              · rw [if_pos he]
              · rw [if_neg he] at h2; cases h2
        | dir dev kids =>
          simp only at h2 ⊢
          cases ho : fail (path ++ [name]) Sys.open with
          | some e => simp only [ho] at h2; cases h2
          | none =>
            simp only [ho] at h2 ⊢
            cases hu : rmdirImm fail undo (path ++ [name]) (rmChildren fail undo dev (path ++ [name]) 0 none kids).1 with
            | none => rfl
            | some e =>
              simp only [hu] at h2 ⊢
              by_cases he : e = Errno.ENOENT
              · rw [if_pos he]
              · rw [if_neg he] at h2
                simp only [orElse] at h2
                split at h2 <;> cases h2
      generalize rmAt fail undo (path ++ [name]) o = x at h hnone ⊢
      obtain ⟨l, e⟩ := x
      cases e with
      | some e => cases h
      | none =>
        have : l = none := hnone rfl
        subst this
        simp only [Dir.list, kept, List.filter_cons, hn, decide_false, putBack] at h ⊢
        rw [ih h]; rfl

/-- **C28** If the pass reports success, then exactly the listed entries are left. -/
theorem C28_success (fail : Fail) (undo : Bool) (path : List Bytes) (dirents : List Bytes) (hs : Ascending dirents) (target : Dir)
    (h : (nodeDelete fail undo true path dirents target).2 = .ok ()) :
    (nodeDelete fail undo true path dirents target).1.list = kept dirents target := by
  unfold nodeDelete at h ⊢
  rw [if_neg (by simp)] at h ⊢
  split at h
  · cases h
  · exact deleteLoop_ok fail undo path dirents hs target 0 h

/-- Nothing fails. -/
def noFail : Fail := fun _ _ => none

theorem rmChildren_all (fail : Fail) (undo : Bool) (dev : Nat) : ∀ (d : Dir) (path : List Bytes) (k : Nat), d.onDevice dev →
    (∀ q s, q ≠ [] → fail (path ++ q) s = none) → (∀ k, fail path (.readdir k) = none) →
    rmChildren fail undo dev path k none d = (.nil, none)
  | .nil, path, k, _, _, hr => by unfold rmChildren; rw [hr]
  | .cons name (.leaf reg data) rest, path, k, h, hq, hr => by
    unfold Dir.onDevice at h
    have ih := rmChildren_all fail undo dev rest path (k + 1) h.2 hq hr
    unfold rmChildren
    rw [hr]
    have hn : unlinkImm fail undo reg (path ++ [name]) = none := by unfold unlinkImm; rw [hq _ _ (by simp)]
    simp only [hn, gone, if_true]
    exact ih
  | .cons name (.dir dv kids) rest, path, k, h, hq, hr => by
    unfold Dir.onDevice at h
    obtain ⟨h1, h2⟩ := h
    unfold Obj.onDevice at h1
    obtain ⟨rfl, h1⟩ := h1
    have ih := rmChildren_all fail undo dv rest path (k + 1) h2 hq hr
    have ihk := rmChildren_all fail undo dv kids (path ++ [name]) 0 h1 (fun q s _ => by rw [List.append_assoc]; exact hq _ _ (by simp)) (fun k => hq _ _ (by simp))
    have hn : unlinkImm fail undo true (path ++ [name]) = none := by unfold unlinkImm; rw [hq _ _ (by simp)]
    unfold rmChildren
    rw [hr, hq _ _ (by simp), hq _ _ (by simp)]
    simp only
    rw [if_neg (by simp), ihk]
    simp only [rmdirImm, hn, gone, if_true, orElse]
    exact ih

theorem rmAt_all (undo : Bool) (path : List Bytes) (o : Obj) (h : o.uniform) : rmAt noFail undo path o = (none, none) := by
  cases o with
  | leaf => rfl
  | dir dev kids =>
    unfold Obj.uniform at h
    unfold rmAt
    have := rmChildren_all noFail undo dev kids path 0 h (fun _ _ _ => rfl) (fun _ => rfl)
    simp only [noFail] at this ⊢
    rw [this]
    rfl

theorem deleteLoop_exact (undo : Bool) (path : List Bytes) (dirents : List Bytes) (hs : Ascending dirents) :
    ∀ (d : Dir) (k : Nat), (∀ x ∈ d.list, x.1 ∉ dirents → x.2.uniform) → (deleteLoop noFail undo path dirents k d).2 = .ok ()
  | .nil, k, _ => rfl
  | .cons name o rest, k, h => by
    have ih := deleteLoop_exact undo path dirents hs rest (k + 1) (fun x hx => h x (by unfold Dir.list; exact List.mem_cons_of_mem _ hx))
    unfold deleteLoop
    simp only [noFail] at ih ⊢
    split
    · exact ih
    · rename_i hl
      have := rmAt_all undo (path ++ [name]) o (h (name, o) (by unfold Dir.list; exact List.mem_cons_self) (fun hm => hl ((listed_iff hs name).2 hm)))
      rw [this]
      exact ih

/-- **C28** If nothing fails and no other file system is mounted inside of an entry that is to go, the pass succeeds, and exactly the
listed entries are left. -/
theorem C28_exact (undo : Bool) (path : List Bytes) (dirents : List Bytes) (hs : Ascending dirents) (target : Dir)
    (hu : ∀ x ∈ target.list, x.1 ∉ dirents → x.2.uniform) :
    (nodeDelete noFail undo true path dirents target).2 = .ok () ∧
    (nodeDelete noFail undo true path dirents target).1.list = kept dirents target := by
  have h : (nodeDelete noFail undo true path dirents target).2 = .ok () := deleteLoop_exact undo path dirents hs target 0 hu
  exact ⟨h, C28_success noFail undo path dirents hs target h⟩

/-- **C28** Without the setting nothing is removed. -/
theorem C28_disabled (fail : Fail) (undo : Bool) (path : List Bytes) (dirents : List Bytes) (target : Dir) :
    nodeDelete fail undo false path dirents target = (target, .ok ()) := rfl

/-- **C28 is false for archives whose names are not in order** (the decoder accepts them): of three entries, all listed, one is
removed. -/
theorem C28_unsorted_violated : ∃ (dirents : List Bytes) (target : Dir), (∀ x ∈ target.list, x.1 ∈ dirents) ∧
    ∀ undo path, (nodeDelete noFail undo true path dirents target).2 = .ok () ∧
      ∃ x ∈ target.list, x ∉ (nodeDelete noFail undo true path dirents target).1.list := by
  refine ⟨[[98], [97]], .cons [97] (.leaf true 0) (.cons [98] (.leaf true 1) .nil), by decide, fun undo path => ⟨rfl, ?_⟩⟩
  exact ⟨([98], .leaf true 1), by simp [Dir.list], by
    show _ ∉ [([97], Obj.leaf true 0)]
    simp⟩

/-- What the kernel says of the mount point `p`: it cannot be removed. -/
def busy (p : List Bytes) : Fail := fun q s => if q = p ∧ s = .unlink then some .EBUSY else none

/-- **C28, mounts.** An entry that is not listed and is itself a mount point is emptied: everything on the mounted file system is
removed, and only then the pass fails, because the mount point cannot be. -/
theorem C28_mount_point_emptied (undo : Bool) (path : List Bytes) (name : Bytes) (dev : Nat) (kids : Dir) (hk : kids.onDevice dev) :
    nodeDelete (busy (path ++ [name])) undo true path [] (.cons name (.dir dev kids) .nil) =
      (.cons name (.dir dev .nil) .nil, .err .EBUSY) := by
  have hp : path ≠ path ++ [name] := by
    intro h
    have := congrArg List.length h
    simp at this
  have hq : ∀ q : List Bytes, q ≠ [] → path ++ [name] ++ q ≠ path ++ [name] := by
    intro q hq h
    have := congrArg List.length h
    simp at this
    exact hq this
  have h1 := rmChildren_all (busy (path ++ [name])) undo dev kids (path ++ [name]) 0 hk
    (fun q s hne => by unfold busy; rw [if_neg (fun h => hq q hne h.1)]) (fun k => by unfold busy; rw [if_neg (by simp)])
  have hr : ∀ s, busy (path ++ [name]) path s = none := fun s => by unfold busy; rw [if_neg (fun h => hp h.1)]
  have ho : busy (path ++ [name]) (path ++ [name]) .open = none := by unfold busy; rw [if_neg (by simp)]
  have hu : unlinkImm (busy (path ++ [name])) undo true (path ++ [name]) = some .EBUSY := by
    unfold unlinkImm
    have : busy (path ++ [name]) (path ++ [name]) .unlink = some .EBUSY := by unfold busy; rw [if_pos ⟨rfl, rfl⟩]
    rw [this]
    rfl
  unfold nodeDelete
  rw [if_neg (by simp), hr]
  simp only
  unfold deleteLoop
  rw [hr]
  simp only
  rw [if_neg (show ¬ listed [] name = true from fun h => by cases h)]
  unfold rmAt
  simp only
  rw [ho]
  simp only
  rw [h1]
  simp only [rmdirImm]
  rw [hu]
  rfl

/-- A directory with a listed file, a stale subtree and a stale file: the pass leaves the listed file. -/
example : (nodeDelete noFail false true [[100]] [[97], [99]]
    (.cons [98] (.dir 1 (.cons [120] (.leaf false 7) .nil)) (.cons [99] (.leaf true 3) (.cons [122] (.leaf true 4) .nil)))).1.list = [([99], .leaf true 3)] := rfl
example : Ascending [[97], [99]] ∧ (Obj.dir 1 (.cons [120] (.leaf false 7) .nil)).uniform := by
  refine ⟨by simp [Ascending, strLt], ?_⟩
  simp [Obj.uniform, Dir.onDevice, Obj.onDevice]

end Casync.Delete
