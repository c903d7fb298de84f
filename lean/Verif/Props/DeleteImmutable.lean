import Verif.Spec.DeleteImmutable
import Verif.Props.Delete
/-!
C28: removing what is marked immutable.
-/
namespace Casync.Delete
open Casync

theorem unlink_locked (im : List Bytes → Bool) (able : Bool) (path : List Bytes) (name : Bytes) :
    unlinkImm (locked im) true able (path ++ [name]) =
      if im path = false ∧ (im (path ++ [name]) = true → able = true) then none else some .EPERM := by
  unfold unlinkImm
  simp only [locked, List.dropLast_concat]
  cases im (path ++ [name]) <;> cases im path <;> cases able <;> rfl

theorem unlink_locked_dir (im : List Bytes → Bool) (path : List Bytes) (name : Bytes) :
    unlinkImm (locked im) true true (path ++ [name]) = if im path = false then none else some .EPERM := by
  rw [unlink_locked]
  simp

theorem rmChildren_ret (im : List Bytes → Bool) (dev : Nat) : ∀ (d : Dir) (path : List Bytes) (k : Nat) (e : Errno),
    (rmChildren (locked im) true dev path k (some e) d).2 = some e
  | .nil, path, k, e => rfl
  | .cons name (.leaf reg data) rest, path, k, e => by
    unfold rmChildren
    simp only [locked]
    cases unlinkImm (fun path s => locked im path s) true reg (path ++ [name]) with
    | none => exact rmChildren_ret im dev rest path (k + 1) e
    | some x => exact rmChildren_ret im dev rest path (k + 1) e
  | .cons name (.dir dv kids) rest, path, k, e => by
    unfold rmChildren
    simp only [show ∀ p k, locked im p (.readdir k) = none from fun _ _ => rfl, show ∀ p, locked im p .stat = none from fun _ => rfl,
      show ∀ p, locked im p .open = none from fun _ => rfl]
    split
    · exact rmChildren_ret im dev rest path (k + 1) e
    · show (rmChildren (locked im) true dev path (k + 1) _ rest).2 = some e
      cases rmdirImm (locked im) true (path ++ [name]) (rmChildren (locked im) true dev (path ++ [name]) 0 none kids).1 with
      | none => exact rmChildren_ret im dev rest path (k + 1) e
      | some x => exact rmChildren_ret im dev rest path (k + 1) e

theorem rmChildren_locked (im : List Bytes → Bool) (dev : Nat) : ∀ (d : Dir) (path : List Bytes) (k : Nat), d.onDevice dev →
    ((rmChildren (locked im) true dev path k none d).2 = none ↔ d.free im path) ∧
    (d.free im path → (rmChildren (locked im) true dev path k none d).1 = .nil)
  | .nil, path, k, _ => ⟨⟨fun _ => trivial, fun _ => rfl⟩, fun _ => rfl⟩
  | .cons name (.leaf reg data) rest, path, k, h => by
    unfold Dir.onDevice at h
    have ih := rmChildren_locked im dev rest path (k + 1) h.2
    unfold rmChildren Dir.free Obj.free
    simp only [show ∀ p k, locked im p (.readdir k) = none from fun _ _ => rfl, unlink_locked]
    by_cases hc : im path = false ∧ (im (path ++ [name]) = true → reg = true)
    · simp only [if_pos hc, gone, if_true]
      refine ⟨ih.1.trans ⟨fun hf => ⟨hc.1, hc.2, hf⟩, fun hf => hf.2.2⟩, fun hf => ih.2 hf.2.2⟩
    · simp only [if_neg hc]
      refine ⟨⟨fun hn => ?_, fun hf => absurd ⟨hf.1, hf.2.1⟩ hc⟩, fun hf => absurd ⟨hf.1, hf.2.1⟩ hc⟩
      have := rmChildren_ret im dev rest path (k + 1) .EPERM
      rw [show note none Errno.EPERM = some .EPERM from rfl, this] at hn
      cases hn
  | .cons name (.dir dv kids) rest, path, k, h => by
    unfold Dir.onDevice at h
    obtain ⟨h1, h2⟩ := h
    unfold Obj.onDevice at h1
    obtain ⟨rfl, h1⟩ := h1
    have ih := rmChildren_locked im dv rest path (k + 1) h2
    have ihk := rmChildren_locked im dv kids (path ++ [name]) 0 h1
    unfold rmChildren Dir.free Obj.free
    simp only [show ∀ p k, locked im p (.readdir k) = none from fun _ _ => rfl, show ∀ p, locked im p .stat = none from fun _ => rfl,
      show ∀ p, locked im p .open = none from fun _ => rfl, ne_eq, not_true_eq_false, if_false]
    by_cases hk : kids.free im (path ++ [name])
    · have hz : rmChildren (locked im) true dv (path ++ [name]) 0 none kids = (.nil, none) := Prod.ext (ihk.2 hk) (ihk.1.2 hk)
      rw [hz]
      simp only [rmdirImm, unlink_locked_dir, orElse]
      by_cases hc : im path = false
      · simp only [if_pos hc, gone, if_true]
        exact ⟨ih.1.trans ⟨fun hf => ⟨hc, hk, hf⟩, fun hf => hf.2.2⟩, fun hf => ih.2 hf.2.2⟩
      · simp only [if_neg hc]
        refine ⟨⟨fun hn => ?_, fun hf => absurd hf.1 hc⟩, fun hf => absurd hf.1 hc⟩
        have := rmChildren_ret im dv rest path (k + 1) .EPERM
        rw [show note none Errno.EPERM = some .EPERM from rfl, this] at hn
        cases hn
    · refine ⟨⟨fun hn => ?_, fun hf => absurd hf.2.1 hk⟩, fun hf => absurd hf.2.1 hk⟩
      exfalso
      cases hr : (rmChildren (locked im) true dv (path ++ [name]) 0 none kids).2 with
      | none => exact hk (ihk.1.1 hr)
      | some e =>
        simp only [hr, orElse] at hn
        revert hn
        cases rmdirImm (locked im) true (path ++ [name]) (rmChildren (locked im) true dv (path ++ [name]) 0 none kids).1 with
        | none => intro hn; rw [rmChildren_ret] at hn; cases hn
        | some x => intro hn; simp only [show note (some e) x = some e from rfl, rmChildren_ret] at hn; cases hn

/-- **C28, immutable files.** With `--undo-immutable=yes`, if nothing else is in the way, an entry of a directory that is not immutable
itself is removed completely exactly if no directory in it that has entries is immutable (and nothing without such a flag is). -/
theorem C28_undo_immutable (im : List Bytes → Bool) (path : List Bytes) (name : Bytes) (o : Obj) (hu : o.uniform) (hp : im path = false) :
    (rmAt (locked im) true (path ++ [name]) o).2 = none ↔ o.free im (path ++ [name]) := by
  cases o with
  | leaf reg data =>
    unfold rmAt Obj.free
    simp only [show ∀ p, locked im p .open = none from fun _ => rfl, unlink_locked, hp, true_and]
    by_cases hc : im (path ++ [name]) = true → reg = true
    · simp only [if_pos hc]; exact ⟨fun _ => hc, fun _ => trivial⟩
    · simp only [if_neg hc]
      exact ⟨fun h => by simp at h, fun h => absurd h hc⟩
  | dir dev kids =>
    unfold Obj.uniform at hu
    have h := rmChildren_locked im dev kids (path ++ [name]) 0 hu
    unfold rmAt Obj.free
    simp only [show ∀ p, locked im p .open = none from fun _ => rfl]
    by_cases hk : kids.free im (path ++ [name])
    · rw [h.2 hk]
      simp only [rmdirImm, unlink_locked, hp, true_and, implies_true, if_true]
      exact h.1
    · refine ⟨fun hn => ?_, fun hf => absurd hf hk⟩
      exfalso
      cases hr : (rmChildren (locked im) true dev (path ++ [name]) 0 none kids).2 with
      | none => exact hk (h.1.1 hr)
      | some e =>
        revert hn
        rw [hr]
        cases rmdirImm (locked im) true (path ++ [name]) (rmChildren (locked im) true dev (path ++ [name]) 0 none kids).1 with
        | none => intro hn; cases hn
        | some x =>
          simp only [orElse]
          split <;> (intro hn; cases hn)

/-- **C28, immutable files.** Nothing is left of an entry that is removed without an error. -/
theorem C28_undo_immutable_gone (im : List Bytes → Bool) (path : List Bytes) (name : Bytes) (o : Obj) (hu : o.uniform) (hp : im path = false)
    (hf : o.free im (path ++ [name])) : rmAt (locked im) true (path ++ [name]) o = (none, none) := by
  refine Prod.ext ?_ ((C28_undo_immutable im path name o hu hp).2 hf)
  cases o with
  | leaf reg data =>
    unfold Obj.free at hf
    unfold rmAt
    simp only [show ∀ p, locked im p .open = none from fun _ => rfl, unlink_locked, hp, true_and, if_pos hf]
  | dir dev kids =>
    unfold Obj.uniform at hu
    unfold Obj.free at hf
    have h := rmChildren_locked im dev kids (path ++ [name]) 0 hu
    unfold rmAt
    simp only [show ∀ p, locked im p .open = none from fun _ => rfl]
    rw [h.2 hf]
    simp only [rmdirImm, unlink_locked, hp, true_and, implies_true, if_true]

/-- **C28 is false for immutable directories with `--undo-immutable=yes`**: a stale immutable directory with one ordinary file in it
stays, with the file, and the pass fails; the flag of the directory would have to be cleared before its entries are removed. -/
theorem C28_immutable_directory_violated (path : List Bytes) (name f : Bytes) (dev data : Nat) :
    nodeDelete (locked fun p => decide (p = path ++ [name])) true true path [] (.cons name (.dir dev (.cons f (.leaf true data) .nil)) .nil) =
      (.cons name (.dir dev (.cons f (.leaf true data) .nil)) .nil, .err .EPERM) := by
  unfold nodeDelete
  rw [if_neg (by simp)]
  simp only [show ∀ im p, locked im p .open = none from fun _ _ => rfl]
  unfold deleteLoop
  simp only [show ∀ im p k, locked im p (.readdir k) = none from fun _ _ _ => rfl]
  rw [if_neg (show ¬ listed [] name = true from fun h => by cases h)]
  unfold rmAt
  simp only [show ∀ im p, locked im p .open = none from fun _ _ => rfl]
  unfold rmChildren
  have hu : unlinkImm (locked fun p => decide (p = path ++ [name])) true true (path ++ [name] ++ [f]) = some .EPERM := by
    rw [unlink_locked_dir, if_neg (by simp)]
  simp only [show ∀ im p k, locked im p (.readdir k) = none from fun _ _ _ => rfl, hu]
  rfl

/-- An immutable file in a directory, and an immutable empty directory: both are removed. -/
example : ∃ im : List Bytes → Bool, im [[97], [98]] = true ∧ im [[97], [99]] = true ∧
    (Obj.dir 1 (.cons [98] (.leaf true 5) (.cons [99] (.dir 1 .nil) .nil))).free im ([] ++ [[97]]) ∧ im [] = false ∧
    (Obj.dir 1 (.cons [98] (.leaf true 5) (.cons [99] (.dir 1 .nil) .nil))).uniform := by
  refine ⟨fun p => decide (p = [[97], [98]] ∨ p = [[97], [99]]), by decide, by decide, ?_, by decide, ?_⟩
  · simp [Obj.free, Dir.free]
  · simp [Obj.uniform, Dir.onDevice, Obj.onDevice]

end Casync.Delete
