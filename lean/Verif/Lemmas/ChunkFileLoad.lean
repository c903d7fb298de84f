import Verif.Lemmas.Exec
import Verif.Model.ChunkFile
/-!
Complete runs of the readers of chunk files (auxiliary).
-/
namespace Casync.ChunkFile
open Casync Os

/-- No system call fails. -/
abbrev Good (ch : Choice) : Prop := ch.fail = none
/-- No system call fails, and reads deliver what is asked for if there is that much. -/
abbrev Full (ch : Choice) : Prop := ch.fail = none ∧ BUF ≤ ch.n

theorem sem_read (fs : FS) (i off n : Nat) (ch : Choice) (h : ch.fail = none) :
    sem fs (.read i off n) ch = (.data (((fs.data i).drop off).take (min n (max 1 ch.n))), fs) := by
  unfold sem; rw [h]

theorem post_loadLoop (ino : Nat) (fs : FS) : ∀ (fuel : Nat) (acc rest : Bytes), fs.data ino = acc ++ rest →
    MAX + 2 ≤ acc.length + fuel → 1 ≤ fuel → ∀ (Q : Res Bytes → FS → Prop),
    Q (if (fs.data ino).length < 1 ∨ MAX ≤ (fs.data ino).length then .err .EBADMSG else .ok (fs.data ino)) fs →
    post Good (loadLoop ino fuel acc) Q fs := by
  intro fuel
  induction fuel with
  | zero => intro acc rest _ _ h; omega
  | succ fuel ih =>
    intro acc rest hd hf _ Q hQ
    have hl := congrArg List.length hd
    rw [List.length_append] at hl
    rw [loadLoop]
    split
    · rename_i h
      have : MAX ≤ (fs.data ino).length := by omega
      rw [if_pos (Or.inr this)] at hQ
      exact hQ
    · rename_i h
      intro ch hc
      rw [sem_read _ _ _ _ _ hc]
      simp only
      have hdrop : (fs.data ino).drop acc.length = rest := by rw [hd, List.drop_left]
      rw [hdrop]
      have hm : 1 ≤ min BUF (max 1 ch.n) := by simp only [BUF]; omega
      cases hr : rest with
      | nil =>
        subst hr
        simp only [List.take_nil, List.length_nil, if_true]
        simp only [List.length_nil, Nat.add_zero] at hl
        rw [List.append_nil] at hd
        split
        · rename_i h1
          rw [if_pos (Or.inl (by omega))] at hQ; exact hQ
        · rename_i h1
          rw [if_neg (by omega)] at hQ; rw [← hd]; exact hQ
      | cons b bs =>
        have hlen : 0 < ((b :: bs).take (min BUF (max 1 ch.n))).length := by
          rw [List.length_take, List.length_cons]; omega
        rw [if_neg (by omega)]
        refine ih _ ((b :: bs).drop (min BUF (max 1 ch.n))) ?_ ?_ (by omega) Q hQ
        · rw [hd, hr, List.append_assoc, List.take_append_drop]
        · rw [List.length_append]; omega

/-- `ca_load_fd` delivers the contents of the file, unless it is empty or has the maximum size or more. -/
theorem post_loadFd (ino : Nat) (fs : FS) (Q : Res Bytes → FS → Prop)
    (h : Q (if (fs.data ino).length < 1 ∨ MAX ≤ (fs.data ino).length then .err .EBADMSG else .ok (fs.data ino)) fs) :
    post Good (loadFd ino) Q fs :=
  post_loadLoop ino fs _ [] (fs.data ino) rfl (by simp) (by omega) Q h

theorem post_slurpLoop (ino : Nat) (fs : FS) : ∀ (fuel : Nat) (acc rest : Bytes), fs.data ino = acc ++ rest →
    acc.length < MAX → MAX + 2 ≤ acc.length + fuel → ∀ (Q : Res Bytes → FS → Prop),
    Q (if MAX ≤ (fs.data ino).length then .err .EBADMSG else .ok (fs.data ino)) fs →
    post Good (slurpLoop ino fuel acc) Q fs := by
  intro fuel
  induction fuel with
  | zero => intro acc rest _ _ h; omega
  | succ fuel ih =>
    intro acc rest hd hm hf Q hQ
    have hl := congrArg List.length hd
    rw [List.length_append] at hl
    rw [slurpLoop]
    intro ch hc
    rw [sem_read _ _ _ _ _ hc]
    simp only
    have hdrop : (fs.data ino).drop acc.length = rest := by rw [hd, List.drop_left]
    rw [hdrop]
    have hb : 1 ≤ min BUF (max 1 ch.n) := by simp only [BUF]; omega
    generalize min BUF (max 1 ch.n) = m at hb ⊢
    cases hr : rest with
    | nil =>
      subst hr
      simp only [List.length_nil, Nat.add_zero] at hl
      rw [List.append_nil] at hd
      rw [List.take_nil, List.length_nil, if_pos rfl]
      rw [if_neg (by omega), hd] at hQ; exact hQ
    | cons b bs =>
      have hlen : 0 < ((b :: bs).take m).length := by
        rw [List.length_take, List.length_cons]; omega
      have hlen2 : ((b :: bs).take m).length ≤ rest.length := by
        rw [List.length_take, hr]; omega
      rw [if_neg (by omega)]
      by_cases h1 : (acc ++ (b :: bs).take m).length ≥ MAX
      · rw [if_pos h1]
        rw [List.length_append] at h1
        rw [if_pos (by omega)] at hQ; exact hQ
      · rw [if_neg h1]
        refine ih _ ((b :: bs).drop m) ?_ (by omega) ?_ Q hQ
        · rw [hd, hr, List.append_assoc, List.take_append_drop]
        · rw [List.length_append]; omega

theorem post_slurpShortLoop (ino : Nat) (fs : FS) : ∀ (fuel : Nat) (acc rest : Bytes), fs.data ino = acc ++ rest →
    acc.length < MAX → MAX + 2 ≤ acc.length + fuel → ∀ (Q : Res Bytes → FS → Prop),
    Q (if MAX ≤ (fs.data ino).length then .err .EBADMSG else .ok (fs.data ino)) fs →
    post Full (slurpShortLoop ino fuel acc) Q fs := by
  intro fuel
  induction fuel with
  | zero => intro acc rest _ _ h; omega
  | succ fuel ih =>
    intro acc rest hd hm hf Q hQ
    have hl := congrArg List.length hd
    rw [List.length_append] at hl
    rw [slurpShortLoop]
    intro ch hc
    rw [sem_read _ _ _ _ _ hc.1]
    simp only
    have hdrop : (fs.data ino).drop acc.length = rest := by rw [hd, List.drop_left]
    rw [hdrop]
    have hb : min BUF (max 1 ch.n) = BUF := by
      have := hc.2
      simp only [BUF] at *; omega
    rw [hb]
    have hlen : (rest.take BUF).length = min BUF rest.length := List.length_take
    have hB : 1 ≤ BUF := by simp only [BUF]; omega
    by_cases h1 : (acc ++ rest.take BUF).length ≥ MAX
    · rw [if_pos h1]
      rw [List.length_append] at h1
      rw [if_pos (by omega)] at hQ; exact hQ
    · rw [if_neg h1]
      by_cases h2 : (rest.take BUF).length < BUF
      · rw [if_pos h2]
        have h3 : rest.take BUF = rest := List.take_of_length_le (by omega)
        rw [h3] at h1 ⊢
        rw [← hd] at h1 ⊢
        rw [if_neg (by omega)] at hQ; exact hQ
      · rw [if_neg h2]
        refine ih _ (rest.drop BUF) ?_ (by omega) ?_ Q hQ
        · rw [hd, List.append_assoc, List.take_append_drop]
        · rw [List.length_append]; omega

end Casync.ChunkFile
