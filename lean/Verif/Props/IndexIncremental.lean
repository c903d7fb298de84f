import Verif.Lemmas.IndexInc
/-!
Property C10: reading an index while it arrives piecemeal.

`Good 0 false ops` describes the schedules considered, `allData ops` is the complete file, and
`Timely` says when "try again" may be answered (all three are in Spec/IndexIncremental.lean and
refer to the schedule only).
-/
namespace Casync.Index
open Casync Casync.Index.Spec

/-- C10 for schedules that do not read while between 41 and 63 bytes have arrived (the full claim is false,
see `C10_early_read_violated`). Apart from "try again", the reads return exactly what the same number of
reads on the complete file returns. -/
theorem C10_incremental_partial (ops : List Op) (hg : Good 0 false ops) (hlen : (allData ops).length < 2 ^ 63) :
    ∃ m, (runInc newIncRead ops).filter (fun r => decide (r ≠ .err .EAGAIN)) = seqReads m (newRead (allData ops)) := by
  have := runInc_unparsed ops [] false hg (by simpa using hlen) (by simp)
  rw [List.nil_append] at this
  exact this.1

/-- C10. "Try again" is only returned as long as the next record has not arrived with one byte more and the
end of the data was not signalled. -/
theorem C10_no_needless_wait_partial (ops : List Op) (hg : Good 0 false ops)
    (hlen : (allData ops).length < 2 ^ 63) :
    Timely 0 false 0 ops (runInc newIncRead ops) := by
  have := runInc_unparsed ops [] false hg (by simpa using hlen) (by simp)
  exact this.2

/-- C10 is false of the code in general: a read issued after 41 to 63 bytes of a perfectly valid index have
arrived reports a malformed file instead of "try again". -/
theorem C10_early_read_violated (hd : Header) (cs : List (Bytes × Nat)) (n : Nat)
    (h1 : 41 ≤ n) (h2 : n < 64) :
    runInc newIncRead [.write ((encode hd cs).take n), .read] = [.err .EBADMSG] := by
  have hlen : ((encode hd cs).take n).length = n := by
    rw [List.length_take]; unfold encode
    rw [List.length_append, encHead_length]; omega
  generalize hF : (encode hd cs).take n = F at *
  have hf0 : field (F.take 40) 0 = 48 := by
    rw [← hF, List.take_take, show min 40 n = 40 by omega]
    unfold encode encHead field
    rw [List.append_assoc, Nat.mul_zero, List.drop_zero, List.take_take, show min 8 40 = 8 from rfl,
      take_app (le64_length 48)]
    exact rdLE_le64 (by decide)
  have hne : F ≠ [] := by intro h; rw [h] at hlen; simp at hlen; omega
  have hw : incWrite newIncRead F = .ok (ustate F false) := by
    unfold incWrite
    rw [if_neg (by simpa using hne), if_neg (by simp [newIncRead]), if_neg (by simp [newIncRead]),
      newIncRead_ustate, readHead_ustate_wait (by simp), Res.bind_ok]
    have : ¬ ((ustate [] false).raw + F.length ≥ 2 ^ 64) := by
      show ¬ (0 + F.length ≥ 2 ^ 64); omega
    rw [if_neg this]
    unfold ustate
    simp only [List.nil_append, List.length_nil, Nat.zero_add]
  have hr : readChunk (ustate F false) = .err .EBADMSG := by
    unfold readChunk
    rw [readHead_ustate_wait (by omega), Res.bind_ok, if_neg (by simp [ustate])]
    have : enoughData (ustate F false) 41 = .ok true := by
      unfold enoughData
      simp [ustate]; omega
    rw [this]
    have h40 : (fdRead (ustate F false) 40).1 = F.take 40 := rfl
    have hl40 : (F.take 40).length = 40 := by rw [List.length_take]; omega
    simp only [h40]
    rw [if_neg (by omega)]
    unfold parseRecord
    rw [hf0]
    have hprev : (fdRead (ustate F false) 40).2.prev = 0 := rfl
    have hcm : (fdRead (ustate F false) 40).2.cmax = 0 := rfl
    rw [hprev, hcm, if_neg (by omega), if_neg (by omega), if_pos (by simp)]
  simp only [runInc, hw, hr]

/-- Non-vacuity of the schedules: the head in two pieces, then records piecemeal with reads in between. -/
example : Good 0 false [.write (List.replicate 40 1), .read, .write (List.replicate 24 2), .read,
    .write (List.replicate 41 2), .read, .eof, .read, .read] := by
  simp [Good]

end Casync.Index
