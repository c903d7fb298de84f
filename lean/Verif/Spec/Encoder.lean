import Verif.Model.Encoder
/-!
How an encoder is driven.
-/
namespace Casync.Archive
open Casync Flags

/-- How a session with an encoder ends. -/
inductive EOutcome
  | finished
  | error (e : Errno)
  | crash
  deriving DecidableEq, Repr

/-- A session: `ca_encoder_step()` is called again and again, and, when it says that there is data, `ca_encoder_get_data()` with a suggested size
(as `ca_sync_step_encode()` does, src/casync.c:2020-2330).  `sizes` is what is suggested in the first, second, ... call (`none` is
`UINT64_MAX`).  `ERun sizes e bytes outcome`: all the data is `bytes`. -/
inductive ERun (qsort : List Goodbye.NameItem → List Goodbye.NameItem) : (Nat → Option Nat) → Enc → Bytes → EOutcome → Prop
  | finished {sz e e'} : eStep e = (e', .ok .finished) → ERun qsort sz e [] .finished
  | error {sz e e' x} : eStep e = (e', .err x) → ERun qsort sz e [] (.error x)
  | crash {sz e e'} : eStep e = (e', .ub) → ERun qsort sz e [] .crash
  | done {sz e e' b o} : eStep e = (e', .ok .doneFile) → ERun qsort sz e' b o → ERun qsort sz e b o
  | data {sz e e' e'' ev x b o} : eStep e = (e', .ok ev) → ev ∈ [EEv.nextFile, .payload, .data] → getData qsort e' (sz 0) = (e'', .ok x) →
      ERun qsort (fun n => sz (n + 1)) e'' b o → ERun qsort sz e (x ++ b) o
  | dataError {sz e e' e'' ev x} : eStep e = (e', .ok ev) → ev ∈ [EEv.nextFile, .payload, .data] → getData qsort e' (sz 0) = (e'', .err x) →
      ERun qsort sz e [] (.error x)
  | dataCrash {sz e e' e'' ev} : eStep e = (e', .ok ev) → ev ∈ [EEv.nextFile, .payload, .data] → getData qsort e' (sz 0) = (e'', .ub) →
      ERun qsort sz e [] .crash

/-- A fresh encoder for an object. -/
def eStart (t : Tree) : Enc := { nodes := [freshNode t] }

/-- No empty reads are suggested. -/
def Positive (sz : Nat → Option Nat) : Prop := ∀ n k, sz n = some k → 0 < k

end Casync.Archive
