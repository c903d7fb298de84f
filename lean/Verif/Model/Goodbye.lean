import Verif.Base.Res
/-!
Model of `src/camakebst.c`, `ca_name_table_make_bst()`, the directory table part of
`ca_encoder_get_goodbye_data()` and the table lookup of the decoder.

Arrays are lists; the output array of `ca_make_bst()` is a list of `Option`, `none` being a slot that has not been
written. An access outside of an array is `Res.ub`. `uint64_t`/`size_t` values are `Nat`: table sizes are bounded by
memory, so the index arithmetic `2*i+2` cannot wrap.
-/
namespace Casync.Goodbye
open Casync

/-- src/camakebst.c:18-65 `make_bst_inner` (arrays of an arbitrary element type instead of `size` bytes). Structural
recursion on `e`, which the C code decrements in each recursive call and asserts to be positive. -/
def makeBstInner {α : Type} : (e : Nat) → (input : List α) → (n : Nat) → (output : List (Option α)) → (i : Nat) →
    Res (List (Option α))
  | e, input, n, output, i =>
    if n = 0 then .ok output
    else match e with
      | 0 => .ub
      | e + 1 => do
        let p := 2 ^ e
        let q := 2 ^ (e + 1)
        let k := if p - 1 + p / 2 ≤ n then (q - 2) / 2 else (q - 2) / 2 - (p - 1 + p / 2 - n)
        match input[k]? with
        | none => .ub
        | some x =>
          if i < output.length then do
            let out ← makeBstInner e input k (output.set i (some x)) (i * 2 + 1)
            makeBstInner e (input.drop (k + 1)) (n - k - 1) out (i * 2 + 2)
          else .ub

/-- src/camakebst.c:67-83 `ca_make_bst`; `log_of_2` (lines 12-16) is `__builtin_clzl`, undefined for zero. -/
def makeBst {α : Type} (input : List α) (n : Nat) (output : List (Option α)) : Res (List (Option α)) :=
  if n = 0 then .ub else makeBstInner (Nat.log2 n + 1) input n output 0

/-- src/canametable.h:12-17 `CaNameItem`. -/
structure NameItem where
  hash : Nat
  startOffset : Nat
  endOffset : Nat
  deriving DecidableEq, Repr

/-- src/canametable.c:285-305 `name_table_compare`, as "not greater". -/
def nameItemLe (a b : NameItem) : Bool :=
  a.hash < b.hash || (a.hash == b.hash && a.startOffset ≤ b.startOffset)

/-- All slots of an array, if all have been written (reading an uninitialised slot is undefined). -/
def allSet {α : Type} : List (Option α) → Res (List α)
  | [] => .ok []
  | none :: _ => .ub
  | some x :: l => do
    let r ← allSet l
    .ok (x :: r)

/-- src/canametable.c:307-338 `ca_name_table_make_bst`; `qsort` is a parameter (the C library's). -/
def nameTableMakeBst (qsort : List NameItem → List NameItem) (items : List NameItem) : Res (List NameItem) :=
  if items.length ≤ 1 then .ok items
  else do
    let out ← makeBst (qsort items) items.length (List.replicate items.length none)
    allSet out

/-- src/caformat.h `CaFormatGoodbyeItem`. -/
structure Item where
  offset : Nat
  size : Nat
  hash : Nat
  deriving DecidableEq, Repr

/-- src/caencoder.c:2864-2874, one table row of `ca_encoder_get_goodbye_data` with its assertions. -/
def goodbyeItem (start : Nat) (x : NameItem) : Res Item := do
  Res.assert (decide (x.startOffset < start))
  Res.assert (decide (x.endOffset ≤ start))
  Res.assert (decide (x.startOffset < x.endOffset))
  .ok { offset := start - x.startOffset, size := x.endOffset - x.startOffset, hash := x.hash }

/-- src/caencoder.c:2864-2874, the loop over the rows. -/
def goodbyeItems (start : Nat) : List NameItem → Res (List Item)
  | [] => .ok []
  | x :: l => do
    let i ← goodbyeItem start x
    let r ← goodbyeItems start l
    .ok (i :: r)

/-- src/caencoder.c:2818-2889 `ca_encoder_get_goodbye_data`: the rows of the table of a directory whose GOODBYE record
starts at archive offset `start`. (Record header and tail: see the archive model.) -/
def goodbyeTable (qsort : List NameItem → List NameItem) (items : List NameItem) (start : Nat) : Res (List Item) := do
  let bst ← nameTableMakeBst qsort items
  goodbyeItems start bst

/-- src/cadecoder.c:1354-1393 `format_goodbye_search_inner`: the row found (`none` is NULL) and the updated `*idx`. The
recursion ends because the index grows. -/
def searchInner (table : List Item) (h : Nat) (i : Nat) (idx : Nat) : Option Item × Nat :=
  if hi : i < table.length then
    let p := (table[i]).hash
    if p = h ∧ idx = 0 then (some table[i], idx)
    else
      let idx := if p = h then idx - 1 else idx
      let l := if h ≤ p then searchInner table h (2 * i + 1) idx else (none, idx)
      match l.1 with
      | some f => (some f, l.2)
      | none => if p ≤ h then searchInner table h (2 * i + 2) l.2 else (none, l.2)
  else (none, idx)
termination_by table.length - i

/-- src/cadecoder.c:1410-1427 `format_goodbye_search`, after hashing the name. -/
def search (table : List Item) (h : Nat) (idx : Nat) : Option Item := (searchInner table h 0 idx).1

/-- src/cadecoder.c:1605-1640, the part of `ca_decoder_do_seek` that turns a table row into the archive range of the
child (from its FILENAME record on): `.ok none` means the decoder reports "not found". -/
def locate (table : List Item) (goodbyeOffset entryOffset : Nat) (h idx : Nat) : Res (Option (Nat × Nat)) :=
  match search table h idx with
  | none => .ok none
  | some item =>
    if item.size > item.offset then .err .EBADMSG
    else if item.offset > goodbyeOffset then .err .EBADMSG
    else if goodbyeOffset - item.offset < entryOffset then .err .EBADMSG
    else .ok (some (goodbyeOffset - item.offset, goodbyeOffset - item.offset + item.size))

end Casync.Goodbye
