import Verif.Base.Res
/-!
What a hash table is for: a finite map. A map is the list of its entries, no two of which have the same key; the order means
nothing.
-/
namespace Casync.Hashmap.Spec
open Casync

/-- The operations of `hashmap.h` and `set.h`. -/
inductive Op (K V : Type)
  | put (k : K) (v : V)
  | replace (k : K) (v : V)
  | update (k : K) (v : V)
  | get (k : K)
  | contains (k : K)
  | remove (k : K)
  | removeValue (k : K) (v : V)
  | removeAndPut (old new : K) (v : V)
  | removeAndReplace (old new : K) (v : V)
  | first
  | stealFirst
  | foreach
  | size
  | reserve (n : Nat)
  | clear

/-- What an operation returns. -/
inductive Out (K V : Type)
  | unit
  | error (e : Errno)
  | bool (b : Bool)
  | value (v : Option V)
  | entry (e : Option (K × V))
  | entries (l : List (K × V))
  | number (n : Nat)

variable {K V : Type}

/-- No two entries have the same key. -/
def Distinct (l : List (K × V)) : Prop := l.Pairwise (fun a b => a.1 ≠ b.1)

/-- The map without a key. -/
def without [DecidableEq K] (k : K) (l : List (K × V)) : List (K × V) := l.filter (fun e => e.1 ≠ k)

/-- `Step mem l op out l'`: in the map `l`, the operation `op` may return `out` and leave the map `l'`; `mem` says whether memory can be
allocated. -/
inductive Step [DecidableEq K] (mem : Bool) : List (K × V) → Op K V → Out K V → List (K × V) → Prop
  /-- `put` adds a key that is not there, and changes nothing if it is. -/
  | put {l k v} : (∀ w, (k, w) ∉ l) → Step mem l (.put k v) (.bool true) ((k, v) :: l)
  | putSame {l k v} : (k, v) ∈ l → Step mem l (.put k v) (.bool false) l
  | putOther {l k v w} : (k, w) ∈ l → w ≠ v → Step mem l (.put k v) (.error .EEXIST) l
  | putMem {l k v} : mem = false → (∀ w, (k, w) ∉ l) → Step mem l (.put k v) (.error .ENOMEM) l
  /-- `replace` adds a key that is not there, and changes its value if it is. -/
  | replaceNew {l k v} : (∀ w, (k, w) ∉ l) → Step mem l (.replace k v) (.bool true) ((k, v) :: l)
  | replaceOld {l k v w} : (k, w) ∈ l → Step mem l (.replace k v) (.bool false) ((k, v) :: without k l)
  | replaceMem {l k v} : mem = false → (∀ w, (k, w) ∉ l) → Step mem l (.replace k v) (.error .ENOMEM) l
  /-- `update` changes the value of a key. -/
  | update {l k v w} : (k, w) ∈ l → Step mem l (.update k v) .unit ((k, v) :: without k l)
  | updateNone {l k v} : (∀ w, (k, w) ∉ l) → Step mem l (.update k v) (.error .ENOENT) l
  /-- `get` and `contains` look a key up. -/
  | get {l k v} : (k, v) ∈ l → Step mem l (.get k) (.value (some v)) l
  | getNone {l k} : (∀ w, (k, w) ∉ l) → Step mem l (.get k) (.value none) l
  | contains {l k v} : (k, v) ∈ l → Step mem l (.contains k) (.bool true) l
  | containsNot {l k} : (∀ w, (k, w) ∉ l) → Step mem l (.contains k) (.bool false) l
  /-- `remove` returns the value. -/
  | remove {l k v} : (k, v) ∈ l → Step mem l (.remove k) (.value (some v)) (without k l)
  | removeNone {l k} : (∀ w, (k, w) ∉ l) → Step mem l (.remove k) (.value none) l
  | removeValue {l k v} : (k, v) ∈ l → Step mem l (.removeValue k v) (.bool true) (without k l)
  | removeValueNot {l k v} : (k, v) ∉ l → Step mem l (.removeValue k v) (.bool false) l
  /-- `remove_and_put` needs the old key to be there and the new one not to be. -/
  | removeAndPut {l old new v w} : (old, w) ∈ l → (∀ w, (new, w) ∉ l) → Step mem l (.removeAndPut old new v) .unit ((new, v) :: without old l)
  | removeAndPutNone {l old new v} : (∀ w, (old, w) ∉ l) → Step mem l (.removeAndPut old new v) (.error .ENOENT) l
  | removeAndPutExists {l old new v w w'} : (old, w) ∈ l → (new, w') ∈ l → Step mem l (.removeAndPut old new v) (.error .EEXIST) l
  /-- `remove_and_replace` needs the old key to be there. -/
  | removeAndReplace {l old new v w} : (old, w) ∈ l → Step mem l (.removeAndReplace old new v) .unit ((new, v) :: without new (without old l))
  | removeAndReplaceNone {l old new v} : (∀ w, (old, w) ∉ l) → Step mem l (.removeAndReplace old new v) (.error .ENOENT) l
  /-- `first` and `steal_first` return some entry if there is one. -/
  | first {l e} : e ∈ l → Step mem l .first (.entry (some e)) l
  | firstNone : Step mem [] .first (.entry none) []
  | stealFirst {l e} : e ∈ l → Step mem l .stealFirst (.entry (some e)) (without e.1 l)
  | stealFirstNone : Step mem [] .stealFirst (.entry none) []
  /-- A loop over the table meets every entry once. -/
  | foreach {l r} : Distinct r → (∀ e, e ∈ r ↔ e ∈ l) → Step mem l .foreach (.entries r) l
  | size {l} : Step mem l .size (.number l.length) l
  | reserve {l n} : Step mem l (.reserve n) .unit l
  | reserveMem {l n} : mem = false → Step mem l (.reserve n) (.error .ENOMEM) l
  | clear {l} : Step mem l .clear .unit []

/-- A history: operations, whether memory could be allocated in them, and what they returned, from one map to another. -/
inductive History [DecidableEq K] : List (K × V) → List (Op K V × Bool × Out K V) → List (K × V) → Prop
  | nil {l} : History l [] l
  | cons {l op mem out l' h l''} : Step mem l op out l' → History l' h l'' → History l ((op, mem, out) :: h) l''

end Casync.Hashmap.Spec
