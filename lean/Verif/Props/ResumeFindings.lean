import Verif.Props.Resume
/-!
C41: examples, and where resuming does not work.
-/
namespace Casync.Resume
open Casync Archive

/-! ### Running an encoder -/

/-- `n` times: get the data when it is due, otherwise step. -/
def reach (env : Env) (R : Obj) : Nat → Option (Nat × Bool × REnc)
  | 0 => some (0, false, rStart R)
  | n + 1 =>
    match reach env R n with
    | none => none
    | some (pos, true, s) =>
      (match getData env s none with
      | (s', .ok x) => some (pos + x.length, false, s')
      | _ => none)
    | some (pos, false, s) =>
      (match step env s with
      | (s', .ok ev) => if ev = .finished then none else some (pos, hasData ev, s')
      | _ => none)

theorem reach_hist {env : Env} {R : Obj} : ∀ {n : Nat} {pos : Nat} {due : Bool} {s : REnc}, reach env R n = some (pos, due, s) → Hist env R pos true due s
  | 0, pos, due, s, h => by
    unfold reach at h
    injection h with h
    injection h with h1 h
    injection h with h2 h3
    subst h1 h2 h3
    exact .start
  | n + 1, pos, due, s, h => by
    unfold reach at h
    cases ha : reach env R n with
    | none => rw [ha] at h; cases h
    | some p =>
      obtain ⟨pos0, due0, s0⟩ := p
      rw [ha] at h
      have ih := reach_hist ha
      cases due0 with
      | true =>
        simp only at h
        split at h
        · rename_i s' x hg
          injection h with h
          injection h with h1 h
          injection h with h2 h3
          subst h1 h2 h3
          exact .data ih (by intro n hn; cases hn) hg
        · cases h
      | false =>
        simp only at h
        split at h
        · rename_i s' ev hg
          split at h
          · cases h
          · rename_i hne
            injection h with h
            injection h with h1 h
            injection h with h2 h3
            subst h1 h2 h3
            exact .more ih hg hne
        · cases h

/-- The rest of a session, with no suggested sizes. -/
def drive (env : Env) : Nat → Bool → REnc → Option (Bytes × EOutcome)
  | 0, _, _ => none
  | n + 1, true, s =>
    (match getData env s none with
    | (s', .ok x) => (drive env n false s').map fun p => (x ++ p.1, p.2)
    | (_, .err x) => some ([], .error x)
    | (_, .ub) => some ([], .crash))
  | n + 1, false, s =>
    (match step env s with
    | (s', .ok ev) => if ev = .finished then some ([], .finished) else drive env n (hasData ev) s'
    | (_, .err x) => some ([], .error x)
    | (_, .ub) => some ([], .crash))

theorem drive_run {env : Env} : ∀ {n : Nat} {due : Bool} {s : REnc} {b : Bytes} {o : EOutcome}, drive env n due s = some (b, o) → RRun env (fun _ => none) due s b o
  | 0, _, _, _, _, h => by unfold drive at h; cases h
  | n + 1, true, s, b, o, h => by
    unfold drive at h
    split at h
    · rename_i s' x hg
      cases hd : drive env n false s' with
      | none => rw [hd] at h; cases h
      | some p =>
        obtain ⟨b', o'⟩ := p
        rw [hd] at h
        injection h with h
        injection h with h1 h2
        subst h1 h2
        exact .data (sz := fun _ => none) hg (drive_run hd)
    · rename_i s' x hg
      injection h with h
      injection h with h1 h2
      subst h1 h2
      exact .dataError hg
    · rename_i s' hg
      injection h with h
      injection h with h1 h2
      subst h1 h2
      exact .dataCrash hg
  | n + 1, false, s, b, o, h => by
    unfold drive at h
    split at h
    · rename_i s' ev hg
      split at h
      · rename_i he
        subst he
        injection h with h
        injection h with h1 h2
        subst h1 h2
        exact .finished hg
      · rename_i hne
        exact .more hg hne (drive_run h)
    · rename_i s' x hg
      injection h with h
      injection h with h1 h2
      subst h1 h2
      exact .error hg
    · rename_i s' hg
      injection h with h
      injection h with h1 h2
      subst h1 h2
      exact .crash hg

/-! ### A file system -/

/-- Insertion sort. -/
def insertItem (i : Goodbye.NameItem) : List Goodbye.NameItem → List Goodbye.NameItem
  | [] => [i]
  | j :: l => if Goodbye.nameItemLe i j then i :: j :: l else j :: insertItem i l

def sortItems : List Goodbye.NameItem → List Goodbye.NameItem
  | [] => []
  | i :: l => insertItem i (sortItems l)

theorem insertItem_perm (i : Goodbye.NameItem) : ∀ l, (insertItem i l).Perm (i :: l)
  | [] => .refl _
  | j :: l => by
    unfold insertItem
    split
    · exact .refl _
    · exact ((insertItem_perm i l).cons j).trans (.swap i j l)

theorem insertItem_sorted (i : Goodbye.NameItem) : ∀ l : List Goodbye.NameItem, l.Pairwise (fun a b => Goodbye.nameItemLe a b = true) →
    (insertItem i l).Pairwise (fun a b => Goodbye.nameItemLe a b = true)
  | [], _ => by unfold insertItem; simp
  | j :: l, h => by
    rw [List.pairwise_cons] at h
    unfold insertItem
    split
    · rename_i hij
      rw [List.pairwise_cons]
      refine ⟨?_, List.pairwise_cons.2 h⟩
      intro k hk
      rw [List.mem_cons] at hk
      rcases hk with rfl | hk
      · exact hij
      · have := h.1 k hk
        simp only [Goodbye.nameItemLe, Bool.or_eq_true, Bool.and_eq_true, decide_eq_true_eq, beq_iff_eq] at *
        omega
    · rename_i hij
      rw [List.pairwise_cons]
      refine ⟨?_, insertItem_sorted i l h.2⟩
      intro k hk
      have := (insertItem_perm i l).mem_iff.1 hk
      rw [List.mem_cons] at this
      rcases this with rfl | hk
      · simp only [Goodbye.nameItemLe, Bool.or_eq_true, Bool.and_eq_true, decide_eq_true_eq, beq_iff_eq] at *
        omega
      · exact h.1 k hk

theorem sortItems_sorts : Goodbye.Sorts sortItems := by
  intro l
  induction l with
  | nil => exact ⟨.refl _, .nil⟩
  | cons i l ih => exact ⟨(insertItem_perm i _).trans (ih.1.cons i), insertItem_sorted i _ ih.2⟩

/-- No wildcards. -/
def exEnv : Env where
  qsort := sortItems
  qsortRules := id
  fnm := fun p n => p == n
  stamp := fun _ => (1700000000, 4711, none)
  featureFlags := 0x322

def exFileOf (c : Bytes) : Obj := .leaf (.file { ff := 0x322#64, mode := 0x81a4#64, flags := 0, uid := 1000, gid := 100, mtime := 1700000000123456789 } {} false c)
def exDirOf (own : Match.Rules) (k : Objs) : Obj := .dir { ff := 0x322#64, mode := 0x41ed#64, flags := 0, uid := 1000, gid := 100, mtime := 1700000000123456789 } {} false own k

theorem exEnv_fits : exEnv.Fits where
  mtime := fun _ => by show 1700000000 ≤ u64max; decide
  inode := fun _ => by show 4711 ≤ u64max; decide
  generation := fun _ g h => by cases h
  flags := by show 0x322 ≤ u64max; decide

/-- `/a`, `/d/x`, `/d/y` and `/x`; the exclude file of the root leaves out `/x`, and only this one. -/
def exRoot : Obj :=
  exDirOf [.node ⟨.positive, [120], true, false⟩ []]
    (.cons true [97] (exFileOf [1]) (.cons true [100] (exDirOf [] (.cons true [120] (exFileOf [7, 8, 9]) (.cons false [121] (exFileOf [2]) .nil))) (.cons true [120] (exFileOf [3]) .nil)))

set_option maxRecDepth 4000

theorem safe_one (c : UInt8) (h1 : c ≠ 46) (h2 : c ≠ 0) (h3 : c ≠ 47) : SafeName [c] where
  nonempty := by simp
  notDot := by simp [h1]
  notDotDot := by simp
  noNul := by simp [Ne.symm h2]
  noSlash := by simp [Ne.symm h3]

theorem exRoot_fine : Fine exEnv exRoot where
  root := .inl rfl
  names := by
    have s1 := safe_one 97 (by decide) (by decide) (by decide)
    have s2 := safe_one 100 (by decide) (by decide) (by decide)
    have s3 := safe_one 120 (by decide) (by decide) (by decide)
    have s4 := safe_one 121 (by decide) (by decide) (by decide)
    simp [exRoot, exDirOf, exFileOf, Obj.Named, Objs.Named, Objs.Has, s1, s2, s3, s4]
  rules := by
    simp only [exRoot, exDirOf, exFileOf, Obj.Local, Objs.Local, Obj.isDir, Bool.false_eq_true, false_implies, true_and, and_true]
    intro _ sub h
    have : Match.test exEnv.qsortRules exEnv.fnm [.node ⟨.positive, [120], true, false⟩ []] [100] true = .ok (false, []) := rfl
    rw [this] at h
    injection h with h
    injection h with _ h
    exact h.symm
  depth := by decide +kernel
  size := by decide +kernel

/-! ### Values of computations -/

def okOr {α : Type} (d : α) : Res α → α
  | .ok a => a
  | _ => d

def isOk {α : Type} : Res α → Bool
  | .ok _ => true
  | _ => false

theorem eq_okOr {α : Type} {r : Res α} (d : α) (h : isOk r = true) : r = .ok (okOr d r) := by
  cases r <;> first | rfl | cases h

def noLocation : Location.Location := { path := [], designator := 0, offset := 0, size := 0 }

/-- The encoder for `R` after `n` actions. -/
def spot (R : Obj) (n : Nat) : Nat × Bool × REnc := (reach exEnv R n).getD (0, false, rStart R)

theorem spot_hist {R : Obj} {n : Nat} {due : Bool} (h : (reach exEnv R n).isSome = true) (hd : (spot R n).2.1 = due) : Hist exEnv R (spot R n).1 true due (spot R n).2.2 := by
  subst hd
  cases hr : reach exEnv R n with
  | none => rw [hr] at h; cases h
  | some p => unfold spot; rw [hr]; exact reach_hist hr

/-- The place the encoder for `R` reports after `n` actions. -/
def place (R : Obj) (n add : Nat) : Location.Location := okOr noLocation (currentLocation exEnv (spot R n).2.2 add)

/-- What the encoder for `R` delivers after `n` actions. -/
def fetch (R : Obj) (n : Nat) : Bytes := okOr [] (getData exEnv (spot R n).2.2 none).2

theorem spot_data {R : Obj} {n : Nat} (h : isOk (getData exEnv (spot R n).2.2 none).2 = true) : Data exEnv true (spot R n).2.2 (fetch R n) :=
  .inl ⟨rfl, none, (getData exEnv (spot R n).2.2 none).1, (fun _ hn => by cases hn), Prod.ext rfl (eq_okOr [] h)⟩

/-- After a seek. -/
def sought (s : REnc) (l : Location.Location) : REnc × EEv := okOr (s, .finished) (seekLocation s l)

theorem sought_ok {s : REnc} {l : Location.Location} (h : isOk (seekLocation s l) = true) : seekLocation s l = .ok ((sought s l).1, (sought s l).2) := by
  exact eq_okOr (s, EEv.finished) h

/-- The rest of the session. -/
def rest (due : Bool) (s : REnc) : Bytes := ((drive exEnv 100 due s).getD ([], .crash)).1

/-! ### An example of the theorems -/

/-- An encoder that delivers `/a` is moved into the middle of the content of `/d/x`. -/
example : ∃ t ev, seekLocation (spot exRoot 7).2.2 (place exRoot 18 1) = .ok (t, ev) ∧ ∀ sz, Positive sz → ∀ b o,
    RRun exEnv sz (hasData ev) t b o ↔ b = (archiveOf exEnv exRoot).drop (dataPos true (spot exRoot 18).1 (fetch exRoot 18) + 1) ∧ o = .finished :=
  C41_seek_partial exRoot_fine sortItems_sorts (spot_hist (by decide +kernel) (by decide +kernel)) (spot_data (by decide +kernel)) (by decide +kernel)
    (eq_okOr noLocation (by decide +kernel)) ⟨rfl, rfl, rfl, rfl, rfl, by decide +kernel⟩ (spot_hist (n := 7) (by decide +kernel) rfl) (fun h => absurd h (by decide +kernel))

example : (archiveOf exEnv exRoot).length = 498 ∧ (spot exRoot 18).1 = 343 ∧ (place exRoot 18 1).path = [100, 47, 120] ∧ fetch exRoot 18 = [7, 8, 9] := by decide +kernel

/-- A new encoder. -/
example := C41_restart_partial exRoot_fine sortItems_sorts exEnv_fits (spot_hist (n := 21) (due := true) (by decide +kernel) (by decide +kernel))
  (spot_data (by decide +kernel)) (add := 17) (by decide +kernel)

/-! ### Exclusion rules -/

/-- `/d/x`; the exclude file of the root leaves out everything with the name `x`. -/
def exRules : Obj := exDirOf [.node ⟨.positive, [120], false, false⟩ []] (.cons true [100] (exDirOf [] (.cons true [120] (exFileOf [7]) .nil)) .nil)

/-- **C41** is false: exclusion rules of directories above are forgotten by a seek.  An encoder reports the beginning of `/d`; what follows in the
archive leaves out `/d/x`, because of an exclude file in `/`.  A new encoder that is moved to this place succeeds, and stores `/d/x`. -/
theorem C41_rules_violated : ∃ R pos s x l t ev b b', R.Named ∧ Hist exEnv R pos true true s ∧ Data exEnv true s x ∧ 0 < x.length ∧ currentLocation exEnv s 0 = .ok l ∧
    seekLocation (rStart R) l = .ok (t, ev) ∧ RRun exEnv (fun _ => none) true s b .finished ∧ RRun exEnv (fun _ => none) (hasData ev) t b' .finished ∧ b ≠ b' := by
  refine ⟨exRules, (spot exRules 5).1, (spot exRules 5).2.2, fetch exRules 5, place exRules 5 0, (sought (rStart exRules) (place exRules 5 0)).1,
    (sought (rStart exRules) (place exRules 5 0)).2, rest true (spot exRules 5).2.2, rest true (sought (rStart exRules) (place exRules 5 0)).1, ?_,
    spot_hist (by decide +kernel) (by decide +kernel), spot_data (by decide +kernel), by decide +kernel, eq_okOr noLocation (by decide +kernel),
    sought_ok (by decide +kernel), drive_run (n := 100) (by decide +kernel), ?_, by decide +kernel⟩
  · have s2 := safe_one 100 (by decide) (by decide) (by decide)
    have s3 := safe_one 120 (by decide) (by decide) (by decide)
    simp [exRules, exDirOf, exFileOf, Obj.Named, Objs.Named, Objs.Has, s2, s3]
  · rw [show hasData (sought (rStart exRules) (place exRules 5 0)).2 = true by decide +kernel]
    exact drive_run (n := 100) (by decide +kernel)

/-! ### Two seeks in a row -/

/-- `/a` and `/b` -/
def exTwo : Obj := exDirOf [] (.cons true [97] (exFileOf [1]) (.cons true [98] (exFileOf [2]) .nil))

theorem exTwo_fine : Fine exEnv exTwo where
  root := .inl rfl
  names := by
    have s1 := safe_one 97 (by decide) (by decide) (by decide)
    have s2 := safe_one 98 (by decide) (by decide) (by decide)
    simp [exTwo, exDirOf, exFileOf, Obj.Named, Objs.Named, Objs.Has, s1, s2]
  rules := by simp [exTwo, exDirOf, exFileOf, Obj.Local, Objs.Local, Obj.isDir]
  depth := by decide +kernel
  size := by decide +kernel

def twice : REnc × EEv := sought (sought (spot exTwo 14).2.2 (place exTwo 1 0)).1 (place exTwo 7 0)

/-- **C41** is false: the second of two seeks can end up at the wrong file.  An encoder is at the content of `/b`, is moved to the beginning of `/`, and
then to the content of `/a`.  Both seeks succeed; the content of `/b` is delivered. -/
theorem C41_twice_violated : ∃ R pos s pos1 s1 x1 l1 pos2 s2 x2 l2 t1 ev1 t2 ev2 b, Fine exEnv R ∧ Hist exEnv R pos true true s ∧
    Hist exEnv R pos1 true true s1 ∧ Data exEnv true s1 x1 ∧ 0 < x1.length ∧ currentLocation exEnv s1 0 = .ok l1 ∧
    Hist exEnv R pos2 true true s2 ∧ Data exEnv true s2 x2 ∧ 0 < x2.length ∧ currentLocation exEnv s2 0 = .ok l2 ∧
    seekLocation s l1 = .ok (t1, ev1) ∧ seekLocation t1 l2 = .ok (t2, ev2) ∧ hasData ev2 = true ∧
    RRun exEnv (fun _ => none) true t2 b .finished ∧ b ≠ (archiveOf exEnv R).drop pos2 ∧ x2 = [1] ∧ (getData exEnv t2 none).2 = .ok [2] := by
  refine ⟨exTwo, (spot exTwo 14).1, (spot exTwo 14).2.2, (spot exTwo 1).1, (spot exTwo 1).2.2, fetch exTwo 1, place exTwo 1 0, (spot exTwo 7).1, (spot exTwo 7).2.2,
    fetch exTwo 7, place exTwo 7 0, (sought (spot exTwo 14).2.2 (place exTwo 1 0)).1, (sought (spot exTwo 14).2.2 (place exTwo 1 0)).2, twice.1, twice.2,
    rest true twice.1, exTwo_fine, spot_hist (by decide +kernel) (by decide +kernel), spot_hist (by decide +kernel) (by decide +kernel), spot_data (by decide +kernel), by decide +kernel,
    eq_okOr noLocation (by decide +kernel), spot_hist (by decide +kernel) (by decide +kernel), spot_data (by decide +kernel), by decide +kernel, eq_okOr noLocation (by decide +kernel),
    sought_ok (by decide +kernel), sought_ok (by decide +kernel), by decide +kernel, drive_run (n := 100) (by decide +kernel), by decide +kernel, by decide +kernel, by decide +kernel⟩

/-! ### The name of an open directory -/

/-- **C41** is false: after a seek to the name of a directory that is open, the next step violates an assertion
(src/caencoder.c:1953 `assert(!n->name_table)`).  The encoder is at the content of `/d/x`, and is moved to the name of `/d`. -/
theorem C41_filename_violated : ∃ R pos s pos1 s1 x1 l1 t ev b, Fine exEnv R ∧ Hist exEnv R pos true true s ∧
    Hist exEnv R pos1 true true s1 ∧ Data exEnv true s1 x1 ∧ 0 < x1.length ∧ currentLocation exEnv s1 0 = .ok l1 ∧
    seekLocation s l1 = .ok (t, ev) ∧ hasData ev = true ∧ RRun exEnv (fun _ => none) true t b .crash :=
  ⟨exRoot, (spot exRoot 18).1, (spot exRoot 18).2.2, (spot exRoot 10).1, (spot exRoot 10).2.2, fetch exRoot 10, place exRoot 10 0,
    (sought (spot exRoot 18).2.2 (place exRoot 10 0)).1, (sought (spot exRoot 18).2.2 (place exRoot 10 0)).2, rest true (sought (spot exRoot 18).2.2 (place exRoot 10 0)).1,
    exRoot_fine, spot_hist (by decide +kernel) (by decide +kernel), spot_hist (by decide +kernel) (by decide +kernel), spot_data (by decide +kernel), by decide +kernel,
    eq_okOr noLocation (by decide +kernel), sought_ok (by decide +kernel), by decide +kernel, drive_run (n := 100) (by decide +kernel)⟩

/-! ### Locations that were not reported -/

/-- There is a text that is a well-formed location and that no encoder can be asked to seek to: an assertion is violated
(src/caencoder.c:3627 `assert(path)`). -/
theorem C41_text_violated : ∃ text l, Location.parse text = .ok l ∧ ∀ s, seekLocation s l = .ub := by
  obtain ⟨l', h1, h2, h3, _, h4, _⟩ := Location.C18_roundtrip { path := [], designator := 110, offset := 0, size := u64max }
    { designator := (by decide), path := (by simp), offset := (by decide), size := (by decide), fits := (fun hh => absurd rfl hh), void := (fun _ => ⟨rfl, rfl⟩),
      mtime := (by decide), inode := (by decide), generation := (by simp), featureFlags := (by decide), archiveOffset := (by decide), nameTable := inRange_nil }
  refine ⟨_, l', h1, fun s => ?_⟩
  simp only at h2 h3 h4
  unfold seekLocation seekFilename
  rw [h2, h3, h4, if_neg (by decide), if_neg (by decide), if_neg (by decide), if_neg (by decide), if_pos rfl, if_pos rfl]

/-- A seek behind the end of a record succeeds; the data is then refused, but the whole record is left in the buffer, and counted. -/
theorem C41_behind_violated (R : Obj) (e : Entry) (a : Attrs) (api : Bool) (own : Match.Rules) (k : Objs) (hR : R = .dir e a api own k) (env : Env) (n m : Nat)
    (hn : R.head.length < n) (hm : n ≤ m) (hm' : m < u64max) : ∃ t t' x, seekLocation (rStart R) { path := [], designator := 101, offset := n, size := u64max, archiveOffset := m } = .ok (t, .data) ∧
      getData env t none = (t', .err .EINVAL) ∧ t'.buf = x ∧ x = R.head ∧ getData env t' none = (t', .ok x) := by
  subst hR
  let t : REnc := { rStart (.dir e a api own k) with state := .entry, payloadOff := n, archiveOff := some m, cur := { opened (.dir e a api own k) [] with table := [⟨m - n, []⟩] } }
  have hk : knownOff m = some m := by unfold knownOff; rw [if_neg (by omega)]
  refine ⟨t, { t with buf := Obj.head (.dir e a api own k) }, _, ?_, ?_, rfl, rfl, ?_⟩
  · unfold seekLocation
    rw [if_neg (show ¬ u64max = 0 by decide), if_neg (show ¬ (!Location.designatorValid 101) = true by decide), if_pos rfl]
    unfold seekEntry
    show (Res.ok _).bind _ = _
    simp only [Res.bind, arrive, hk, installUp]
    show (initTable _ n).bind _ = _
    have : ∀ s : REnc, s.cur.table = [] → s.cur.obj.isDir = true → s.archiveOff = some m → s.up = [] → initTable s n = .ok [⟨m - n, []⟩] := by
      intro s h1 h2 h3 h4
      unfold initTable
      rw [if_neg (by rw [h1]; simp), h2, if_neg (by decide), h3, h4]
      simp only
      rw [if_neg (by omega)]
    rw [this _ rfl rfl rfl rfl]
    simp only [Res.bind]
    rw [if_pos (show n > 0 by omega)]
    rfl
  · unfold getData
    rw [if_neg (by simp [t, rStart])]
    show (if n > _ then _ else _) = _
    exact if_pos hn
  · unfold getData
    rw [if_pos]
    intro hh
    replace hh : Obj.head (.dir e a api own k) = [] := hh
    have := headBytes_length (.dir e a api .nil)
    unfold Obj.head at hh
    simp only at hh
    rw [hh] at this
    simp at this

end Casync.Resume
