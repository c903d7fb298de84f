import Verif.Lemmas.DecoderInv
/-!
Properties of the archive decoder: C26 (the way the data arrives does not matter), C27 (paths stay below the root), C45 (no input makes it
abort or loop).
-/
namespace Casync.Archive
open Casync Flags

theorem ready_start (cfg : DCfg) (hc : cfg.wantPayload = true) (e m : Word) (ps : List Bytes) : Ready (start cfg e m) ps :=
  ⟨Nat.zero_le _, hc, by intro _ n hn; simp [start] at hn; rw [hn], Or.inl rfl⟩

/-- **C26.** Two sessions that get the same archive cut into pieces in different ways (empty pieces included) report the same objects with the
same metadata, the same content bytes and the same ends of objects in the same order, and end in the same way: at the end of the tree, with
the same error, or waiting for data at the same place. -/
theorem C26_feeding_independent (cfg : DCfg) (hc : cfg.wantPayload = true) (e m : Word) (ps qs : List Bytes) (h : ps.flatten = qs.flatten)
    (t u : List Obs) (o o' : Outcome) (hp : Run (start cfg e m) ps t o) (hq : Run (start cfg e m) qs u o') : atoms t = atoms u ∧ o = o' := by
  obtain ⟨_, h1⟩ := hp.full (ready_start cfg hc e m ps)
  obtain ⟨_, h2⟩ := hq.full (ready_start cfg hc e m qs)
  rw [h] at h1
  obtain ⟨a, b⟩ := h1.det h2
  exact ⟨a, congrArg Prod.fst b⟩

/-- **C26, C45.** Every session comes to an end, whatever the archive and its pieces are: the session exists. -/
theorem C26_session_exists (cfg : DCfg) (e m : Word) (ps : List Bytes) : ∃ t o, Run (start cfg e m) ps t o :=
  Run.exists_of _ _ _ _ rfl rfl (Nat.zero_le _)

/-- The session is determined by the pieces. -/
theorem Run.det {d : Dec} {ps : List Bytes} {t : List Obs} {o : Outcome} (h : Run d ps t o) : ∀ {t' o'}, Run d ps t' o' → t = t' ∧ o = o' := by
  induction h with
  | finished a =>
    intro t' o' h'
    cases h' with
    | finished b => exact ⟨rfl, rfl⟩
    | go b c => rw [a] at b; injection b with _ b; injection b with b; subst b; simp at c
    | _ => simp_all
  | error a =>
    intro t' o' h'
    cases h' with
    | error b => rw [a] at b; injection b with _ b; injection b with b; subst b; exact ⟨rfl, rfl⟩
    | go b c => rw [a] at b; cases b
    | _ => simp_all
  | crash a =>
    intro t' o' h'
    cases h' with
    | crash b => exact ⟨rfl, rfl⟩
    | go b c => rw [a] at b; cases b
    | _ => simp_all
  | go a hev _ ih =>
    intro t' o' h'
    cases h' with
    | go b c d =>
      rw [a] at b
      injection b with b1 b2
      injection b2 with b2
      subst b1 b2
      obtain ⟨h1, h2⟩ := ih d
      exact ⟨by rw [h1], h2⟩
    | error b => rw [a] at b; cases b
    | crash b => rw [a] at b; cases b
    | finished b => rw [a] at b; injection b with _ b; injection b with b; subst b; simp at hev
    | put b _ _ => rw [a] at b; injection b with _ b; injection b with b; subst b; simp at hev
    | putFails b _ => rw [a] at b; injection b with _ b; injection b with b; subst b; simp at hev
    | eof b _ _ => rw [a] at b; injection b with _ b; injection b with b; subst b; simp at hev
    | starved b _ => rw [a] at b; injection b with _ b; injection b with b; subst b; simp at hev
    | skip b _ => rw [a] at b; injection b with _ b; injection b with b; subst b; simp at hev
  | put a hput _ ih =>
    intro t' o' h'
    cases h' with
    | go b c d => rw [a] at b; injection b with _ b; injection b with b; subst b; simp at c
    | put b c d =>
      rw [a] at b
      injection b with b1 b2
      subst b1
      rw [hput] at c
      injection c with c
      subst c
      exact ih d
    | putFails b c => rw [a] at b; injection b with b1 b2; subst b1; rw [hput] at c; cases c
    | finished b => rw [a] at b; cases b
    | error b => rw [a] at b; cases b
    | crash b => rw [a] at b; cases b
    | skip b _ => rw [a] at b; cases b
  | putFails a hput =>
    intro t' o' h'
    cases h' with
    | go b c d => rw [a] at b; injection b with _ b; injection b with b; subst b; simp at c
    | put b c d => rw [a] at b; injection b with b1 b2; subst b1; rw [hput] at c; cases c
    | putFails b c =>
      rw [a] at b
      injection b with b1 b2
      subst b1
      rw [hput] at c
      injection c with c
      subst c
      exact ⟨rfl, rfl⟩
    | finished b => rw [a] at b; cases b
    | error b => rw [a] at b; cases b
    | crash b => rw [a] at b; cases b
    | skip b _ => rw [a] at b; cases b
  | eof a he _ ih =>
    intro t' o' h'
    cases h' with
    | go b c d => rw [a] at b; injection b with _ b; injection b with b; subst b; simp at c
    | eof b c d => rw [a] at b; injection b with b1 b2; subst b1; exact ih d
    | starved b c => rw [a] at b; injection b with b1 b2; subst b1; rw [he] at c; cases c
    | finished b => rw [a] at b; cases b
    | error b => rw [a] at b; cases b
    | crash b => rw [a] at b; cases b
    | skip b _ => rw [a] at b; cases b
  | starved a he =>
    intro t' o' h'
    cases h' with
    | go b c d => rw [a] at b; injection b with _ b; injection b with b; subst b; simp at c
    | eof b c d => rw [a] at b; injection b with b1 b2; subst b1; rw [he] at c; cases c
    | starved b c => exact ⟨rfl, rfl⟩
    | finished b => rw [a] at b; cases b
    | error b => rw [a] at b; cases b
    | crash b => rw [a] at b; cases b
    | skip b _ => rw [a] at b; cases b
  | skip a _ ih =>
    intro t' o' h'
    cases h' with
    | go b c d => rw [a] at b; injection b with _ b; injection b with b; subst b; simp at c
    | skip b c => rw [a] at b; injection b with b1 b2; subst b1; exact ih c
    | finished b => rw [a] at b; cases b
    | error b => rw [a] at b; cases b
    | crash b => rw [a] at b; cases b
    | put b _ _ => rw [a] at b; cases b
    | putFails b _ => rw [a] at b; cases b
    | eof b _ _ => rw [a] at b; cases b
    | starved b _ => rw [a] at b; cases b

/-- A session, computed, for the examples. -/
def session : Nat → Dec → List Bytes → Option (List Obs × Outcome)
  | 0, _, _ => none
  | n + 1, d, ps =>
    match step d with
    | (_, .ok .finished) => some ([], .finished)
    | (_, .err e) => some ([], .error e)
    | (_, .ub) => some ([], .crash)
    | (d', .ok .request) =>
      match ps with
      | p :: ps =>
        match putData d' p with
        | .ok d'' => session n d'' ps
        | .err e => some ([], .error e)
        | .ub => none
      | [] => if d'.eof then some ([], .starved) else session n (putEof d') []
    | (d', .ok .skip) => session n d' (dropPieces d'.skip ps)
    | (d', .ok .step) => (session n d' ps).map fun r => (observe d' .step ++ r.1, r.2)
    | (d', .ok .nextFile) => (session n d' ps).map fun r => (observe d' .nextFile ++ r.1, r.2)
    | (d', .ok .doneFile) => (session n d' ps).map fun r => (observe d' .doneFile ++ r.1, r.2)
    | (d', .ok .payload) => (session n d' ps).map fun r => (observe d' .payload ++ r.1, r.2)

theorem session_run : ∀ (n : Nat) (d : Dec) (ps : List Bytes) (t : List Obs) (o : Outcome), session n d ps = some (t, o) → Run d ps t o := by
  intro n
  induction n with
  | zero => intro d ps t o h; cases h
  | succ n ih =>
    intro d ps t o h
    rw [session] at h
    generalize hs : step d = q at h
    obtain ⟨d', r⟩ := q
    have hgo : ∀ ev, ev ∈ [Ev.step, .nextFile, .doneFile, .payload] → r = .ok ev →
        ((session n d' ps).map fun r => (observe d' ev ++ r.1, r.2)) = some (t, o) → Run d ps t o := by
      intro ev hev hr hm
      cases hsn : session n d' ps with
      | none => rw [hsn] at hm; cases hm
      | some x =>
        rw [hsn] at hm
        injection hm with hm
        injection hm with h1 h2
        rw [← h1, ← h2]
        exact .go (by rw [hs, hr]) hev (ih d' ps x.1 x.2 hsn)
    cases r with
    | err e => injection h with h; injection h with h1 h2; subst h1 h2; exact .error hs
    | ub => injection h with h; injection h with h1 h2; subst h1 h2; exact .crash hs
    | ok ev =>
      cases ev with
      | finished => injection h with h; injection h with h1 h2; subst h1 h2; exact .finished hs
      | step => exact hgo .step (by simp) rfl h
      | nextFile => exact hgo .nextFile (by simp) rfl h
      | doneFile => exact hgo .doneFile (by simp) rfl h
      | payload => exact hgo .payload (by simp) rfl h
      | skip => exact .skip hs (ih _ _ _ _ h)
      | request =>
        simp only at h
        cases ps with
        | cons p ps =>
          simp only at h
          cases hp : putData d' p with
          | ok d'' => rw [hp] at h; exact .put hs hp (ih _ _ _ _ h)
          | err e => rw [hp] at h; injection h with h; injection h with h1 h2; subst h1 h2; exact .putFails hs hp
          | ub => rw [hp] at h; cases h
        | nil =>
          simp only at h
          cases he : d'.eof with
          | true => rw [he] at h; injection h with h; injection h with h1 h2; subst h1 h2; exact .starved hs he
          | false => rw [he] at h; exact .eof hs he (ih _ _ _ _ h)

/-- A session with a blob in three pieces, one of them empty: the two pieces of content are seen and the session is finished. -/
example : Run (start { naked := true } none64 none64) [[1, 2], [], [3]] [.payload [1, 2], .payload [3]] .finished :=
  session_run 20 _ _ _ _ (by decide)

/-- What the invariant says of a whole session. -/
theorem Run.inv {d : Dec} {ps : List Bytes} {t : List Obs} {o : Outcome} (h : Run d ps t o) (hd : DInv d) :
    o ≠ .crash ∧ ∀ ob ∈ t, ∀ path, ob.path = some path → ∀ c ∈ path, SafeName c := by
  induction h with
  | finished a => exact ⟨by simp, by simp⟩
  | error a => exact ⟨by simp, by simp⟩
  | crash a => have := (step_good hd).alive; rw [a] at this; exact absurd rfl this
  | @go d d' ps ev t o a hev _ ih =>
    have hg := (step_good hd).inv
    rw [a] at hg
    obtain ⟨h1, h2⟩ := ih hg
    refine ⟨h1, ?_⟩
    intro ob hob path hpath c hc
    rcases List.mem_append.1 hob with hob | hob
    · have hcur : path = currentPath d' := by
        unfold observe at hob
        split at hob
        · split at hob
          · simp at hob; subst hob; simp [Obs.path] at hpath; exact hpath.symm
          · cases hob
        · simp at hob; subst hob; simp [Obs.path] at hpath
        · simp at hob; subst hob; simp [Obs.path] at hpath; exact hpath.symm
        · cases hob
      rw [hcur] at hc
      exact hg.chain.path c hc
    · exact h2 ob hob path hpath c hc
  | @put d d' d'' p ps t o a hput _ ih =>
    have hg := (step_good hd).inv
    rw [a] at hg
    exact ih (hg.putData hput)
  | putFails a _ => exact ⟨by simp, by simp⟩
  | eof a _ _ ih =>
    have hg := (step_good hd).inv
    rw [a] at hg
    exact ih hg.putEof
  | starved a _ => exact ⟨by simp, by simp⟩
  | skip a _ ih =>
    have hg := (step_good hd).inv
    rw [a] at hg
    exact ih hg

/-- **C45.** No byte sequence, cut into pieces in any way, makes the decoder fail an assertion; every session ends at the end of the tree, with
an error code, or waiting for data that does not come. -/
theorem C45_no_abort (cfg : DCfg) (e m : Word) (ps : List Bytes) (t : List Obs) (o : Outcome) (h : Run (start cfg e m) ps t o) :
    o ≠ .crash := (h.inv (DInv.start cfg e m)).1

/-- **C27.** Whatever the archive says, every component of every path that is reported is a name that can only denote a direct child. -/
theorem C27_names_safe (cfg : DCfg) (e m : Word) (ps : List Bytes) (t : List Obs) (o : Outcome) (h : Run (start cfg e m) ps t o)
    (ob : Obs) (hob : ob ∈ t) (path : List Bytes) (hp : ob.path = some path) (c : Bytes) (hc : c ∈ path) : SafeName c :=
  (h.inv (DInv.start cfg e m)).2 ob hob path hp c hc

theorem splitSlash_append {a : Bytes} (h : (47 : UInt8) ∉ a) (b : Bytes) : splitSlash (a ++ 47 :: b) = a :: splitSlash b := by
  induction a with
  | nil => simp [splitSlash]
  | cons c cs ih =>
    have hc : c ≠ 47 := fun e => h (by rw [e]; exact List.mem_cons_self)
    have := ih (fun e => h (List.mem_cons_of_mem _ e))
    rw [List.cons_append, splitSlash, if_neg hc, this]

theorem splitSlash_single {a : Bytes} (h : (47 : UInt8) ∉ a) : splitSlash a = [a] := by
  induction a with
  | nil => rfl
  | cons c cs ih =>
    have hc : c ≠ 47 := fun e => h (by rw [e]; exact List.mem_cons_self)
    have := ih (fun e => h (List.mem_cons_of_mem _ e))
    rw [splitSlash, if_neg hc, this]

theorem splitSlash_join : ∀ (p : List Bytes), p ≠ [] → (∀ c ∈ p, (47 : UInt8) ∉ c) → splitSlash (joinPath p) = p := by
  intro p
  induction p with
  | nil => intro h; exact absurd rfl h
  | cons a r ih =>
    intro _ h
    cases r with
    | nil => exact splitSlash_single (h a List.mem_cons_self)
    | cons b r =>
      show splitSlash (a ++ 47 :: joinPath (b :: r)) = _
      rw [splitSlash_append (h a List.mem_cons_self), ih (by simp) (fun c hc => h c (List.mem_cons_of_mem _ hc))]

theorem resolve_safe : ∀ (p dir : List Bytes), (∀ c ∈ p, SafeName c) → resolve dir p = dir ++ p := by
  intro p
  induction p with
  | nil => intro dir _; simp [resolve]
  | cons a r ih =>
    intro dir h
    have ha := h a List.mem_cons_self
    rw [resolve, if_neg (fun e => e.elim ha.nonempty ha.notDot), if_neg ha.notDotDot,
      ih _ (fun c hc => h c (List.mem_cons_of_mem _ hc)), List.append_assoc]
    rfl

/-- **C27.** As a path of the file system, relative to any destination directory, the path of an object leads to exactly the place below the
destination that its components name, however the kernel reads the string. -/
theorem C27_below_destination (cfg : DCfg) (e m : Word) (ps : List Bytes) (t : List Obs) (o : Outcome) (h : Run (start cfg e m) ps t o)
    (ob : Obs) (hob : ob ∈ t) (path : List Bytes) (hp : ob.path = some path) (dest : List Bytes) :
    resolve dest (splitSlash (joinPath path)) = dest ++ path := by
  have hs := C27_names_safe cfg e m ps t o h ob hob path hp
  cases path with
  | nil => simp [joinPath, splitSlash, resolve]
  | cons a r =>
    rw [splitSlash_join _ (by simp) (fun c hc => (hs c hc).noSlash)]
    exact resolve_safe _ _ hs

end Casync.Archive
