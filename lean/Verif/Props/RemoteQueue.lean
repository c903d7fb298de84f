import Verif.Lemmas.RemoteQueue
/-!
C33: the request queue of a remote connection.
-/
namespace Casync.Remote
open Casync Casync.Remote.Spec

/-- C33: every history of calls returns exactly what two first-come-first-served lists, one per priority, return (see
Spec/RemoteQueue.lean): high priority first, in order of arrival, no id twice, upgrades. Fewer than 2^64 calls. -/
theorem C33_refines (os : List Op) (hp : Proper S.empty os) (hlen : os.length < 2 ^ 64) :
    (runQ Q.new os).1 = (Spec.run S.empty os).1 :=
  (run_spec os inv_new hp (by rw [Nat.zero_add]; exact hlen)).1

/-- C33: "nothing pending" is only said when nothing waits. -/
theorem C33_pending (os : List Op) (hp : Proper S.empty os) (hlen : os.length < 2 ^ 64)
    (h : hasPending (runQ Q.new os).2 = false) (p : Bool) : (Spec.run S.empty os).2.waiting p = [] := by
  obtain ⟨pos, i⟩ := (run_spec os inv_new hp (by rw [Nat.zero_add]; exact hlen)).2
  apply i.nothing
  intro hlt
  have hc := (i.dirs p (by omega)).2.2
  unfold hasPending at h
  rw [hc] at h
  unfold startOf endOf at hlt
  cases p <;> simp at h hlt <;> omega

/-- Ids handed out with priority `p`, in order. -/
def handed (p : Bool) (outs : List Out) : List Bytes :=
  outs.filterMap fun
    | .dequeued (.ok (id, h)) => if h = p then some id else none
    | _ => none

/-- No call forgets a chunk. -/
def NoForget (os : List Op) : Prop := ∀ o ∈ os, ∀ id rm, o ≠ .forget id rm

/-- The ids asked for. -/
def asked (os : List Op) : List Bytes :=
  os.filterMap fun
    | .enqueue id _ _ => some id
    | _ => none

/-- Bookkeeping over a history without forgetting: `H p` is what was handed out, `A` what was asked for. -/
structure Book (s : S) (H : Bool → List Bytes) (A : List Bytes) : Prop where
  nodupH : ∀ p, (H p).Nodup
  nodupW : ∀ p, (s.waiting p).Nodup
  hi : ∀ id, id ∈ H true → id ∈ s.sent true
  sentHi : ∀ id, id ∈ s.sent true → id ∈ H true
  sentLo : ∀ id, id ∈ s.sent false → id ∈ H false
  lo : ∀ id, id ∈ H false → id ∈ s.sent false ∨ s.Known true id
  disj : ∀ p id, id ∈ s.waiting p → id ∉ s.sent p
  excl : ∀ id, s.Known true id → ¬ s.Known false id
  all : ∀ id ∈ A, s.Known true id ∨ s.Known false id

theorem book_empty : Book S.empty (fun _ => []) [] where
  nodupH := fun _ => List.nodup_nil
  nodupW := fun _ => List.nodup_nil
  hi := fun _ h => by cases h
  sentHi := fun _ h => by cases h
  sentLo := fun _ h => by cases h
  lo := fun _ h => by cases h
  disj := fun _ _ h => by cases h
  excl := fun _ h => by rcases h with h | h <;> cases h
  all := fun _ h => by cases h

theorem known_add {s : S} {p p' : Bool} {id x : Bytes} : (s.add p id).Known p' x ↔ s.Known p' x ∨ (p' = p ∧ x = id) := by
  unfold S.Known S.add
  simp only
  by_cases hp : p' = p
  · rw [if_pos hp]; simp [hp]; constructor <;> (intro h; rcases h with h | h; rcases h with h | h) <;> simp_all
  · rw [if_neg hp]; simp [hp]

theorem known_remove {s : S} {p : Bool} {id x : Bytes} : (s.remove id).Known p x ↔ s.Known p x ∧ x ≠ id := by
  unfold S.Known S.remove
  simp only [List.mem_filter, decide_eq_true_eq]
  constructor
  · rintro (⟨a, b⟩ | ⟨a, b⟩)
    · exact ⟨.inl a, b⟩
    · exact ⟨.inr a, b⟩
  · rintro ⟨a | a, b⟩
    · exact .inl ⟨a, b⟩
    · exact .inr ⟨a, b⟩

/-- Appending an id that is nowhere. -/
theorem book_add {s : S} {H A} (b : Book s H A) (p : Bool) (id : Bytes) (h1 : ∀ p', ¬ s.Known p' id)
    (hH : id ∉ H false ∨ p = true) : Book (s.add p id) H (id :: A) where
  nodupH := b.nodupH
  nodupW := by
    intro p'
    show (if p' = p then s.waiting p' ++ [id] else s.waiting p').Nodup
    by_cases hp : p' = p
    · rw [if_pos hp, List.nodup_append]
      refine ⟨b.nodupW p', by simp, ?_⟩
      intro a ha c hc
      rw [List.mem_singleton] at hc
      subst hc
      intro he; subst he
      exact h1 p' (.inl ha)
    · rw [if_neg hp]; exact b.nodupW p'
  hi := b.hi
  sentHi := b.sentHi
  sentLo := b.sentLo
  lo := fun x hx => by
    rcases b.lo x hx with h | h
    · exact .inl h
    · exact .inr (known_add.2 (.inl h))
  disj := by
    intro p' x hx
    change x ∈ (if p' = p then s.waiting p' ++ [id] else s.waiting p') at hx
    show x ∉ s.sent p'
    by_cases hp : p' = p
    · rw [if_pos hp, List.mem_append, List.mem_singleton] at hx
      rcases hx with hx | hx
      · exact b.disj p' x hx
      · rw [hx]; exact fun h => h1 p' (.inr h)
    · rw [if_neg hp] at hx; exact b.disj p' x hx
  excl := by
    intro x hx hx'
    rw [known_add] at hx hx'
    rcases hx with hx | ⟨hp, hx⟩
    · rcases hx' with hx' | ⟨_, hx'⟩
      · exact b.excl x hx hx'
      · rw [hx'] at hx; exact h1 true hx
    · rcases hx' with hx' | ⟨hp', _⟩
      · rw [hx] at hx'; exact h1 false hx'
      · rw [← hp] at hp'; cases hp'
  all := by
    intro x hx
    rcases List.mem_cons.1 hx with hx | hx
    · subst hx
      cases p
      · exact .inr (known_add.2 (.inr ⟨rfl, rfl⟩))
      · exact .inl (known_add.2 (.inr ⟨rfl, rfl⟩))
    · rcases b.all x hx with h | h
      · exact .inl (known_add.2 (.inl h))
      · exact .inr (known_add.2 (.inl h))

theorem book_enqueue {s : S} {H A} (b : Book s H A) (id : Bytes) (high requeue : Bool) :
    Book (Spec.enqueue s id high requeue).2 H (id :: A) := by
  unfold Spec.enqueue
  by_cases h1 : s.Known true id
  · rw [if_pos h1]
    refine { b with all := fun x hx => ?_ }
    rcases List.mem_cons.1 hx with hx | hx
    · subst hx; exact .inl h1
    · exact b.all x hx
  · rw [if_neg h1]
    by_cases h2 : s.Known false id
    · rw [if_pos h2]
      by_cases hc : high = true ∧ (id ∈ s.waiting false ∨ requeue = true)
      · rw [if_pos hc]
        -- an upgrade
        have hr : ∀ p, ¬ (s.remove id).Known p id := fun p h => (known_remove.1 h).2 rfl
        refine ⟨b.nodupH, ?_, ?_, ?_, ?_, ?_, ?_, ?_, ?_⟩
        · intro p
          show (if p = true then (s.waiting p).filter (· ≠ id) ++ [id] else (s.waiting p).filter (· ≠ id)).Nodup
          have hn : ((s.waiting p).filter (· ≠ id)).Nodup := (b.nodupW p).sublist List.filter_sublist
          by_cases hp : p = true
          · rw [if_pos hp, List.nodup_append]
            refine ⟨hn, by simp, ?_⟩
            intro a ha c hc'
            rw [List.mem_singleton] at hc'
            subst hc'
            rw [List.mem_filter] at ha
            simpa using ha.2
          · rw [if_neg hp]; exact hn
        · intro x hx
          show x ∈ (s.sent true).filter (· ≠ id)
          have := b.hi x hx
          rw [List.mem_filter]
          refine ⟨this, ?_⟩
          simp only [decide_eq_true_eq]
          intro he; subst he; exact h1 (.inr this)
        · intro x hx
          exact b.sentHi x (List.mem_filter.1 hx).1
        · intro x hx
          exact b.sentLo x (List.mem_filter.1 hx).1
        · intro x hx
          by_cases he : x = id
          · right; exact known_add.2 (.inr ⟨rfl, he⟩)
          · rcases b.lo x hx with h | h
            · left
              show x ∈ (s.sent false).filter (· ≠ id)
              rw [List.mem_filter]; exact ⟨h, by simpa using he⟩
            · right; exact known_add.2 (.inl (known_remove.2 ⟨h, he⟩))
        · intro p x hx
          show x ∉ (s.sent p).filter (· ≠ id)
          intro hx'
          obtain ⟨hs, hne⟩ := List.mem_filter.1 hx'
          change x ∈ (if p = true then (s.waiting p).filter (· ≠ id) ++ [id] else (s.waiting p).filter (· ≠ id)) at hx
          have hx2 : x ∈ (s.waiting p).filter (· ≠ id) := by
            by_cases hp : p = true
            · rw [if_pos hp, List.mem_append, List.mem_singleton] at hx
              rcases hx with hx | hx
              · exact hx
              · simp [hx] at hne
            · rw [if_neg hp] at hx; exact hx
          exact b.disj p x (List.mem_filter.1 hx2).1 hs
        · intro x hx hx'
          rw [known_add] at hx hx'
          rcases hx' with hx' | ⟨h, _⟩
          · rcases hx with hx | ⟨_, hx⟩
            · exact b.excl x (known_remove.1 hx).1 (known_remove.1 hx').1
            · exact (known_remove.1 hx').2 hx
          · cases h
        · intro x hx
          by_cases he : x = id
          · left; exact known_add.2 (.inr ⟨rfl, he⟩)
          · rcases List.mem_cons.1 hx with hx | hx
            · exact absurd hx he
            · rcases b.all x hx with h | h
              · exact .inl (known_add.2 (.inl (known_remove.2 ⟨h, he⟩)))
              · exact .inr (known_add.2 (.inl (known_remove.2 ⟨h, he⟩)))
      · rw [if_neg hc]
        refine { b with all := fun x hx => ?_ }
        rcases List.mem_cons.1 hx with hx | hx
        · subst hx; exact .inr h2
        · exact b.all x hx
    · rw [if_neg h2]
      have hno : ∀ p, ¬ s.Known p id := by intro p; cases p <;> assumption
      apply book_add b high id hno
      left
      intro hH
      rcases b.lo id hH with h | h
      · exact h2 (.inr h)
      · exact h1 h

theorem known_take {s : S} {p : Bool} {id : Bytes} {rest : List Bytes} (hw : s.waiting p = id :: rest) (p' : Bool) (x : Bytes) :
    (S.mk (fun x => if x = p then rest else s.waiting x) (fun x => if x = p then s.sent x ++ [id] else s.sent x)).Known p' x ↔
      s.Known p' x := by
  unfold S.Known
  simp only
  by_cases hp : p' = p
  · subst hp
    rw [if_pos rfl, if_pos rfl, hw, List.mem_append, List.mem_singleton, List.mem_cons]
    constructor
    · rintro (h | h | h)
      · exact .inl (.inr h)
      · exact .inr h
      · exact .inl (.inl h)
    · rintro ((h | h) | h)
      · exact .inr (.inr h)
      · exact .inl h
      · exact .inr (.inl h)
  · rw [if_neg hp, if_neg hp]

theorem book_take {s : S} {H A} (b : Book s H A) (p : Bool) (id : Bytes) (rest : List Bytes) (hw : s.waiting p = id :: rest) :
    Book ⟨fun x => if x = p then rest else s.waiting x, fun x => if x = p then s.sent x ++ [id] else s.sent x⟩
      (fun x => if x = p then H x ++ [id] else H x) A := by
  have hmem : id ∈ s.waiting p := by rw [hw]; exact List.mem_cons_self
  have hnd := b.nodupW p
  rw [hw, List.nodup_cons] at hnd
  refine ⟨?_, ?_, ?_, ?_, ?_, ?_, ?_, ?_, ?_⟩
  · intro p'
    by_cases hp : p' = p
    · subst hp
      simp only [if_true]
      rw [List.nodup_append]
      refine ⟨b.nodupH p', by simp, ?_⟩
      intro a ha c hc
      rw [List.mem_singleton] at hc
      subst hc
      intro he; subst he
      cases p' with
      | true => exact b.disj true a hmem (b.hi a ha)
      | false =>
        rcases b.lo a ha with h | h
        · exact b.disj false a hmem h
        · exact b.excl a h (.inl hmem)
    · simp only [if_neg hp]; exact b.nodupH p'
  · intro p'
    by_cases hp : p' = p
    · simp only [if_pos hp]; exact hnd.2
    · simp only [if_neg hp]; exact b.nodupW p'
  · intro x hx
    by_cases hp : true = p
    · simp only [if_pos hp, List.mem_append] at hx ⊢
      exact hx.imp (b.hi x) (fun h => h)
    · simp only [if_neg hp] at hx ⊢; exact b.hi x hx
  · intro x hx
    by_cases hp : true = p
    · simp only [if_pos hp, List.mem_append] at hx ⊢
      exact hx.imp (b.sentHi x) (fun h => h)
    · simp only [if_neg hp] at hx ⊢; exact b.sentHi x hx
  · intro x hx
    by_cases hp : false = p
    · simp only [if_pos hp, List.mem_append] at hx ⊢
      exact hx.imp (b.sentLo x) (fun h => h)
    · simp only [if_neg hp] at hx ⊢; exact b.sentLo x hx
  · intro x hx
    rw [known_take hw]
    by_cases hp : false = p
    · simp only [if_pos hp, List.mem_append] at hx ⊢
      rcases hx with hx | hx
      · exact (b.lo x hx).imp .inl (fun h => h)
      · exact .inl (.inr hx)
    · simp only [if_neg hp] at hx ⊢; exact b.lo x hx
  · intro p' x hx
    by_cases hp : p' = p
    · subst hp
      simp only [if_true, List.mem_append, List.mem_singleton] at hx ⊢
      rintro (h | h)
      · exact b.disj p' x (by rw [hw]; exact List.mem_cons_of_mem _ hx) h
      · rw [h] at hx; exact hnd.1 hx
    · simp only [if_neg hp] at hx ⊢; exact b.disj p' x hx
  · intro x; rw [known_take hw, known_take hw]; exact b.excl x
  · intro x hx; rw [known_take hw, known_take hw]; exact b.all x hx

theorem take_some {s : S} {p : Bool} {id : Bytes} {s' : S} (h : Spec.take s p = some (id, s')) :
    ∃ rest, s.waiting p = id :: rest ∧
      s' = ⟨fun x => if x = p then rest else s.waiting x, fun x => if x = p then s.sent x ++ [id] else s.sent x⟩ := by
  unfold Spec.take at h
  split at h
  · cases h
  · rename_i id' rest hw
    obtain ⟨rfl, rfl⟩ := Prod.mk.inj (Option.some.inj h)
    exact ⟨rest, hw, rfl⟩

theorem dequeue_cases (s : S) (only : Option Bool) :
    (∃ p id rest, s.waiting p = id :: rest ∧ Spec.dequeue s only = (some (id, p),
      ⟨fun x => if x = p then rest else s.waiting x, fun x => if x = p then s.sent x ++ [id] else s.sent x⟩)) ∨
    (Spec.dequeue s only = (none, s) ∧ (only = none → ∀ p, s.waiting p = [])) := by
  unfold Spec.dequeue
  cases h1 : (if only = some false then none else Spec.take s true) with
  | some x =>
    left
    obtain ⟨id, s'⟩ := x
    split at h1
    · cases h1
    · obtain ⟨rest, hw, rfl⟩ := take_some h1
      exact ⟨true, id, rest, hw, rfl⟩
  | none =>
    cases h2 : (if only = some true then none else Spec.take s false) with
    | some x =>
      left
      obtain ⟨id, s'⟩ := x
      split at h2
      · cases h2
      · obtain ⟨rest, hw, rfl⟩ := take_some h2
        exact ⟨false, id, rest, hw, rfl⟩
    | none =>
      right
      refine ⟨rfl, ?_⟩
      rintro rfl p
      rw [if_neg (by simp)] at h1 h2
      unfold Spec.take at h1 h2
      cases p with
      | true => split at h1; assumption; cases h1
      | false => split at h2; assumption; cases h2

theorem handed_append (p : Bool) (a b : List Out) : handed p (a ++ b) = handed p a ++ handed p b := List.filterMap_append ..

theorem run_append (os os' : List Op) : ∀ s, Spec.run s (os ++ os') =
    ((Spec.run s os).1 ++ (Spec.run (Spec.run s os).2 os').1, (Spec.run (Spec.run s os).2 os').2) := by
  induction os with
  | nil => intro s; rfl
  | cons o os ih => intro s; simp only [List.cons_append, Spec.run, ih]

theorem book_run (os : List Op) : ∀ {s H A}, Book s H A → NoForget os →
    ∃ A', Book (Spec.run s os).2 (fun p => H p ++ handed p (Spec.run s os).1) A' ∧ (∀ id ∈ A, id ∈ A') ∧
      (∀ id ∈ asked os, id ∈ A') := by
  induction os with
  | nil =>
    intro s H A b _
    refine ⟨A, ?_, fun _ h => h, fun _ h => by cases h⟩
    have : (fun p => H p ++ handed p (Spec.run s []).1) = H := by
      funext p; exact List.append_nil _
    rw [this]; exact b
  | cons o os ih =>
    intro s H A b hn
    have hn' : NoForget os := fun o ho => hn o (List.mem_cons_of_mem _ ho)
    have hout : ∀ p, H p ++ handed p (Spec.run s (o :: os)).1 =
        (H p ++ handed p [(Spec.step s o).1]) ++ handed p (Spec.run (Spec.step s o).2 os).1 := by
      intro p
      rw [List.append_assoc, ← handed_append]; rfl
    cases o with
    | forget id rm => exact absurd rfl (hn _ List.mem_cons_self id rm)
    | enqueue id high requeue =>
      obtain ⟨A', b', hA, hA'⟩ := ih (book_enqueue b id high requeue) hn'
      refine ⟨A', ?_, fun x hx => hA x (List.mem_cons_of_mem _ hx), ?_⟩
      · have : (fun p => H p ++ handed p (Spec.run s (.enqueue id high requeue :: os)).1) =
            fun p => H p ++ handed p (Spec.run (Spec.enqueue s id high requeue).2 os).1 := by
          funext p; rw [hout]; simp [handed, Spec.step]
        rw [this]; exact b'
      · intro x hx
        rcases List.mem_cons.1 hx with hx | hx
        · rw [hx]; exact hA _ List.mem_cons_self
        · exact hA' x hx
    | dequeue only =>
      rcases dequeue_cases s only with ⟨p, id, rest, hw, hd⟩ | ⟨hd, _⟩
      · obtain ⟨A', b', hA, hA'⟩ := ih (book_take b p id rest hw) hn'
        refine ⟨A', ?_, hA, hA'⟩
        have : (fun p => H p ++ handed p (Spec.run s (.dequeue only :: os)).1) =
            fun p' => (if p' = p then H p' ++ [id] else H p') ++ handed p' (Spec.run
              ⟨fun x => if x = p then rest else s.waiting x, fun x => if x = p then s.sent x ++ [id] else s.sent x⟩ os).1 := by
          funext p'; rw [hout]
          simp only [Spec.step, hd]
          congr 1
          by_cases hp : p' = p
          · subst hp; simp [handed]
          · rw [if_neg hp]; simp [handed, Ne.symm hp]
        rw [this]
        show Book (Spec.run (Spec.dequeue s only).2 os).2 _ _
        rw [hd]; exact b'
      · obtain ⟨A', b', hA, hA'⟩ := ih b hn'
        refine ⟨A', ?_, hA, hA'⟩
        have : (fun p => H p ++ handed p (Spec.run s (.dequeue only :: os)).1) =
            fun p' => H p' ++ handed p' (Spec.run s os).1 := by
          funext p'; rw [hout]
          simp only [Spec.step, hd]
          simp [handed]
        rw [this]
        show Book (Spec.run (Spec.dequeue s only).2 os).2 _ _
        rw [hd]; exact b'

/-- C33: no id is handed out twice with the same priority. -/
theorem C33_once (os : List Op) (hp : Proper S.empty os) (hlen : os.length < 2 ^ 64) (hn : NoForget os) (p : Bool) :
    (handed p (runQ Q.new os).1).Nodup := by
  rw [C33_refines os hp hlen]
  obtain ⟨A', b, _⟩ := book_run os book_empty hn
  have := b.nodupH p
  simpa using this

/-- Asking again and again empties the queues. -/
theorem drain (m : Nat) : ∀ s : S, (s.waiting true).length + (s.waiting false).length ≤ m →
    ∀ p, (Spec.run s (List.replicate m (.dequeue none))).2.waiting p = [] := by
  induction m with
  | zero =>
    intro s h p
    have h1 : s.waiting true = [] := List.length_eq_zero_iff.1 (by omega)
    have h2 : s.waiting false = [] := List.length_eq_zero_iff.1 (by omega)
    cases p <;> assumption
  | succ m ih =>
    intro s h
    show ∀ p, (Spec.run (Spec.dequeue s none).2 (List.replicate m (.dequeue none))).2.waiting p = []
    apply ih
    rcases dequeue_cases s none with ⟨p, id, rest, hw, hd⟩ | ⟨hd, he⟩
    · rw [hd]
      cases p
      · simp only [if_true, Bool.true_eq_false, if_false]
        rw [hw] at h; simp only [List.length_cons] at h; omega
      · simp only [if_true, Bool.false_eq_true, if_false]
        rw [hw] at h; simp only [List.length_cons] at h; omega
    · rw [hd, he rfl true, he rfl false]; simp

theorem waiting_le (os : List Op) : ∀ (s : S), NoForget os →
    ((Spec.run s os).2.waiting true).length + ((Spec.run s os).2.waiting false).length ≤
      (s.waiting true).length + (s.waiting false).length + os.length := by
  induction os with
  | nil => intro s _; exact Nat.le_refl _
  | cons o os ih =>
    intro s hn
    have h1 := ih (Spec.step s o).2 (fun o ho => hn o (List.mem_cons_of_mem _ ho))
    have h2 : ((Spec.step s o).2.waiting true).length + ((Spec.step s o).2.waiting false).length ≤
        (s.waiting true).length + (s.waiting false).length + 1 := by
      cases o with
      | forget id rm => exact absurd rfl (hn _ List.mem_cons_self id rm)
      | enqueue id high requeue =>
        show ((Spec.enqueue s id high requeue).2.waiting true).length + ((Spec.enqueue s id high requeue).2.waiting false).length ≤ _
        unfold Spec.enqueue
        split
        · simp
        · split
          · split
            · simp only [S.add, S.remove, if_true, Bool.false_eq_true, if_false, List.length_append, List.length_singleton]
              have a := List.length_filter_le (fun x => decide (x ≠ id)) (s.waiting true)
              have b := List.length_filter_le (fun x => decide (x ≠ id)) (s.waiting false)
              omega
            · simp
          · cases high <;> simp [S.add] <;> omega
      | dequeue only =>
        show ((Spec.dequeue s only).2.waiting true).length + ((Spec.dequeue s only).2.waiting false).length ≤ _
        rcases dequeue_cases s only with ⟨p, id, rest, hw, hd⟩ | ⟨hd, he⟩
        · rw [hd]
          cases p
          · simp only [if_true, Bool.true_eq_false, if_false]
            rw [hw]; simp only [List.length_cons]; omega
          · simp only [if_true, Bool.false_eq_true, if_false]
            rw [hw]; simp only [List.length_cons]; omega
        · rw [hd]; exact Nat.le_succ _
    show ((Spec.run (Spec.step s o).2 os).2.waiting true).length + ((Spec.run (Spec.step s o).2 os).2.waiting false).length ≤ _
    simp only [List.length_cons]
    omega

theorem proper_append (os : List Op) (m : Nat) : ∀ s, Proper s os → Proper s (os ++ List.replicate m (.dequeue none)) := by
  have hd : ∀ m s, Proper s (List.replicate m (.dequeue none)) := by
    intro m
    induction m with
    | zero => intro s; trivial
    | succ m ih => intro s; exact ⟨trivial, ih _⟩
  induction os with
  | nil => intro s _; exact hd m s
  | cons o os ih => intro s h; exact ⟨h.1, ih _ h.2⟩

/-- C33: every id that was asked for is handed out: whatever the history, after as many further dequeues as there were calls
each id ever asked for has been handed out. -/
theorem C33_all_handed_out (os : List Op) (hp : Proper S.empty os) (hlen : 2 * os.length < 2 ^ 64) (hn : NoForget os)
    (id : Bytes) (hid : id ∈ asked os) :
    ∃ p, id ∈ handed p (runQ Q.new (os ++ List.replicate os.length (.dequeue none))).1 := by
  have hp' := proper_append os os.length S.empty hp
  have hlen' : (os ++ List.replicate os.length (Op.dequeue none)).length < 2 ^ 64 := by
    rw [List.length_append, List.length_replicate]; omega
  have hn' : NoForget (os ++ List.replicate os.length (.dequeue none)) := by
    intro o ho i rm
    rcases List.mem_append.1 ho with ho | ho
    · exact hn o ho i rm
    · rw [(List.mem_replicate.1 ho).2]; exact fun h => by cases h
  rw [C33_refines _ hp' hlen']
  obtain ⟨A', b, _, hA⟩ := book_run _ book_empty hn'
  have hempty : ∀ p, (Spec.run S.empty (os ++ List.replicate os.length (.dequeue none))).2.waiting p = [] := by
    rw [run_append]
    apply drain
    have := waiting_le os S.empty hn
    simpa [S.empty] using this
  have hmem : id ∈ A' := by
    apply hA
    unfold asked at hid ⊢
    rw [List.filterMap_append, List.mem_append]
    exact .inl hid
  rcases b.all id hmem with h | h
  · rcases h with h | h
    · rw [hempty] at h; cases h
    · exact ⟨true, by simpa using b.sentHi id h⟩
  · rcases h with h | h
    · rw [hempty] at h; cases h
    · exact ⟨false, by simpa using b.sentLo id h⟩

/-- C33, counterexample: forgetting a chunk that was never asked for frees a pointer that was never set
(src/caremote.c:2726, 2785). The server of a push does this with every chunk a client sends (casync-tool.c:3738-3747), so a
client that sends a chunk it was not asked for triggers it; see Props/Remote.lean. -/
theorem C33_forget_unasked_violated (id : Bytes) (hl : id.length = 32) (rm : Res Unit) :
    (forget (enqueue Q.new (List.replicate 32 0) false false).2 id rm).1 = .ub ∨ id = List.replicate 32 0 := by
  by_cases he : id = List.replicate 32 0
  · exact .inr he
  left
  obtain ⟨q', pos', e, i⟩ := inv_enqueue inv_new (List.replicate 32 0) (by decide) false false (by decide)
  rw [e]
  have hc : q'.cache = true := (i.dirs false (by
    apply Nat.pos_of_ne_zero
    intro h0
    have := i.wait false
    rw [h0] at this
    simp [Spec.enqueue, S.Known, S.empty, S.add] at this)).2.2
  unfold forget
  rw [hc, if_neg (by decide)]
  cases hx : q'.links (chunkName id) with
  | none => rfl
  | some t =>
    obtain ⟨p, n, _, hn⟩ := (i.lchunk id hl t).1 hx
    have hk := (i.known p id).2 ⟨n, hn⟩
    simp only [Spec.enqueue, S.Known, S.empty, S.add, List.not_mem_nil, or_self, if_false] at hk
    cases p
    · simp at hk; exact absurd hk he
    · simp at hk

/-- The hypotheses are met by a history with an upgrade, both priorities and a forgotten chunk. -/
example : Proper S.empty [.enqueue (List.replicate 32 1) false false, .enqueue (List.replicate 32 2) false false,
    .enqueue (List.replicate 32 2) true true, .dequeue none, .forget (List.replicate 32 1) (.err .ENOENT)] := by
  refine ⟨rfl, rfl, rfl, trivial, ⟨rfl, ?_⟩, trivial⟩
  decide

/-- And what such a history returns. -/
example : (runQ Q.new [.enqueue (List.replicate 32 1) false false, .enqueue (List.replicate 32 2) false false,
    .enqueue (List.replicate 32 1) false true, .enqueue (List.replicate 32 2) true true, .dequeue none, .dequeue none, .dequeue none]).1 =
    [.enqueued (.ok true), .enqueued (.ok true), .enqueued (.ok false), .enqueued (.ok true),
      .dequeued (.ok (List.replicate 32 2, true)), .dequeued (.ok (List.replicate 32 1, false)), .dequeued (.err .ENODATA)] := by
  have hp : Proper S.empty [.enqueue (List.replicate 32 1) false false, .enqueue (List.replicate 32 2) false false,
    .enqueue (List.replicate 32 1) false true, .enqueue (List.replicate 32 2) true true, .dequeue none, .dequeue none, .dequeue none] :=
    ⟨rfl, rfl, rfl, rfl, trivial, trivial, trivial, trivial⟩
  rw [C33_refines _ hp (by decide)]
  decide

end Casync.Remote
