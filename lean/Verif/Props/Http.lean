import Verif.Lemmas.Http
import Verif.Props.RemoteQueue
import Verif.Props.ChunkId
/-!
C60: what a client gets from `casync-http`.
-/
namespace Casync.Http.Props
open Casync Casync.Http Remote Remote.Spec Remote.Props ChunkFile

theorem flags_own' {archive index : Option Bytes} {stores : List Bytes} {server : Nat → Bytes → Transfer} (h : Usual archive index stores server) :
    Own (flags archive index stores) := by
  have hf : flags archive index stores ≠ 0 := by
    intro h0
    have k : ∀ a b c : Bool, (a || b || c) = true →
        ((if c then READABLE_STORE else 0) ||| (if b then READABLE_INDEX else 0) ||| (if a then READABLE_ARCHIVE else 0)) ≠ 0 := by decide
    have := k archive.isSome index.isSome (decide (stores ≠ [])) (by
      rcases h.something with h | h | h
      · cases archive with
        | none => exact absurd rfl h
        | some _ => rfl
      · cases index with
        | none => exact absurd rfl h
        | some _ => simp
      · simp [h])
    simp only [decide_eq_true_eq] at this
    exact this h0
  exact flags_own archive index stores hf

/-- **C60** Whatever the schedule, the cuts of the transport, the server and the client: what the helper says besides its greeting is the archive, then the index,
then answers to requests. The archive and the index are said to be complete only if the server delivered them with a success, and then all
of it was said; what is said before is what the server delivered, from its beginning. Each answer is what the server delivered for the
chunk's address if that is a success, and else that the chunk is missing. The requests answered are those that a queue filled with the client's
requests hands out, in this order, but maybe the last one. -/
theorem C60_talk {W} (e : World W) (w : W) (p : Protocol) (archive index : Option Bytes) (stores : List Bytes) (server : Nat → Bytes → Transfer) (quits : List Bool)
    (ticks : List Tick) (h : Usual archive index stores server) :
    ∃ as, (∀ a ∈ as, Sensible a) ∧
      let m := (run e p archive index stores server quits ticks w).2
      let c := (Conn.new w (R.new (flags archive index stores) false false)).run e as
      c.r = m.r ∧ c.w = m.w ∧ ∃ ids rest, rest.length ≤ 1 ∧ Tells p archive index stores server ids (talk c.said) ∧
        ∃ os ms, c.log = ms.map encode ∧ (∀ m ∈ ms, WF m) ∧ Plain os ∧ asks os = requests ms ∧ Http.handed (runQ Q.new os).1 = ids ++ rest := by
  have hu := h.printable
  have hs := h.status
  have hne := h.pieces
  have hl := flags_own' h
  have fin : ∀ {ids rest tk} {m : M W}, rest.length ≤ 1 → Tells p archive index stores server ids tk → AtWM e w (flags archive index stores) (ids ++ rest) tk m →
      ∃ as, (∀ a ∈ as, Sensible a) ∧
        let c := (Conn.new w (R.new (flags archive index stores) false false)).run e as
        c.r = m.r ∧ c.w = m.w ∧ ∃ ids rest, rest.length ≤ 1 ∧ Tells p archive index stores server ids (talk c.said) ∧
        ∃ os ms, c.log = ms.map encode ∧ (∀ m ∈ ms, WF m) ∧ Plain os ∧ asks os = requests ms ∧ Http.handed (runQ Q.new os).1 = ids ++ rest := by
    intro ids rest tk m h1 h2 h3
    obtain ⟨as, g1, g2, g3, g4, os, ms, k1, k2, k3, k4, k5⟩ := h3
    exact ⟨as, g1, g2, g3, ids, rest, h1, by rw [g4]; exact h2, os, ms, k1, k2, k4, k5, k3⟩
  have start := new_at e w (flags archive index stores)
  unfold run
  cases archive with
  | none =>
    obtain ⟨ids, rest, I, i, h1, h2, h3, h4, h5⟩ := runIndex_at hl p (fun u hu' => hu u (.inr hu')) stores hs quits 0 (m := ⟨ticks, w, R.new (flags none index stores) false false⟩) start
    exact fin h1 ⟨[], I, true, i, rfl, ⟨rfl, rfl⟩, h2, (fun h => nomatch h), h3, h4⟩ h5
  | some url =>
    obtain ⟨c, A, h1, h2⟩ := serveArchive_at hl p (hu url (.inl rfl)) (hs 0 url) (hne url rfl) (m := ⟨ticks, w, R.new (flags (some url) index stores) false false⟩) start
    simp only
    cases hx : serveArchive e p url (server 0 url) ⟨ticks, w, R.new (flags (some url) index stores) false false⟩ with
    | mk x m' =>
    rw [hx] at h2
    rw [List.nil_append] at h2
    cases x with
    | some x =>
      rcases h2 with ⟨h2, _⟩ | ⟨_, h2⟩
      · cases h2
      have hT : Tells p (some url) index stores server [] A := by
        cases index with
        | none => exact ⟨A, [], c, true, by simp [replies], h1, ⟨rfl, rfl⟩, fun _ => ⟨rfl, rfl⟩, (fun h => nomatch h), fun _ => rfl⟩
        | some u => exact ⟨A, [], c, false, by simp [replies], h1, .some (ds := []) List.nil_prefix, fun _ => ⟨rfl, rfl⟩, fun _ => rfl, fun _ => rfl⟩
      exact fin (ids := []) (rest := []) (by decide) hT h2
    | none =>
      rcases h2 with ⟨_, hc, h2⟩ | ⟨h2, _⟩
      · obtain ⟨ids, rest, I, i, k1, k2, k3, k4, k5⟩ := runIndex_at hl p (fun u hu' => hu u (.inr hu')) stores hs quits 1 h2
        exact fin k1 ⟨A, I, c, i, rfl, h1, k2, (fun h => by rw [hc] at h; cases h), k3, k4⟩ k5
      · exact absurd rfl h2

/-! ### Files -/

theorem fileData_files (a : Bool) (ds : List Bytes) : fileData a (ds.map (.file a)) = ds.flatten := by
  induction ds with
  | nil => rfl
  | cons d ds ih =>
    rw [List.map_cons, List.flatten_cons, ← ih]
    simp [fileData]

theorem fileData_none (a : Bool) {ms : List Msg} (h : ∀ d, .file a d ∉ ms) : fileData a ms = [] := by
  induction ms with
  | nil => rfl
  | cons m ms ih =>
    rw [show m :: ms = [m] ++ ms from rfl, fileData_append, ih (fun d hd => h d (List.mem_cons_of_mem _ hd)),
      fileData_other a (fun d hd => h d (by rw [hd]; exact List.mem_cons_self)), List.append_nil]

theorem fileData_talk (a : Bool) (ms : List Msg) : fileData a (talk ms) = fileData a ms := by
  induction ms with
  | nil => rfl
  | cons m ms ih =>
    rw [show m :: ms = [m] ++ ms from rfl, talk_append, fileData_append, fileData_append, ih]
    cases m <;> rfl

theorem mem_talk {m : Msg} (h : isHello m = false) (ms : List Msg) : m ∈ talk ms ↔ m ∈ ms := by
  unfold talk
  rw [List.mem_filter, h]
  simp

theorem mem_replies {p : Protocol} {server : Nat → Bytes → Transfer} {url : Bytes → Bytes} {m : Msg} : ∀ {ids : List Bytes} {n : Nat}, m ∈ replies p server url n ids →
    ∃ k id, ids[k]? = some id ∧ m = reply p id (server (n + k) (url id)) := by
  intro ids
  induction ids with
  | nil => intro n h; cases h
  | cons id ids ih =>
    intro n h
    rcases List.mem_cons.1 h with h | h
    · exact ⟨0, id, rfl, h⟩
    · obtain ⟨k, id', h1, h2⟩ := ih h
      exact ⟨k + 1, id', h1, by rw [h2]; congr 2; omega⟩

theorem replies_other {p : Protocol} {server : Nat → Bytes → Transfer} {url : Bytes → Bytes} {n : Nat} {ids : List Bytes} (a : Bool) :
    (∀ d, Msg.file a d ∉ replies p server url n ids) ∧ Msg.fileEof a ∉ replies p server url n ids := by
  have k : ∀ id t, (∀ d, Msg.file a d ≠ reply p id t) ∧ Msg.fileEof a ≠ reply p id t := by
    intro id t
    unfold reply
    split
    · exact ⟨(fun d h => by cases h), (fun h => by cases h)⟩
    · exact ⟨(fun d h => by cases h), (fun h => by cases h)⟩
  refine ⟨fun d h => ?_, fun h => ?_⟩
  · obtain ⟨_, id, _, h⟩ := mem_replies h
    exact (k id _).1 d h
  · obtain ⟨_, id, _, h⟩ := mem_replies h
    exact (k id _).2 h

theorem fileTalk_own {p : Protocol} {a : Bool} {t : Transfer} {c : Bool} {ms : List Msg} (h : FileTalk p a t c ms) :
    fileData a ms <+: body t ∧ (.fileEof a ∈ ms → Success p t ∧ fileData a ms = body t) ∧
      (∀ d, .file (!a) d ∉ ms) ∧ .fileEof (!a) ∉ ms := by
  have k : ∀ {ds : List Bytes} {x : Msg}, (∀ d, x ≠ .file a d) → fileData a (ds.map (.file a) ++ [x]) = ds.flatten := by
    intro ds x hx
    rw [fileData_append, fileData_files, fileData_other a hx, List.append_nil]
  have no : ∀ {ds : List Bytes} {m : Msg}, m ∈ ds.map (Msg.file a) → ∃ d, m = .file a d := by
    intro ds m hm
    obtain ⟨d, _, hd⟩ := List.mem_map.1 hm
    exact ⟨d, hd.symm⟩
  have na : (!a) ≠ a := by cases a <;> decide
  cases h with
  | some h =>
    refine ⟨by rw [fileData_files]; exact h, fun hm => ?_, fun d hm => ?_, fun hm => ?_⟩
    · obtain ⟨_, h⟩ := no hm; cases h
    · obtain ⟨_, h⟩ := no hm; injection h with h; exact na h
    · obtain ⟨_, h⟩ := no hm; cases h
  | all h1 h2 =>
    have h3 := h1
    rw [← k (x := .fileEof a) (fun d hd => by cases hd)] at h3
    refine ⟨by rw [h3]; exact List.prefix_refl _, fun _ => ⟨h2, h3⟩, fun d hm => ?_, fun hm => ?_⟩
    · rcases List.mem_append.1 hm with hm | hm
      · obtain ⟨_, h⟩ := no hm; injection h with h; exact na h
      · cases List.mem_singleton.1 hm
    · rcases List.mem_append.1 hm with hm | hm
      · obtain ⟨_, h⟩ := no hm; cases h
      · have := List.mem_singleton.1 hm; injection this with h; exact na h
  | abort h1 h2 h3 _ =>
    rw [k (fun d hd => by cases hd)]
    refine ⟨h1, fun hm => ?_, fun d hm => ?_, fun hm => ?_⟩
    · rcases List.mem_append.1 hm with hm | hm
      · obtain ⟨_, h⟩ := no hm; cases h
      · cases List.mem_singleton.1 hm
    · rcases List.mem_append.1 hm with hm | hm
      · obtain ⟨_, h⟩ := no hm; injection h with h; exact na h
      · cases List.mem_singleton.1 hm
    · rcases List.mem_append.1 hm with hm | hm
      · obtain ⟨_, h⟩ := no hm; cases h
      · cases List.mem_singleton.1 hm

theorem fileTalk?_own {p : Protocol} {a : Bool} {t : Option Transfer} {c : Bool} {ms : List Msg} (h : FileTalk? p a t c ms) :
    (∀ x, x ∈ t → fileData a ms <+: body x) ∧ (.fileEof a ∈ ms → ∃ x, x ∈ t ∧ Success p x ∧ fileData a ms = body x) ∧
      (∀ d, .file (!a) d ∉ ms) ∧ .fileEof (!a) ∉ ms ∧ (t = none → ms = []) := by
  cases t with
  | none =>
    rw [h.2]
    exact ⟨(fun x hx => nomatch hx), (fun hx => nomatch hx), (fun d hx => nomatch hx), (fun hx => nomatch hx), fun _ => rfl⟩
  | some t =>
    obtain ⟨h1, h2, h3, h4⟩ := fileTalk_own h
    exact ⟨fun x hx => by rw [← Option.some.inj hx]; exact h1, fun hm => ⟨t, rfl, h2 hm⟩, h3, h4, (fun hx => nomatch hx)⟩

/-- The transfer of a file, if it was asked for. -/
theorem tells_file {p : Protocol} {archive index : Option Bytes} {stores : List Bytes} {server : Nat → Bytes → Transfer} {ids : List Bytes} {ms : List Msg}
    (h : Tells p archive index stores server ids ms) (a : Bool) :
    let t := if a then archive.map (server 0) else index.map (server archive.toList.length)
    (∀ x, x ∈ t → fileData a ms <+: body x) ∧ (.fileEof a ∈ ms → ∃ x, x ∈ t ∧ Success p x ∧ fileData a ms = body x) ∧
      (t = none → fileData a ms = [] ∧ .fileEof a ∉ ms) := by
  obtain ⟨A, I, c, i, h1, h2, h3, -⟩ := h
  obtain ⟨a1, a2, a3, a4, a5⟩ := fileTalk?_own h2
  obtain ⟨i1, i2, i3, i4, i5⟩ := fileTalk?_own h3
  have r := fun a => replies_other (p := p) (server := server) (url := chunkUrl (stores.headD [])) (n := archive.toList.length + index.toList.length) (ids := ids) a
  subst h1
  cases a with
  | true =>
    have hd : fileData true (A ++ I ++ replies p server (chunkUrl (stores.headD [])) (archive.toList.length + index.toList.length) ids) = fileData true A := by
      rw [fileData_append, fileData_append, fileData_none true i3, fileData_none true (r true).1, List.append_nil, List.append_nil]
    have he : Msg.fileEof true ∈ A ++ I ++ replies p server (chunkUrl (stores.headD [])) (archive.toList.length + index.toList.length) ids → .fileEof true ∈ A := by
      intro hm
      rcases List.mem_append.1 hm with hm | hm
      · rcases List.mem_append.1 hm with hm | hm
        · exact hm
        · exact absurd hm i4
      · exact absurd hm (r true).2
    simp only [if_true]
    rw [hd]
    exact ⟨a1, fun hm => a2 (he hm), fun hn => ⟨by rw [a5 hn]; rfl, fun hm => by have := he hm; rw [a5 hn] at this; cases this⟩⟩
  | false =>
    have hd : fileData false (A ++ I ++ replies p server (chunkUrl (stores.headD [])) (archive.toList.length + index.toList.length) ids) = fileData false I := by
      rw [fileData_append, fileData_append, fileData_none false a3, fileData_none false (r false).1, List.append_nil, List.nil_append]
    have he : Msg.fileEof false ∈ A ++ I ++ replies p server (chunkUrl (stores.headD [])) (archive.toList.length + index.toList.length) ids → .fileEof false ∈ I := by
      intro hm
      rcases List.mem_append.1 hm with hm | hm
      · rcases List.mem_append.1 hm with hm | hm
        · exact absurd hm a4
        · exact hm
      · exact absurd hm (r false).2
    simp only [Bool.false_eq_true, if_false]
    rw [hd]
    exact ⟨i1, fun hm => i2 (he hm), fun hn => ⟨by rw [i5 hn]; rfl, fun hm => by have := he hm; rw [i5 hn] at this; cases this⟩⟩

/-- **C60** Any client behind any transport, whatever both sides and the transport do, however it ends: its file is what it was before, or all that the server delivered
under the address of this file with a success. -/
theorem C60_client {W} (e : World W) (w : W) (p : Protocol) (archive index : Option Bytes) (stores : List Bytes) (server : Nat → Bytes → Transfer) (quits : List Bool)
    (ticks : List Tick) (h : Usual archive index stores server) :
    ∃ as, let m := (run e p archive index stores server quits ticks w).2
      let helper := (Conn.new w (R.new (flags archive index stores) false false)).run e as
      helper.r = m.r ∧ helper.w = m.w ∧
      ∀ (V : Type) (e' : World V) (content : V → Bool → Bytes) (final : V → Bool → Option Bytes) (_ : Laws e' content final) (a : Bool) (v : V) (_ : content v a = [])
        (l' : Nat) (i' b' : Bool) (as' : List Act) (_ : Orderly e' a (Conn.new v (R.new l' i' b')) as'),
        let client := (Conn.new v (R.new l' i' b')).run e' as'
        client.received <+: helper.sent →
        final client.w a = final v a ∨
          ∃ n u, (if a then archive else index) = some u ∧ Success p (server n u) ∧ final client.w a = some (body (server n u)) := by
  have hf : flags archive index stores ≠ 0 ∧ flags archive index stores < 2 ^ 64 - 1 := by
    have := flags_own' h
    exact ⟨this.1, this.2.1⟩
  obtain ⟨as, h1, h2, h3, ids, rest, h4, h5, -⟩ := C60_talk e w p archive index stores server quits ticks h
  refine ⟨as, h2, h3, ?_⟩
  intro V e' content final laws a v hv l' i' b' as' ho client hr
  rcases C49_end_to_end e e' content final laws a w v hv (flags archive index stores) l' false false i' b' as as' h1 hf.1 hf.2 ho hr with k | ⟨k1, k2⟩
  · exact .inl k
  · obtain ⟨-, g, -⟩ := tells_file h5 a
    obtain ⟨x, g1, g2, g3⟩ := g ((mem_talk rfl _).2 k1)
    rw [fileData_talk] at g3
    rw [g3] at k2
    refine .inr ?_
    cases a with
    | true =>
      simp only [if_true] at g1 ⊢
      cases archive with
      | none => cases g1
      | some u => injection g1 with g1; subst g1; exact ⟨_, u, rfl, g2, k2⟩
    | false =>
      simp only [Bool.false_eq_true, if_false] at g1 ⊢
      cases index with
      | none => cases g1
      | some u => injection g1 with g1; subst g1; exact ⟨_, u, rfl, g2, k2⟩

/-! ### Chunks -/

/-- Bookkeeping over a history without forgetting and without repetition: `H` was handed out, `A` was asked for. -/
structure Ledger (s : S) (H A : List Bytes) : Prop where
  nodupH : H.Nodup
  nodupW : ∀ p, (s.waiting p).Nodup
  fresh : ∀ p id, id ∈ s.waiting p → id ∉ H
  excl : ∀ id, id ∈ s.waiting true → id ∉ s.waiting false
  sent : ∀ id, id ∈ H ↔ id ∈ s.sent true ∨ id ∈ s.sent false
  asked : ∀ id, id ∈ H ∨ id ∈ s.waiting true ∨ id ∈ s.waiting false → id ∈ A

theorem nodup_snoc {l : List Bytes} {x : Bytes} (h : l.Nodup) (hx : x ∉ l) : (l ++ [x]).Nodup := by
  rw [List.nodup_append]
  refine ⟨h, by simp, ?_⟩
  intro a ha b hb
  rw [List.mem_singleton.1 hb]
  intro he
  exact hx (he ▸ ha)

theorem ledger_more {s H A} (l : Ledger s H A) (id : Bytes) : Ledger s H (A ++ [id]) :=
  ⟨l.nodupH, l.nodupW, l.fresh, l.excl, l.sent, fun x hx => List.mem_append.2 (.inl (l.asked x hx))⟩

theorem ledger_add {s H A} (l : Ledger s H A) {id : Bytes} (p : Bool) (hW : ∀ p, id ∉ s.waiting p) (hH : id ∉ H) : Ledger (s.add p id) H (A ++ [id]) := by
  have w : ∀ q x, x ∈ (s.add p id).waiting q ↔ x ∈ s.waiting q ∨ (q = p ∧ x = id) := by
    intro q x
    simp only [S.add]
    by_cases hq : q = p
    · rw [if_pos hq]; simp [hq]
    · rw [if_neg hq]; simp [hq]
  refine ⟨l.nodupH, ?_, ?_, ?_, l.sent, ?_⟩
  · intro q
    simp only [S.add]
    split
    · exact nodup_snoc (l.nodupW q) (hW q)
    · exact l.nodupW q
  · intro q x hx
    rcases (w q x).1 hx with hx | ⟨_, hx⟩
    · exact l.fresh q x hx
    · rw [hx]; exact hH
  · intro x hx hx'
    rcases (w true x).1 hx with h1 | ⟨h1, h1'⟩ <;> rcases (w false x).1 hx' with h2 | ⟨h2, h2'⟩
    · exact l.excl x h1 h2
    · rw [h2'] at h1; exact hW true h1
    · rw [h1'] at h2; exact hW false h2
    · rw [← h1] at h2; cases h2
  · intro x hx
    rw [w, w] at hx
    rw [List.mem_append, List.mem_singleton]
    rcases hx with h | (h | ⟨_, h⟩) | (h | ⟨_, h⟩)
    · exact .inl (l.asked x (.inl h))
    · exact .inl (l.asked x (.inr (.inl h)))
    · exact .inr h
    · exact .inl (l.asked x (.inr (.inr h)))
    · exact .inr h

theorem ledger_remove {s H A} (l : Ledger s H A) {id : Bytes} (hH : id ∉ H) : Ledger (s.remove id) H A ∧ ∀ p, id ∉ (s.remove id).waiting p := by
  have w : ∀ q x, x ∈ (s.remove id).waiting q → x ∈ s.waiting q := by
    intro q x hx
    simp only [S.remove, List.mem_filter] at hx
    exact hx.1
  refine ⟨⟨l.nodupH, fun q => (l.nodupW q).filter _, fun q x hx => l.fresh q x (w q x hx), fun x hx hx' => l.excl x (w _ _ hx) (w _ _ hx'), ?_, ?_⟩, ?_⟩
  · intro x
    rw [l.sent]
    have : x ∈ s.sent true ∨ x ∈ s.sent false → x ≠ id := fun hx he => hH (he ▸ (l.sent x).2 hx)
    simp only [S.remove, List.mem_filter, decide_eq_true_eq]
    constructor
    · intro h
      have := this h
      rcases h with h | h
      · exact .inl ⟨h, this⟩
      · exact .inr ⟨h, this⟩
    · rintro (⟨h, _⟩ | ⟨h, _⟩)
      · exact .inl h
      · exact .inr h
  · intro x hx
    apply l.asked
    rcases hx with h | h | h
    · exact .inl h
    · exact .inr (.inl (w _ _ h))
    · exact .inr (.inr (w _ _ h))
  · intro q hq
    simp [S.remove] at hq

theorem ledger_take {s H A} (l : Ledger s H A) {p : Bool} {id : Bytes} {s' : S} (h : take s p = some (id, s')) : Ledger s' (H ++ [id]) A := by
  unfold take at h
  cases hw : s.waiting p with
  | nil => rw [hw] at h; cases h
  | cons x rest =>
    rw [hw] at h
    injection h with h
    injection h with hx hs
    subst hx hs
    have hin : x ∈ s.waiting p := by rw [hw]; exact List.mem_cons_self
    have hnd := l.nodupW p
    rw [hw, List.nodup_cons] at hnd
    have sub : ∀ q y, y ∈ (if q = p then rest else s.waiting q) → y ∈ s.waiting q ∧ y ≠ x := by
      intro q y hy
      by_cases hq : q = p
      · rw [if_pos hq] at hy
        subst hq
        exact ⟨by rw [hw]; exact List.mem_cons_of_mem _ hy, fun he => hnd.1 (he ▸ hy)⟩
      · rw [if_neg hq] at hy
        refine ⟨hy, fun he => ?_⟩
        subst he
        cases p <;> cases q
        · exact hq rfl
        · exact l.excl _ hy hin
        · exact l.excl _ hin hy
        · exact hq rfl
    refine ⟨nodup_snoc l.nodupH (l.fresh p x hin), ?_, ?_, ?_, ?_, ?_⟩
    · intro q
      simp only
      split
      · exact hnd.2
      · exact l.nodupW q
    · intro q y hy hyH
      obtain ⟨h1, h2⟩ := sub q y hy
      rcases List.mem_append.1 hyH with h | h
      · exact l.fresh q y h1 h
      · exact h2 (List.mem_singleton.1 h)
    · intro y hy hy'
      exact l.excl y (sub true y hy).1 (sub false y hy').1
    · intro y
      rw [List.mem_append, List.mem_singleton, l.sent]
      cases p <;> simp only [if_true, if_false, Bool.true_eq_false, Bool.false_eq_true, List.mem_append, List.mem_singleton]
      · exact or_assoc
      · constructor
        · rintro ((h | h) | h)
          · exact .inl (.inl h)
          · exact .inr h
          · exact .inl (.inr h)
        · rintro ((h | h) | h)
          · exact .inl (.inl h)
          · exact .inr h
          · exact .inl (.inr h)
    · intro y hy
      apply l.asked
      rcases hy with h | h | h
      · rcases List.mem_append.1 h with h | h
        · exact .inl h
        · rw [List.mem_singleton.1 h]
          right
          cases p
          · exact .inr hin
          · exact .inl hin
      · exact .inr (.inl (sub true y h).1)
      · exact .inr (.inr (sub false y h).1)

theorem ledger_run : ∀ (os : List Op) {s H A}, Ledger s H A → Plain os →
    Ledger (Spec.run s os).2 (H ++ Http.handed (Spec.run s os).1) (A ++ (asks os).map Prod.fst) := by
  intro os
  induction os with
  | nil => intro s H A l _; simpa [Spec.run, Http.handed, asks] using l
  | cons o os ih =>
    intro s H A l hp
    have hp' : Plain os := fun x hx => hp x (List.mem_cons_of_mem _ hx)
    rcases hp o List.mem_cons_self with rfl | ⟨id, h, rfl⟩
    · have e1 : asks (.dequeue none :: os) = asks os := rfl
      rw [e1]
      have k : ∃ X, Http.handed [Out.dequeued (match (Spec.dequeue s none).1 with | some x => .ok x | none => .err .ENODATA)] = X ∧
          Ledger (Spec.dequeue s none).2 (H ++ X) A := by
        unfold Spec.dequeue
        simp only [reduceCtorEq, if_false]
        cases ht : take s true with
        | some x =>
          obtain ⟨id, s'⟩ := x
          exact ⟨[id], rfl, ledger_take l ht⟩
        | none =>
          simp only
          cases ht : take s false with
          | some x =>
            obtain ⟨id, s'⟩ := x
            exact ⟨[id], rfl, ledger_take l ht⟩
          | none => exact ⟨[], rfl, by rw [List.append_nil]; exact l⟩
      have k0 : Http.handed (Spec.run s (.dequeue none :: os)).1 = Http.handed [Out.dequeued (match (Spec.dequeue s none).1 with | some x => .ok x | none => .err .ENODATA)] ++
          Http.handed (Spec.run (Spec.dequeue s none).2 os).1 := handed_append [_] _
      obtain ⟨X, k1, k2⟩ := k
      rw [k0, k1, ← List.append_assoc]
      exact ih k2 hp'
    · have e1 : (asks (.enqueue id h false :: os)).map Prod.fst = [id] ++ (asks os).map Prod.fst := rfl
      rw [e1, ← List.append_assoc]
      have e2 : Http.handed (Spec.run s (.enqueue id h false :: os)).1 = Http.handed (Spec.run (Spec.enqueue s id h false).2 os).1 := rfl
      rw [e2]
      have e3 : (Spec.run s (.enqueue id h false :: os)).2 = (Spec.run (Spec.enqueue s id h false).2 os).2 := rfl
      rw [e3]
      refine ih ?_ hp'
      unfold Spec.enqueue
      have notK : ∀ {q}, ¬ s.Known q id → id ∉ s.waiting q ∧ id ∉ s.sent q := fun h => ⟨fun hx => h (.inl hx), fun hx => h (.inr hx)⟩
      split
      · exact ledger_more l id
      rename_i hk
      have hk := notK hk
      split
      · split
        · rename_i h2
          have hwait : id ∈ s.waiting false := by
            rcases h2.2 with h | h
            · exact h
            · cases h
          obtain ⟨k1, k2⟩ := ledger_remove l (id := id) (l.fresh false id hwait)
          exact ledger_add k1 true k2 (l.fresh false id hwait)
        · exact ledger_more l id
      · rename_i hk2
        have hk2 := notK hk2
        refine ledger_add l h (fun q => by
          cases q
          · exact hk2.1
          · exact hk.1) (fun hx => ?_)
        rcases (l.sent id).1 hx with h | h
        · exact hk.2 h
        · exact hk2.2 h

theorem proper_plain : ∀ (os : List Op) (s : S), Plain os → (∀ x ∈ asks os, x.1.length = 32) → Proper s os := by
  intro os
  induction os with
  | nil => intro s _ _; exact trivial
  | cons o os ih =>
    intro s hp hx
    have hp' : Plain os := fun x hx => hp x (List.mem_cons_of_mem _ hx)
    rcases hp o List.mem_cons_self with rfl | ⟨id, h, rfl⟩
    · exact ⟨trivial, ih _ hp' hx⟩
    · exact ⟨hx (id, h) List.mem_cons_self, ih _ hp' (fun x hm => hx x (List.mem_cons_of_mem _ hm))⟩

theorem handed_once {os : List Op} {ms : List Msg} (hp : Plain os) (ha : asks os = requests ms) (hw : ∀ m ∈ ms, WF m) (hl : os.length < 2 ^ 64) :
    (Http.handed (runQ Q.new os).1).Nodup ∧ ∀ id ∈ Http.handed (runQ Q.new os).1, ∃ h ids, .request h ids ∈ ms ∧ id ∈ ids := by
  have mem : ∀ x ∈ requests ms, ∃ h ids, Msg.request h ids ∈ ms ∧ x.1 ∈ ids := by
    intro x hx
    obtain ⟨m, hm, hx⟩ := List.mem_flatMap.1 hx
    cases m with
    | request h ids =>
      obtain ⟨id, hid, rfl⟩ := List.mem_map.1 hx
      exact ⟨h, ids, hm, hid⟩
    | _ => cases hx
  have hpr : Proper S.empty os := by
    refine proper_plain os _ hp fun x hx => ?_
    rw [ha] at hx
    obtain ⟨h, ids, h1, h2⟩ := mem x hx
    exact (hw _ h1).2 _ h2
  rw [C33_refines os hpr hl]
  have l := ledger_run os (s := S.empty) (H := []) (A := []) ⟨List.nodup_nil, (fun _ => List.nodup_nil), (fun _ _ h => nomatch h), (fun _ h => nomatch h),
    (fun _ => ⟨(fun h => nomatch h), (fun h => by rcases h with h | h <;> cases h)⟩), (fun _ h => by rcases h with h | h | h <;> cases h)⟩ hp
  rw [List.nil_append, List.nil_append] at l
  refine ⟨l.nodupH, fun id hid => ?_⟩
  obtain ⟨x, hx, rfl⟩ := List.mem_map.1 (l.asked id (.inl hid))
  rw [ha] at hx
  exact mem x hx

/-- **C60** Each chunk is answered at most once, and only if the client asked for it. A chunk that is sent is what the server delivered with a success for its address; one that is
called missing the server did not deliver with a success. -/
theorem C60_answers {W} (e : World W) (w : W) (p : Protocol) (archive index : Option Bytes) (stores : List Bytes) (server : Nat → Bytes → Transfer) (quits : List Bool)
    (ticks : List Tick) (h : Usual archive index stores server) :
    ∃ as, let m := (run e p archive index stores server quits ticks w).2
      let c := (Conn.new w (R.new (flags archive index stores) false false)).run e as
      c.r = m.r ∧ c.w = m.w ∧ ∃ ids : List Bytes,
        (∀ id comp d, Msg.chunk id comp d ∈ c.said → comp = true ∧ ∃ k n, ids[k]? = some id ∧ n = archive.toList.length + index.toList.length + k ∧
          Success p (server n (chunkUrl (stores.headD []) id)) ∧ d = body (server n (chunkUrl (stores.headD []) id))) ∧
        (∀ id, Msg.missing id ∈ c.said → ∃ k n, ids[k]? = some id ∧ n = archive.toList.length + index.toList.length + k ∧
          ¬ Success p (server n (chunkUrl (stores.headD []) id))) ∧
        ∃ os ms, c.log = ms.map encode ∧ (∀ m ∈ ms, WF m) ∧ Plain os ∧ asks os = requests ms ∧
          (os.length < 2 ^ 64 → ids.Nodup ∧ ∀ id ∈ ids, ∃ h asked, .request h asked ∈ ms ∧ id ∈ asked) := by
  obtain ⟨as, h1, h2, h3, ids, rest, h4, ⟨A, I, a, i, t1, t2, t3, -⟩, os, ms, k1, k2, k3, k4, k5⟩ := C60_talk e w p archive index stores server quits ticks h
  have inR : ∀ m, (∃ id c d, m = Msg.chunk id c d) ∨ (∃ id, m = Msg.missing id) →
      m ∈ ((Conn.new w (R.new (flags archive index stores) false false)).run e as).said →
      m ∈ replies p server (chunkUrl (stores.headD [])) (archive.toList.length + index.toList.length) ids := by
    intro m hm hin
    have no : ∀ {b c t ms}, FileTalk? p b t c ms → m ∉ ms := by
      intro b c t ms hf hx
      cases t with
      | none => rw [hf.2] at hx; cases hx
      | some t =>
        have g : ∀ {ds : List Bytes}, m ∉ ds.map (Msg.file b) := by
          intro ds hx
          obtain ⟨d, _, hd⟩ := List.mem_map.1 hx
          subst hd
          rcases hm with ⟨_, _, _, hm⟩ | ⟨_, hm⟩ <;> cases hm
        cases hf with
        | some _ => exact g hx
        | all _ _ =>
          rcases List.mem_append.1 hx with hx | hx
          · exact g hx
          · rw [List.mem_singleton.1 hx] at hm
            rcases hm with ⟨_, _, _, hm⟩ | ⟨_, hm⟩ <;> cases hm
        | abort _ _ _ _ =>
          rcases List.mem_append.1 hx with hx | hx
          · exact g hx
          · rw [List.mem_singleton.1 hx] at hm
            rcases hm with ⟨_, _, _, hm⟩ | ⟨_, hm⟩ <;> cases hm
    have := (mem_talk (m := m) (by rcases hm with ⟨_, _, _, rfl⟩ | ⟨_, rfl⟩ <;> rfl) _).2 hin
    rw [t1] at this
    rcases List.mem_append.1 this with this | this
    · rcases List.mem_append.1 this with this | this
      · exact absurd this (no t2)
      · exact absurd this (no t3)
    · exact this
  refine ⟨as, h2, h3, ids, ?_, ?_, os, ms, k1, k2, k3, k4, ?_⟩
  · intro id comp d hin
    obtain ⟨k, id', g1, g2⟩ := mem_replies (inR _ (.inl ⟨_, _, _, rfl⟩) hin)
    unfold reply at g2
    by_cases hs : Success p (server (archive.toList.length + index.toList.length + k) (chunkUrl (stores.headD []) id'))
    · rw [if_pos hs] at g2
      injection g2 with g3 g4 g5
      subst g3
      exact ⟨g4, k, _, g1, rfl, hs, g5⟩
    · rw [if_neg hs] at g2; cases g2
  · intro id hin
    obtain ⟨k, id', g1, g2⟩ := mem_replies (inR _ (.inr ⟨_, rfl⟩) hin)
    unfold reply at g2
    by_cases hs : Success p (server (archive.toList.length + index.toList.length + k) (chunkUrl (stores.headD []) id'))
    · rw [if_pos hs] at g2; cases g2
    · rw [if_neg hs] at g2
      injection g2 with g3
      subst g3
      exact ⟨k, _, g1, rfl, hs⟩
  · intro hl
    obtain ⟨g1, g2⟩ := handed_once k3 k4 k2 hl
    rw [k5] at g1 g2
    exact ⟨(List.nodup_append.1 g1).1, fun id hid => g2 id (List.mem_append.2 (.inl hid))⟩

/-- **C60** What the helper offers to its client is what it was given: to read chunks, the index, the archive, and nothing else. -/
theorem C60_offers (archive index : Option Bytes) (stores : List Bytes) (i : Nat) :
    (flags archive index stores).testBit i = true ↔ (i = 0 ∧ stores ≠ []) ∨ (i = 2 ∧ index ≠ none) ∨ (i = 4 ∧ archive ≠ none) := by
  have small : ∀ j : Fin 5, ∀ a b c : Bool, (((if c then READABLE_STORE else 0) ||| (if b then READABLE_INDEX else 0) ||| (if a then READABLE_ARCHIVE else 0)).testBit j.1 = true ↔
      (j.1 = 0 ∧ c = true) ∨ (j.1 = 2 ∧ b = true) ∨ (j.1 = 4 ∧ a = true)) ∧
      ((if c then READABLE_STORE else 0) ||| (if b then READABLE_INDEX else 0) ||| (if a then READABLE_ARCHIVE else 0)) < 2 ^ 5 := by decide
  have k := fun j => small j archive.isSome index.isSome (decide (stores ≠ []))
  simp only [decide_eq_true_eq] at k
  have hf : flags archive index stores = (if stores ≠ [] then READABLE_STORE else 0) ||| (if index.isSome = true then READABLE_INDEX else 0) ||| (if archive.isSome = true then READABLE_ARCHIVE else 0) := rfl
  rw [← hf] at k
  have e1 : archive.isSome = true ↔ archive ≠ none := by cases archive <;> simp
  have e2 : index.isSome = true ↔ index ≠ none := by cases index <;> simp
  by_cases hi : i < 5
  · have := (k ⟨i, hi⟩).1
    rw [e1, e2] at this
    exact this
  · have hlt := (k ⟨0, by omega⟩).2
    have : (flags archive index stores).testBit i = false := Nat.testBit_lt_two_pow (Nat.lt_of_lt_of_le hlt (Nat.pow_le_pow_right (by omega) (by omega)))
    rw [this]
    constructor
    · intro h; cases h
    · rintro (⟨h, _⟩ | ⟨h, _⟩ | ⟨h, _⟩) <;> omega

/-! ### Addresses -/

theorem takeWhile_args {l : Bytes} {args : Bytes} (hl : ∀ b ∈ l, b ≠ 63 ∧ b ≠ 59) (ha : ∀ b, args.head? = some b → b = 63 ∨ b = 59) :
    (l ++ args).takeWhile (fun b => b != 63 && b != 59) = l := by
  rw [List.takeWhile_append_of_pos (fun b hb => by have := hl b hb; simp [this])]
  cases args with
  | nil => simp
  | cons b args =>
    have := ha b rfl
    rw [List.takeWhile_cons_of_neg (by rcases this with h | h <;> simp [h]), List.append_nil]

/-- **C60** The address from which a chunk is fetched is the one meant, and only that one. -/
theorem C60_url (store id url : Bytes) : url = chunkUrl store id ↔ IsAddress store id url := by
  have fm : ∀ base : Bytes, base ++ (47 :: ((ChunkId.format id).take 4 ++ (47 :: (ChunkId.format id ++ cacnk)))) = ChunkId.formatPath (base ++ [47]) id [46, 99, 97, 99, 110, 107] := by
    intro base
    unfold ChunkId.formatPath
    rw [List.append_assoc]
    rfl
  constructor
  · intro h
    rw [h]
    unfold chunkUrl
    generalize hT : store.takeWhile (fun b => b != 63 && b != 59) = T
    refine ⟨(T.reverse.dropWhile (· == 47)).reverse, (T.reverse.takeWhile (· == 47)).reverse, store.dropWhile (fun b => b != 63 && b != 59), ?_, ?_, ?_, ?_, ?_, fm _⟩
    · rw [← List.reverse_append, List.takeWhile_append_dropWhile, List.reverse_reverse, ← hT, List.takeWhile_append_dropWhile]
    · rw [← List.reverse_append, List.takeWhile_append_dropWhile, List.reverse_reverse, ← hT]
      intro b hb
      have := List.all_takeWhile (p := fun b : UInt8 => b != 63 && b != 59) (l := store)
      have := List.all_eq_true.1 this b hb
      simpa using this
    · intro b hb
      have := List.head?_dropWhile_not (fun b : UInt8 => b != 63 && b != 59) store
      rw [hb] at this
      simp only [Bool.and_eq_false_iff, bne_eq_false_iff_eq] at this
      exact this
    · intro b hb
      rw [List.mem_reverse] at hb
      have := List.all_takeWhile (p := fun b : UInt8 => b == 47) (l := T.reverse)
      have := List.all_eq_true.1 this b hb
      simpa using this
    · rw [List.getLast?_reverse]
      intro hb
      have := List.head?_dropWhile_not (fun b : UInt8 => b == 47) T.reverse
      rw [hb] at this
      simp at this
  · rintro ⟨base, slashes, args, h1, h2, h3, h4, h5, h6⟩
    rw [h6, ← fm base]
    unfold chunkUrl
    rw [h1, takeWhile_args h2 h3, List.reverse_append, List.dropWhile_append_of_pos (fun b hb => by
      rw [List.mem_reverse] at hb
      simp [h4 b hb])]
    congr 1
    have : base.reverse.dropWhile (· == 47) = base.reverse := by
      cases hb : base.reverse with
      | nil => rfl
      | cons b t =>
        rw [List.dropWhile_cons_of_neg]
        intro h47
        apply h5
        rw [List.getLast?_eq_head?_reverse, hb]
        simp at h47
        simp [h47]
    rw [this, List.reverse_reverse]

/-- **C60** Different chunks of a store have different addresses. -/
theorem C60_url_injective (store a b : Bytes) (ha : a.length = 32) (hb : b.length = 32) (h : chunkUrl store a = chunkUrl store b) : a = b := by
  obtain ⟨base, s1, a1, h1, h2, h3, h4, h5, h6⟩ := (C60_url store a _).1 rfl
  have key : chunkUrl store b = ChunkId.formatPath (base ++ [47]) b [46, 99, 97, 99, 110, 107] :=
    ((C60_url store b _).2 ⟨base, s1, a1, h1, h2, h3, h4, h5, rfl⟩).symm
  rw [key, h6] at h
  exact (ChunkId.C11_path_injective _ a b _ _ ha hb h).1

/-! ### What goes wrong -/

/-- **C60, violated**: the other stores are not asked at all: with them or without, all is the same. -/
theorem C60_other_stores_violated {W} (e : World W) (p : Protocol) (archive index : Option Bytes) (store : Bytes) (others : List Bytes) (server : Nat → Bytes → Transfer)
    (quits : List Bool) (ticks : List Tick) (w : W) :
    run e p archive index (store :: others) server quits ticks w = run e p archive index [store] server quits ticks w := by
  have h1 : ∀ quits n (m : M W), serve e p (store :: others) server quits n m = serve e p [store] server quits n m := by
    intro quits
    induction quits with
    | nil => intro n m; rfl
    | cons b quits ih =>
      intro n m
      cases b with
      | true => rfl
      | false =>
        unfold serve
        simp only [ih, List.headD_cons]
  have h2 : ∀ n (m : M W), runStores e p (store :: others) server quits n m = runStores e p [store] server quits n m := by
    intro n m
    unfold runStores
    rw [if_neg (by simp), if_neg (by simp), h1]
  have h3 : ∀ n (m : M W), runIndex e p index (store :: others) server quits n m = runIndex e p index [store] server quits n m := by
    intro n m
    unfold runIndex
    simp only [h2]
  have h4 : flags archive index (store :: others) = flags archive index [store] := by
    unfold flags
    have a1 : store :: others ≠ [] := by simp
    have a2 : [store] ≠ [] := by simp
    rw [if_pos a1, if_pos a2]
  unfold run
  simp only [h3, h4]

theorem fill_small : ∀ (ds : List Bytes) (b b' : Bytes), b.length ≤ 16777216 - 56 → fill ds b = some b' → b'.length ≤ 16777216 - 56 := by
  intro ds
  induction ds with
  | nil => intro b b' hb h; injection h with h; rw [← h]; exact hb
  | cons d ds ih =>
    intro b b' hb h
    unfold fill at h
    split at h
    · split at h
      · exact ih _ _ hb h
      · cases h
    · rename_i hs
      refine ih _ _ ?_ h
      rw [List.length_append]
      have hm : SIZE_MAX = 16777216 := rfl
      omega

/-- **C60, violated**: an index of more than 16 MiB cannot be fetched: the helper fails and says nothing. -/
theorem C60_big_index_violated {W} (e : World W) (p : Protocol) (url : Bytes) (t : Transfer) (m : M W) (h : (body t).length > 16777216 - 56) :
    serveIndex e p url t m = (some .failure, m) := by
  unfold serveIndex
  split
  · rfl
  · cases hf : fill t.pieces [] with
    | none => rfl
    | some b =>
      have h1 := fill_small _ _ _ (by simp) hf
      have h2 := fill_body _ _ _ hf
      rw [List.nil_append] at h2
      rw [h2] at h1
      exact absurd h1 (by unfold body at h; omega)

/-! ### Non-vacuity -/

/-- A world without files. No repo lines. -/
def nothing : World Unit := ⟨fun w _ _ _ => (.ok (), w), fun w _ => (.ok (), w), fun w _ _ => (.ok (), w), fun w _ => (.ok (), w)⟩

def exId : Bytes := List.replicate 32 1
def exId2 : Bytes := List.replicate 32 2
/-- "http://x/a" -/
def exArchive : Bytes := [104, 116, 116, 112, 58, 47, 47, 120, 47, 97]
/-- "http://x/s/?q" -/
def exStore : Bytes := [104, 116, 116, 112, 58, 47, 47, 120, 47, 115, 47, 63, 113]

def exServer : Nat → Bytes → Transfer := fun _ u =>
  if u = exArchive then { pieces := [[1, 2], [3]], status := some 200 }
  else if u = chunkUrl exStore exId then { pieces := [[9]], status := some 200 }
  else { pieces := [[7, 7]], status := some 404 }

def tick (accepted : Option Nat) (got : Option Bytes) : Tick := ⟨⟨.ok (), .ok (), .ok [], .ok [], accepted, got⟩, .ok ()⟩

def exTicks : List Tick :=
  [tick none none, tick (some 24) none, tick none (some (encode (.hello (0x100 ||| 0x40)))), tick none none, tick (some 51) none,
    tick none (some (encode (.request true [exId]))), tick none none, tick (some 57) (some (encode (.request false [exId2]))), tick none (some (encode (.request false [exId2]))), tick none none,
    tick (some 48) none, tick none (some (encode .goodbye)), tick none none]

/-- The hypotheses of the theorems are met. -/
theorem ex_usual : Usual (some exArchive) none [exStore] exServer := by
  refine ⟨.inl (by simp), ?_, ?_, ?_⟩
  · rintro u (h | h)
    · injection h with h; rw [← h]; exact ⟨by decide, by decide⟩
    · cases h
  · intro n u s h
    unfold exServer at h
    split at h
    · injection h with h; omega
    · split at h
      · injection h with h; omega
      · injection h with h; omega
  · intro u h
    injection h with h
    rw [← h]
    decide +kernel

/-- A client asks for the archive and for two chunks, and gets one of the chunks: the helper sends all that and ends with a success. -/
example : (run nothing .http (some exArchive) none [exStore] exServer [false, false, false, false] exTicks ()).1 = .success := by decide +kernel

/-- Meanwhile the archive waits to be written, -/
example : (run nothing .http (some exArchive) none [exStore] exServer [false, false, false, false] (exTicks.take 4) ()).2.r.output =
    encode (.file true [1, 2]) ++ encode (.file true [3]) ++ encode (.fileEof true) := by decide +kernel

/-- and later the chunk, -/
example : (run nothing .http (some exArchive) none [exStore] exServer [false, false, false, false] (exTicks.take 7) ()).2.r.output = encode (.chunk exId true [9]) := by
  decide +kernel

/-- and that the other one is missing. -/
example : (run nothing .http (some exArchive) none [exStore] exServer [false, false, false, false] (exTicks.take 10) ()).2.r.output = encode (.missing exId2) := by
  decide +kernel

/-- "http://x/s/0101/0101...01.cacnk" -/
example : chunkUrl exStore exId = [104, 116, 116, 112, 58, 47, 47, 120, 47, 115, 47, 48, 49, 48, 49, 47] ++ (List.replicate 32 [48, 49]).flatten ++ cacnk := by decide +kernel

/-- **C60, violated**: what the server delivers with an error is sent as if it were the archive, before the status is looked at. -/
theorem C60_error_page_violated : ∃ (server : Nat → Bytes → Transfer) (ticks : List Tick), ¬ Success .http (server 0 exArchive) ∧ Usual (some exArchive) none [exStore] server ∧
    encode (.file true [60, 104, 49, 62]) <+: (run nothing .http (some exArchive) none [exStore] server [] ticks ()).2.r.output := by
  refine ⟨fun _ _ => { pieces := [[60, 104, 49, 62]], status := some 404 }, exTicks.take 4, by decide, ⟨.inl (by simp), ?_, ?_, ?_⟩, ?_⟩
  · rintro u (h | h)
    · injection h with h; rw [← h]; exact ⟨by decide, by decide⟩
    · cases h
  · intro n u s h
    injection h with h
    omega
  · intro u _ d hd
    rw [List.mem_singleton.1 hd]
    decide
  · rw [List.prefix_iff_eq_take]
    decide +kernel

end Casync.Http.Props
