import Verif.Props.Make
/-!
C38: making an index and its store, and reading the stream back.
-/
namespace Casync.Make
open Os ChunkFile Store Index.Spec
open Index (newRead newWrite writeFile)
open Sync (chunksOf Reader Op Out Src rst Sources)

/-! ### Reading in order -/

theorem get_serves : ∀ (l : List (Sync.Kind × (Bytes → Res Bytes))) {id x : Bytes}, (∀ s ∈ l, Honest s id x) → (∃ s ∈ l, s.2 id = .ok x) →
    Sync.getChain (l.map fun s => (s.1, s.2 id)) = .ok x := by
  intro l
  induction l with
  | nil => intro id x _ ⟨s, h, _⟩; cases h
  | cons a l ih =>
    intro id x h ⟨s, hs, hx⟩
    rw [List.map_cons]
    have hh : a.2 id = .ok x ∨ ∃ e, a.2 id = .err e ∧ Sync.fallsThrough a.1 e = true := by
      rcases h a List.mem_cons_self with h1 | h1 | ⟨hk, h1 | h1⟩
      · exact .inl h1
      · exact .inr ⟨_, h1, by cases a.1 <;> rfl⟩
      · exact .inr ⟨_, h1, by rw [hk]; rfl⟩
      · exact .inr ⟨_, h1, by rw [hk]; rfl⟩
    rcases hh with h1 | ⟨e, h1, h2⟩
    · rw [h1]; rfl
    · rw [h1]
      show (if Sync.fallsThrough a.1 e = true then _ else _) = _
      rw [if_pos h2]
      refine ih (fun s hs => h s (List.mem_cons_of_mem _ hs)) ?_
      rcases List.mem_cons.1 hs with rfl | hs
      · rw [h1] at hx; cases hx
      · exact ⟨s, hs, hx⟩

variable {hd : Index.Spec.Header} {enc : Bytes} {H : Bytes → Bytes} {xs : List Bytes}

/-- The source of an index file. -/
abbrev fileSrc (enc : Bytes) : Src := ⟨.read, false, 0, enc⟩

/-- A reader in front of chunk `q`. -/
def InFront (hd : Index.Spec.Header) (H : Bytes → Bytes) (xs : List Bytes) (enc : Bytes) (r : Reader) (q : Nat) : Prop :=
  r.next = none ∧ r.skip = 0 ∧ Index.readChunk r.index = Index.readChunk (rst hd (fileSrc enc) q (Index.E (chunksOf H xs) q)) ∧ r.index.file = enc

theorem request_exact (c : Index.Canon hd (chunksOf H xs) enc) {r : Reader} {q : Nat} (hr : InFront hd H xs enc r q) (hq : q < xs.length) {answer : Bytes → Res Bytes}
    (ha : answer (H xs[q]) = .ok xs[q]) : ∃ r', Sync.request r true answer = .ok (.data xs[q], r') ∧ InFront hd H xs enc r' (q + 1) := by
  obtain ⟨h1, h2, h3, h4⟩ := hr
  have hk : q < (chunksOf H xs).length := by simpa [chunksOf] using hq
  obtain ⟨hx, hget⟩ := Sync.chunksOf_get H xs hk
  rcases Sync.read_rst (rest := []) c (.file : Src.Good enc [] (fileSrc enc)) (Nat.le_of_lt hk) (.inl rfl) (.inl rfl) with ⟨_, h, _⟩ | ⟨_, ⟨hlt, sz, hread, hsz⟩ | ⟨h, _⟩⟩
  · cases h
  · have hsz := hsz rfl
    obtain ⟨hu, hp⟩ := Sync.cmax_lt c hk
    have hp1 : Sync.pending r = none := by unfold Sync.pending; rw [h1]
    have hd1 : Sync.dropNext r = r := by unfold Sync.dropNext; rw [h1]
    rw [hget] at hread hsz hu hp
    simp only at hread hsz hu hp
    subst hsz
    have hfill : Sync.fill (r.index.file.length + 2) r = .ok (.chunk ⟨H xs[q], Index.E (chunksOf H xs) (q + 1), xs[q].length⟩,
        { r with index := rst hd (fileSrc enc) (q + 1) (Index.E (chunksOf H xs) (q + 1)), next := some ⟨H xs[q], Index.E (chunksOf H xs) (q + 1), xs[q].length⟩ }) := by
      rw [Sync.fill, hp1]
      simp only
      rw [hd1, h3, hread]
      simp only
      rw [if_neg (by omega), Sync.fill]
      have : Sync.pending { r with index := rst hd (fileSrc enc) (q + 1) (Index.E (chunksOf H xs) (q + 1)), next := some ⟨H xs[q], Index.E (chunksOf H xs) (q + 1), xs[q].length⟩ } =
          some ⟨H xs[q], Index.E (chunksOf H xs) (q + 1), xs[q].length⟩ := by
        unfold Sync.pending
        simp only
        rw [if_pos (by rw [h2]; exact hp)]
      rw [this]
    refine ⟨{ r with index := rst hd (fileSrc enc) (q + 1) (Index.E (chunksOf H xs) (q + 1)), next := none }, ?_, rfl, h2, rfl, rfl⟩
    unfold Sync.request
    rw [hfill]
    simp only
    rw [if_pos trivial]
    unfold Sync.deliver
    simp only
    rw [ha]
    simp only
    rw [if_neg (by simp), if_neg (by omega)]
  · omega

theorem request_eof (c : Index.Canon hd (chunksOf H xs) enc) {r : Reader} (hr : InFront hd H xs enc r xs.length) {ready : Bool} {answer : Bytes → Res Bytes} :
    ∃ r', Sync.request r ready answer = .ok (.eof, r') := by
  obtain ⟨h1, h2, h3, h4⟩ := hr
  have hk : (chunksOf H xs).length = xs.length := by simp [chunksOf]
  rcases Sync.read_rst (rest := []) (q := xs.length) c (.file : Src.Good enc [] (fileSrc enc)) (by omega) (.inl rfl) (.inl rfl) with ⟨_, h, _⟩ | ⟨_, ⟨hlt, _⟩ | ⟨_, hread⟩⟩
  · cases h
  · omega
  · have hp1 : Sync.pending r = none := by unfold Sync.pending; rw [h1]
    have hd1 : Sync.dropNext r = r := by unfold Sync.dropNext; rw [h1]
    unfold Sync.request
    rw [Sync.fill, hp1]
    simp only
    rw [hd1, h3, hread]
    exact ⟨_, rfl⟩

/-- Requests one after the other deliver the chunks, one each, and then the end. -/
theorem read_in_order (c : Index.Canon hd (chunksOf H xs) enc) : ∀ (k : Nat) (r : Reader) (q : Nat), InFront hd H xs enc r q → q + k = xs.length →
    ∀ (as : List (Bytes → Res Bytes)), as.length = k + 1 → (∀ a ∈ as, ∀ x ∈ xs, a (H x) = .ok x) →
    answers (Sync.run r (as.map (Op.request true))) = (xs.drop q).map (fun x => .ok (.data x)) ++ [.ok .eof] := by
  intro k
  induction k with
  | zero =>
    intro r q hr hq as hl ha
    obtain ⟨a, rfl⟩ := List.length_eq_one_iff.1 hl
    have hq : q = xs.length := by omega
    subst hq
    obtain ⟨r', h⟩ := request_eof c hr (ready := true) (answer := a)
    rw [List.drop_length]
    show answers (Sync.run r [Op.request true a]) = _
    rw [Sync.run, Sync.step, h]
    rfl
  | succ k ih =>
    intro r q hr hq as hl ha
    cases as with
    | nil => simp at hl
    | cons a as =>
      have hlt : q < xs.length := by omega
      obtain ⟨r', h, hr'⟩ := request_exact c hr hlt (ha a List.mem_cons_self _ (List.getElem_mem hlt))
      have := ih r' (q + 1) hr' (by omega) as (by simpa using hl) (fun b hb => ha b (List.mem_cons_of_mem _ hb))
      rw [List.map_cons, Sync.run, Sync.step, h, List.drop_eq_getElem_cons hlt]
      show (.ok (.data xs[q]) : Res Out) :: answers (Sync.run r' (as.map (Op.request true))) = _
      rw [this]
      rfl

theorem inFront_new (c : Index.Canon hd (chunksOf H xs) enc) : InFront hd H xs enc { index := newRead enc } 0 := by
  refine ⟨rfl, rfl, ?_, rfl⟩
  have h1 := Sync.Canon.open c
  have h2 : Index.openIndex (rst hd (fileSrc enc) 0 0) = .ok (rst hd (fileSrc enc) 0 0) := by
    rw [Sync.rst_gst]
    exact Sync.openIndex_gst (rest := []) (.file : Src.Good enc [] (fileSrc enc)) _ _ _ _
  rw [Index.E_zero]
  exact Sync.readChunk_congr h1 h2

/-! ### What a successful make leaves behind -/

/-- A successful make: the chunks of the stream are in all stores, and the index lists them in order. -/
theorem make_ok {c : Cfg} {ch : Chunker.Chunker} (hch : Chunker.Spec.Fresh ch) {m : Maker} {blocks : List Bytes} {flags : Flags.Word} {cmin cavg cmax : Nat}
    {i0 : Index.Index} (hi : newWrite flags cmin cavg cmax = .ok i0) (hm : m.index = some i0)
    (hfit : Fits c m (chunks ch blocks)) (hap : ∀ r ∈ roots c m, ∀ r' ∈ roots c m, r = r' ∨ Apart r r')
    {fs : FS} (hr : Ready c (roots c m) (chunks ch blocks) fs) {env : Nat → Choice} {m' : Maker} {g : FS}
    (hmake : exec env 0 fs (make c ch m blocks) = (.ok m', g)) :
    WF g ∧ (∀ r ∈ roots c m, ∀ x ∈ chunks ch blocks, Kept c.cd g r (c.digest x) x) ∧
      (∃ i, m'.index = some i ∧ writeFile flags cmin cavg cmax (chunksOf c.digest (chunks ch blocks)) = .ok i) ∧
      (chunks ch blocks).flatten = blocks.flatten ∧ ∀ x ∈ chunks ch blocks, x ≠ [] := by
  obtain ⟨w, hw, hfl, hne⟩ := Chunker.C02_lossless ch hch blocks
  have hck : chunks ch blocks = Chunker.writeFinal w := by
    unfold chunks
    have : Chunker.writeAll { chunker := ch, buffer := [], out := [] } blocks = .ok w := hw
    rw [this]
  generalize hxs : chunks ch blocks = xs at *
  have hsuit : Suits c m (roots c m) xs := ⟨fun s hs => List.mem_map.2 ⟨s, hs, rfl⟩, hfit.codec, hfit.small⟩
  have hpost := writeList_post hap hfit.len hfit.inj hfit.tmp xs m hsuit
    (fun y hy => ⟨hy, List.length_pos_iff.2 (hne y (by rw [← hck]; exact hy))⟩) fs hr
  have main : post (fun _ => True) (make c ch m blocks) (fun r g => ∀ m', r = .ok m' →
      WF g ∧ (∀ r ∈ roots c m, ∀ x ∈ xs, Kept c.cd g r (c.digest x) x) ∧
      (∃ i, m'.index = some i ∧ writeFile flags cmin cavg cmax (chunksOf c.digest xs) = .ok i)) fs := by
    unfold make
    rw [if_neg (by rw [hm]; simp)]
    have : Chunker.writeAll { chunker := ch, buffer := [], out := [] } blocks = .ok w := hw
    rw [this]
    simp only
    rw [← hck]
    apply post_bind
    refine post_mono _ _ ?_ hpost
    intro r g h
    cases r with
    | err e => exact fun m' h => (by cases h)
    | ub => exact fun m' h => (by cases h)
    | ok m1 =>
      obtain ⟨a1, a2, _, a3⟩ := h m1 rfl
      intro m' hm'
      refine ⟨a1, a2, ?_⟩
      rw [hm] at a3
      obtain ⟨j, hj, hwj⟩ := records_some c xs i0 a3
      unfold finishIndex at hm'
      rw [hj] at hm'
      obtain ⟨i, h1, h2⟩ := Res.bind_eq_ok.1 hm'
      cases h2
      refine ⟨i, rfl, ?_⟩
      unfold writeFile
      rw [hi, Res.bind_ok, hwj, Res.bind_ok]
      exact h1
  have := post_exec _ fs main env (fun _ => True.intro) 0
  rw [hmake] at this
  obtain ⟨b1, b2, b3⟩ := this m' rfl
  exact ⟨b1, b2, b3, by rw [hck]; exact hfl, by rw [hck]; exact hne⟩

/-- Puts into this store, or into stores that have nothing to do with it, keep an intact chunk. -/
theorem kept_after (cd : Codec) {root id x : Bytes} (hid : id.length = 32) : ∀ (l : List PutCall) (g : FS), WF g →
    (∀ p ∈ l, p.Valid ∧ p.eff ≠ .asIs ∧ (p.root = root ∨ Apart root p.root)) → Kept cd g root id x → Kept cd (afterPuts cd g l) root id x := by
  intro l
  induction l with
  | nil => intro g _ _ h; exact h
  | cons p l ih =>
    intro g hg hl h
    obtain ⟨h1, h2, h3⟩ := hl p List.mem_cons_self
    have hs := put_spec cd p h1 g hg h2
    refine ih _ hs.1 (fun q hq => hl q (List.mem_cons_of_mem _ hq)) ?_
    obtain ⟨fc, b, hh, hb⟩ := h
    rcases h3 with h3 | h3
    · exact ⟨fc, b, holds_after_put cd g root id hid fc b x hh p h1 hg h2 h3, hb⟩
    · have hsm : Same g (p.run cd g).2 root id := by
        intro suf
        have hp := fun suf' => h3 id p.id suf suf' hid h1.1
        exact hs.2.1 _ (hp []).2.1 (hp _).1 (hp _).1 (hp []).2.2
      exact hsm.kept ⟨fc, b, hh, hb⟩

theorem delivered_datas : ∀ (xs : List Bytes) (l : List (Res Out)), delivered (xs.map (fun x => .ok (.data x)) ++ l) = xs.flatten ++ delivered l := by
  intro xs
  induction xs with
  | nil => intro l; rfl
  | cons x xs ih =>
    intro l
    show x ++ delivered (xs.map (fun x => .ok (.data x)) ++ l) = _
    rw [ih]; simp

/-- **C38** (round trip). Make an index and fill its stores from a stream that arrives in any blocks, with any failures of system calls on the
way; the stores may already have chunks of this stream. If the make succeeds, then after any further puts, successful or not, a client that
reads through the index gets exactly the stream: one chunk per request, then the end. The client may have any sources, in `ca_sync_get`'s order;
one of them must be a store object on one of the directories, with a digest that fits the ids, and no other source may answer with a failure
that is not "not here" or with a wrong chunk.

Assumed besides: the digest has no collision between two chunks of the stream; the sizes are below the limits of the store; the compressor
inverts itself; the temporary names are not taken (otherwise a chunk may be missing: `C38_temp_collision`); the chunks that the stores had already
are intact; no system call of a get fails and reads from disk are not cut short. -/
theorem C38_round_trip (c : Cfg) (dg : Digest) (ch : Chunker.Chunker) (hch : Chunker.Spec.Fresh ch) (m : Maker) (blocks : List Bytes)
    (flags : Flags.Word) (cmin cavg cmax : Nat) (i0 : Index.Index) (hi : newWrite flags cmin cavg cmax = .ok i0) (hm : m.index = some i0)
    (hfit : Fits c m (chunks ch blocks)) (hap : ∀ r ∈ roots c m, ∀ r' ∈ roots c m, r = r' ∨ Apart r r')
    (fs : FS) (hr : Ready c (roots c m) (chunks ch blocks) fs) (env : Nat → Choice) (m' : Maker) (g : FS)
    (hmake : exec env 0 fs (make c ch m blocks) = (.ok m', g)) :
    ∃ i, m'.index = some i ∧ (chunks ch blocks).flatten = blocks.flatten ∧
      ∀ (root : Bytes), root ∈ roots c m → i.file.length < 2 ^ 63 →
      ∀ (later : List PutCall), (∀ p ∈ later, p.Valid ∧ p.eff ≠ .asIs ∧ (p.root = root ∨ Apart root p.root)) →
      ∀ (s : Store.Store), Reachable c.cd dg s → s.root = some root →
        (∀ x ∈ chunks ch blocks, Matches dg s.digestType (c.digest x) x ∧ (c.cd.enc s.compressionType x).length < MAX) →
      ∀ (clients : List (Sources × (Nat → Choice))), clients.length = (chunks ch blocks).length + 1 →
        (∀ S ∈ clients, NoFaults S.2 ∧ FullReads S.2 ∧ (Sync.Kind.store, fromStore c.cd dg s (afterPuts c.cd g later) S.2) ∈ S.1.all ∧
          ∀ src ∈ S.1.all, ∀ x ∈ chunks ch blocks, src = (Sync.Kind.store, fromStore c.cd dg s (afterPuts c.cd g later) S.2) ∨ Honest src (c.digest x) x) →
        answers (Sync.run { index := newRead i.file } (clients.map fun S => Op.request true (Sync.get S.1))) =
          (chunks ch blocks).map (fun x => .ok (.data x)) ++ [.ok .eof] ∧
        delivered (answers (Sync.run { index := newRead i.file } (clients.map fun S => Op.request true (Sync.get S.1)))) = blocks.flatten := by
  obtain ⟨hw, hk, ⟨i, hmi, hwf⟩, hfl, hne⟩ := make_ok hch hi hm hfit hap hr hmake
  refine ⟨i, hmi, hfl, ?_⟩
  intro root hroot hlen later hl s hs hsr hd clients hcl hS
  obtain ⟨f, h1, h2, h3, h4, h5, h6, h7⟩ := Index.writeFile_inv hwf
  obtain ⟨i', hi', he⟩ := Index.writeFile_ok h1 h2 h3 h4 h5 h6 h7
  rw [hwf] at hi'
  cases hi'
  have hv : Index.Spec.Header.Valid ⟨f, cmin, cavg, cmax⟩ := ⟨Flags.C17_result_is_normalized _ _ h1, h2, h3, h4, h5⟩
  have hcv : ChunksValid ⟨f, cmin, cavg, cmax⟩ (chunksOf c.digest (chunks ch blocks)) := by
    refine ⟨fun x h => ⟨?_, h6 x h⟩, h7⟩
    obtain ⟨y, hy, rfl⟩ := List.mem_map.1 h
    exact hfit.len y hy
  rw [he] at hlen ⊢
  have canon := Sync.canon_of hv hcv hlen
  have hget : ∀ S ∈ clients, ∀ x ∈ chunks ch blocks, Sync.get S.1 (c.digest x) = .ok x := by
    intro S hS' x hx
    obtain ⟨g1, g2, g3, g4⟩ := hS S hS'
    have hstore : fromStore c.cd dg s (afterPuts c.cd g later) S.2 (c.digest x) = .ok x := by
      obtain ⟨fc, b, hh, hb1, hb2⟩ := kept_after c.cd (hfit.len x hx) later g hw hl (hk root hroot x hx)
      obtain ⟨d, e, s', he1, he2, he3⟩ := get_holds c.cd dg _ root (c.digest x) fc b x hh s hs hsr (hd x hx).1 .uncompressed (fun h => (by cases h)) hb1 hb2
        (List.length_pos_iff.2 (hne x hx)) (hfit.small x hx).1 (hd x hx).2 S.2 g1 g2
      unfold fromStore
      rw [he1]
      rw [if_neg (by decide)] at he3
      subst he3
      have : d = x := he2
      subst this
      rfl
    refine get_serves S.1.all ?_ ⟨_, g3, hstore⟩
    intro src hsrc
    rcases g4 src hsrc x hx with rfl | h
    · exact .inl hstore
    · exact h
  have := read_in_order canon (chunks ch blocks).length _ 0 (inFront_new canon) (Nat.zero_add _) (clients.map fun S => Sync.get S.1) (by simpa using hcl)
    (by intro a ha x hx; obtain ⟨S, hS', rfl⟩ := List.mem_map.1 ha; exact hget S hS' x hx)
  rw [List.map_map, List.drop_zero] at this
  have hcomp : clients.map (Op.request true ∘ fun S => Sync.get S.1) = clients.map fun S => Op.request true (Sync.get S.1) := rfl
  rw [hcomp] at this
  refine ⟨this, ?_⟩
  rw [this, delivered_datas, hfl]
  exact List.append_nil _

/-! ### No other bytes -/

theorem make_index {c : Cfg} {ch : Chunker.Chunker} (hch : Chunker.Spec.Fresh ch) {m : Maker} {blocks : List Bytes} {flags : Flags.Word} {cmin cavg cmax : Nat}
    {i0 : Index.Index} (hi : newWrite flags cmin cavg cmax = .ok i0) (hm : m.index = some i0)
    {fs : FS} {env : Nat → Choice} {m' : Maker} {g : FS} (hmake : exec env 0 fs (make c ch m blocks) = (.ok m', g)) :
    ∃ i, m'.index = some i ∧ writeFile flags cmin cavg cmax (chunksOf c.digest (chunks ch blocks)) = .ok i := by
  obtain ⟨w, hw, _, _⟩ := Chunker.C02_lossless ch hch blocks
  have hw : Chunker.writeAll { chunker := ch, buffer := [], out := [] } blocks = .ok w := hw
  have hck : chunks ch blocks = Chunker.writeFinal w := by unfold chunks; rw [hw]
  generalize hxs : chunks ch blocks = xs at *
  have main : post (fun _ => True) (make c ch m blocks) (fun r _ => ∀ m', r = .ok m' →
      ∃ i, m'.index = some i ∧ writeFile flags cmin cavg cmax (chunksOf c.digest xs) = .ok i) fs := by
    unfold make
    rw [if_neg (by rw [hm]; simp), hw]
    simp only
    rw [← hck]
    apply post_bind
    refine post_mono _ _ ?_ (writeList_records c xs m fs)
    intro r g h
    cases r with
    | err e => exact fun m' h => (by cases h)
    | ub => exact fun m' h => (by cases h)
    | ok m1 =>
      have a3 := h m1 rfl
      intro m' hm'
      rw [hm] at a3
      obtain ⟨j, hj, hwj⟩ := records_some c xs i0 a3
      unfold finishIndex at hm'
      rw [hj] at hm'
      obtain ⟨i, h1, h2⟩ := Res.bind_eq_ok.1 hm'
      cases h2
      refine ⟨i, rfl, ?_⟩
      unfold writeFile
      rw [hi, Res.bind_ok, hwj, Res.bind_ok]
      exact h1
  have := post_exec _ fs main env (fun _ => True.intro) 0
  rw [hmake] at this
  exact this m' rfl

theorem getChain_from : ∀ (l : List (Sync.Kind × Res Bytes)) {y : Bytes}, Sync.getChain l = .ok y → ∃ k, (k, .ok y) ∈ l := by
  intro l
  induction l with
  | nil => intro y h; cases h
  | cons a l ih =>
    obtain ⟨k, r⟩ := a
    intro y h
    cases r with
    | ok z => cases h; exact ⟨k, List.mem_cons_self⟩
    | ub => cases h
    | err e =>
      have h : (if Sync.fallsThrough k e = true then Sync.getChain l else .err e) = .ok y := h
      split at h
      · obtain ⟨k', h'⟩ := ih h; exact ⟨k', List.mem_cons_of_mem _ h'⟩
      · cases h

theorem getChain_ub : ∀ (l : List (Sync.Kind × Res Bytes)), (∀ x ∈ l, x.2 ≠ .ub) → Sync.getChain l ≠ .ub := by
  intro l
  induction l with
  | nil => intro _ h; cases h
  | cons a l ih =>
    obtain ⟨k, r⟩ := a
    intro hl h
    cases r with
    | ok z => cases h
    | ub => exact hl (k, .ub) List.mem_cons_self rfl
    | err e =>
      have h : (if Sync.fallsThrough k e = true then Sync.getChain l else .err e) = .ub := h
      split at h
      · exact ih (fun x hx => hl x (List.mem_cons_of_mem _ hx)) h
      · cases h

/-- Nothing comes after a failure. -/
def Stops : List (Op × Res Out) → Prop
  | [] => True
  | (_, .ok _) :: l => Stops l
  | _ :: l => l = []

theorem run_stops : ∀ (ops : List Op) (r : Reader), Stops (Sync.run r ops) := by
  intro ops
  induction ops with
  | nil => intro r; exact trivial
  | cons op ops ih =>
    intro r
    rw [Sync.run]
    cases h : Sync.step r op with
    | ok x => exact ih x.2
    | err e => exact rfl
    | ub => exact rfl

theorem run_ops : ∀ (ops : List Op) (r : Reader) (x : Op × Res Out), x ∈ Sync.run r ops → x.1 ∈ ops := by
  intro ops
  induction ops with
  | nil => intro r x h; cases h
  | cons op ops ih =>
    intro r x h
    rw [Sync.run] at h
    cases hs : Sync.step r op with
    | ok y =>
      rw [hs] at h
      rcases List.mem_cons.1 h with rfl | h
      · exact List.mem_cons_self
      · exact List.mem_cons_of_mem _ (ih _ _ h)
    | err e => rw [hs] at h; rcases List.mem_cons.1 h with rfl | h; exact List.mem_cons_self; cases h
    | ub => rw [hs] at h; rcases List.mem_cons.1 h with rfl | h; exact List.mem_cons_self; cases h

/-- Requests only. -/
theorem right_requests (blob : Bytes) : ∀ (l : List (Op × Res Out)) (pos : Nat), Sync.Right blob pos l → Stops l →
    (∀ x ∈ l, ∃ ready answer, x.1 = Op.request ready answer) →
    delivered (answers l) <+: blob.drop pos ∧ (Res.ok .eof ∈ answers l → delivered (answers l) = blob.drop pos) := by
  intro l
  induction l with
  | nil => intro pos _ _ _; exact ⟨List.nil_prefix, fun h => (by cases h)⟩
  | cons x l ih =>
    intro pos hr hs hx
    obtain ⟨op, r⟩ := x
    obtain ⟨ready, answer, rfl⟩ : ∃ ready answer, op = Op.request ready answer := hx _ List.mem_cons_self
    have hx' := fun y hy => hx y (List.mem_cons_of_mem _ hy)
    cases r with
    | err e =>
      have : l = [] := hs
      subst this
      exact ⟨List.nil_prefix, fun h => (by simp [answers] at h)⟩
    | ub => exact absurd hr id
    | ok o =>
      obtain ⟨h1, h2, h3⟩ := hr
      have ih := ih _ h3 hs hx'
      cases o with
      | wait =>
        exact ⟨ih.1, fun h => ih.2 (by rcases List.mem_cons.1 h with h | h; cases h; exact h)⟩
      | done a =>
        exact ⟨ih.1, fun h => ih.2 (by rcases List.mem_cons.1 h with h | h; cases h; exact h)⟩
      | eof =>
        have hl := h2 rfl
        have he : blob.drop pos = [] := List.drop_eq_nil_of_le hl
        have hp : delivered (answers l) <+: blob.drop pos := ih.1
        refine ⟨hp, fun _ => ?_⟩
        rw [he] at hp ⊢
        exact List.prefix_nil.1 hp
      | data b =>
        obtain ⟨_, hb⟩ := h1 b rfl
        have hd : blob.drop pos = b ++ blob.drop (pos + b.length) := by
          rw [← List.drop_drop]
          conv => lhs; rw [← List.take_append_drop b.length (blob.drop pos), hb]
        have hp : delivered (answers l) <+: blob.drop (pos + b.length) := ih.1
        rw [hd]
        refine ⟨?_, fun h => ?_⟩
        · show b ++ delivered (answers l) <+: _
          exact (List.prefix_append_right_inj b).2 hp
        · show b ++ delivered (answers l) = _
          have hh : Res.ok .eof ∈ answers l := by rcases List.mem_cons.1 h with h | h; cases h; exact h
          have : delivered (answers l) = blob.drop (pos + b.length) := ih.2 hh
          rw [this]

/-- **C38** (no other bytes). Whatever happened to the stores during or after a make that succeeded, and whatever a client's sources answer as
long as they only hand out what has the asked-for digest (stores: `C13`, seeds: `C31`, remotes: `C34`): the client gets the beginning of the stream, and
if it is told that this is the end, it got all of it. Nothing is assumed about the disk, failures or the sizes; the only assumption on the digest is that
nothing else has the digest of a chunk of this stream. -/
theorem C38_no_other_bytes (c : Cfg) (ch : Chunker.Chunker) (hch : Chunker.Spec.Fresh ch) (m : Maker) (blocks : List Bytes)
    (flags : Flags.Word) (cmin cavg cmax : Nat) (i0 : Index.Index) (hi : newWrite flags cmin cavg cmax = .ok i0) (hm : m.index = some i0)
    (hlen : ∀ x ∈ chunks ch blocks, (c.digest x).length = 32) (hinj : ∀ x ∈ chunks ch blocks, ∀ y, c.digest y = c.digest x → y = x)
    (fs : FS) (env : Nat → Choice) (m' : Maker) (g : FS) (hmake : exec env 0 fs (make c ch m blocks) = (.ok m', g)) :
    ∃ i, m'.index = some i ∧ (i.file.length < 2 ^ 63 →
      ∀ (clients : List (Bool × Sources)), (∀ S ∈ clients, ∀ src ∈ S.2.all, ∀ id, src.2 id ≠ .ub ∧ ∀ y, src.2 id = .ok y → c.digest y = id) →
        ∀ l, l = answers (Sync.run { index := newRead i.file } (clients.map fun S => Op.request S.1 (Sync.get S.2))) →
        delivered l <+: blocks.flatten ∧ (Res.ok .eof ∈ l → delivered l = blocks.flatten)) := by
  obtain ⟨i, hmi, hwf⟩ := make_index hch hi hm hmake
  obtain ⟨w, hw, hfl, _⟩ := Chunker.C02_lossless ch hch blocks
  have hw : Chunker.writeAll { chunker := ch, buffer := [], out := [] } blocks = .ok w := hw
  have hck : chunks ch blocks = Chunker.writeFinal w := by unfold chunks; rw [hw]
  rw [← hck] at hfl
  refine ⟨i, hmi, ?_⟩
  intro hl clients hS l hl'
  obtain ⟨f, h1, h2, h3, h4, h5, h6, h7⟩ := Index.writeFile_inv hwf
  obtain ⟨i', hi', he⟩ := Index.writeFile_ok h1 h2 h3 h4 h5 h6 h7
  rw [hwf] at hi'
  cases hi'
  have hv : Index.Spec.Header.Valid ⟨f, cmin, cavg, cmax⟩ := ⟨Flags.C17_result_is_normalized _ _ h1, h2, h3, h4, h5⟩
  have hcv : ChunksValid ⟨f, cmin, cavg, cmax⟩ (chunksOf c.digest (chunks ch blocks)) := by
    refine ⟨fun x h => ⟨?_, h6 x h⟩, h7⟩
    obtain ⟨y, hy, rfl⟩ := List.mem_map.1 h
    exact hlen y hy
  rw [he] at hl hl'
  have hgen : ∀ op ∈ clients.map (fun S => Op.request S.1 (Sync.get S.2)), op.Genuine c.digest (chunks ch blocks) := by
    intro op hop
    obtain ⟨S, hS', rfl⟩ := List.mem_map.1 hop
    refine ⟨?_, ?_⟩
    · intro x hx y hy
      obtain ⟨k, hk⟩ := getChain_from _ hy
      obtain ⟨src, hsrc, h⟩ := List.mem_map.1 hk
      injection h with _ h
      exact hinj x hx y ((hS S hS' src hsrc _).2 y h)
    · intro id
      refine getChain_ub _ ?_
      intro x hx
      obtain ⟨src, hsrc, rfl⟩ := List.mem_map.1 hx
      exact (hS S hS' src hsrc id).1
  have harr : ∀ (l : List (Bool × Sources)), Sync.Arrives [] (l.map fun S => Op.request S.1 (Sync.get S.2)) := by
    intro l
    induction l with
    | nil => exact trivial
    | cons S l ih => exact ih
  have hright := Sync.C39_random_access c.digest (chunks ch blocks) ⟨f, cmin, cavg, cmax⟩ hv hcv hl _ hgen (harr clients)
  have := right_requests _ _ 0 hright (run_stops _ _) (by
    intro x hx
    obtain ⟨S, _, h⟩ := List.mem_map.1 (run_ops _ _ _ hx)
    exact ⟨_, _, h.symm⟩)
  rw [List.drop_zero, hfl] at this
  rw [hl']
  exact this

end Casync.Make
