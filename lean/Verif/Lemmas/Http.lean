import Verif.Spec.Http
import Verif.Lemmas.RemoteState
import Verif.Props.Remote
import Verif.Lemmas.Number
/-!
The helper `casync-http`: what its messages and its queue are after every history.
-/
namespace Casync.Http
open Casync Remote Remote.Spec Remote.Props ChunkFile

/-! ### The queue -/

theorem runQ_append (q : Q) (os : List Op) : ∀ os', runQ q (os ++ os') = ((runQ q os).1 ++ (runQ (runQ q os).2 os').1, (runQ (runQ q os).2 os').2) := by
  induction os generalizing q with
  | nil => intro os'; rfl
  | cons o os ih => intro os'; rw [List.cons_append, runQ, runQ]; simp only [ih, List.cons_append]

theorem asks_append (a b : List Op) : asks (a ++ b) = asks a ++ asks b := List.filterMap_append
theorem handed_append (a b : List Out) : handed (a ++ b) = handed a ++ handed b := List.filterMap_append
theorem requests_append (a b : List Msg) : requests (a ++ b) = requests a ++ requests b := List.flatMap_append
theorem talk_append (a b : List Msg) : talk (a ++ b) = talk a ++ talk b := List.filter_append ..

theorem plain_append {a b : List Op} (ha : Plain a) (hb : Plain b) : Plain (a ++ b) := by
  intro o ho
  rcases List.mem_append.1 ho with ho | ho
  · exact ha o ho
  · exact hb o ho

/-- Requests that were accepted are in the queue. -/
theorem processRequest_queue (h : Bool) : ∀ (ids : List Bytes) (r : R) (s : Step) (r' : R), processRequest r h ids = (.ok s, r') →
    ∃ q outs, runQ r.queue (ids.map fun id => .enqueue id h false) = (outs, q) ∧ r' = { r with queue := q } ∧ Http.handed outs = [] := by
  intro ids
  induction ids with
  | nil => intro r s r' hr; injection hr with _ hr; exact ⟨_, _, rfl, hr.symm, rfl⟩
  | cons id ids ih =>
    intro r s r' hr
    unfold processRequest at hr
    cases hq : enqueue r.queue id h false with
    | mk x q =>
      rw [hq] at hr
      cases x with
      | err _ => cases hr
      | ub => cases hr
      | ok b =>
        obtain ⟨q', outs, h1, h2, h3⟩ := ih _ _ _ hr
        refine ⟨q', .enqueued (.ok b) :: outs, ?_, h2, h3⟩
        rw [List.map_cons, runQ]
        simp only [step, hq]
        simp only at h1
        rw [h1]

/-! ### The invariant -/

/-- No file of its own. -/
def NoFile (r : R) : Prop := ∀ a, (r.file a).fd = false ∧ (r.file a).path = false

/-- The operations and services of the helper. -/
def Own (l : Nat) : Prop := l ≠ 0 ∧ l < 2 ^ 64 - 1 ∧ l.testBit 3 = false ∧ l.testBit 6 = false

/-- The history as far as it is told. -/
structure Weak {W : Type} (hd : List Bytes) (tk : List Msg) (c : Conn W) : Prop where
  said : talk c.said = tk
  hist : ∃ os ms, c.log = ms.map encode ∧ (∀ m ∈ ms, WF m) ∧ Http.handed (runQ Q.new os).1 = hd ∧ Plain os ∧ asks os = requests ms

/-- The state of the helper after every history without errors. -/
structure HInv {W : Type} (l : Nat) (hd : List Bytes) (tk : List Msg) (c : Conn W) : Prop where
  rem : c.r.state ≠ .hello → c.r.remoteFlags.testBit 11 = false
  loc : c.r.localFlags = l
  nofile : NoFile c.r
  said : talk c.said = tk
  hist : ∃ os ms, c.log = ms.map encode ∧ (∀ m ∈ ms, WF m) ∧ Http.handed (runQ Q.new os).1 = hd ∧ Plain os ∧ asks os = requests ms ∧ (runQ Q.new os).2 = c.r.queue

theorem HInv.weak {W} {l hd tk} {c : Conn W} (h : HInv l hd tk c) : Weak hd tk c := by
  obtain ⟨os, ms, h1, h2, h3, h4, h5, _⟩ := h.hist
  exact ⟨h.said, os, ms, h1, h2, h3, h4, h5⟩

/-- An act that is not a message. -/
theorem HInv.act {W} {e : World W} {l hd tk} {c : Conn W} (h : HInv l hd tk c) (a : Act) (hm : a ≠ .message)
    (hf : NoFile (Remote.act e c.w c.r a).2.1) (hq : (Remote.act e c.w c.r a).2.1.queue = c.r.queue) :
    HInv l hd (tk ++ talk (speaks c.r a (Remote.act e c.w c.r a).1)) (c.act e a) := by
  have st := act_st e c.w c.r a hm
  obtain ⟨os, ms, h1, h2, h3, h4, h5, h6⟩ := h.hist
  refine ⟨?_, ?_, hf, ?_, os, ms, ?_, h2, h3, h4, h5, ?_⟩
  · intro hs
    show (Remote.act e c.w c.r a).2.1.remoteFlags.testBit 11 = false
    rw [st.remote]
    exact h.rem (by rw [← st.state]; exact hs)
  · exact st.localF.trans h.loc
  · show talk (c.said ++ _) = _
    rw [talk_append, h.said]
  · show c.log ++ consumed _ _ _ _ = _
    rw [consumed_nil _ _ _ hm, List.append_nil, h1]
  · exact h6.trans hq.symm

theorem processGoodbye_keep {W} {e : World W} {w : W} {r : R} (h : NoFile r) : processGoodbye e w r = (.ok .finished, { r with state := .eof }, w) := by
  have k : ∀ a, fileInstall e w r a = (.ok (), r, w) := by
    intro a
    unfold fileInstall
    simp [(h a).2]
  unfold processGoodbye
  rw [k false]
  simp only
  rw [k true]

theorem nofile_setFile {r : R} (h : NoFile r) (a : Bool) (f : File) (h1 : f.fd = false) (h2 : f.path = false) : NoFile (r.setFile a f) := by
  intro b
  have := h b
  cases a <;> cases b <;> first | exact ⟨h1, h2⟩ | exact this

/-- A message that is accepted. -/
theorem process_keep {W} {e : World W} {w w' : W} {r r' : R} {m : Msg} {s : Step} (h : NoFile r) (hp : process e w r m = (.ok s, r', w')) :
    NoFile r' ∧ ∃ outs, runQ r.queue ((requests [m]).map fun x => .enqueue x.1 x.2 false) = (outs, r'.queue) ∧ Http.handed outs = [] := by
  have nil : ∀ q : Q, runQ q [] = ([], q) := fun _ => rfl
  cases m with
  | hello fl =>
    simp only [process] at hp
    cases hk : processHello r fl with
    | mk x y =>
      rw [hk] at hp
      injection hp with hx hy; injection hy with hy _
      subst hx hy
      obtain ⟨_, hy, _⟩ := (processHello_ok _ _ _ _).1 hk
      subst hy
      exact ⟨fun a => by have := h a; cases a <;> exact this, [], rfl, rfl⟩
  | file a d =>
    simp only [process, processFile] at hp
    split at hp; · cases hp
    rw [(h a).1] at hp
    simp only [Bool.false_eq_true, if_false] at hp
    injection hp with _ hy; injection hy with hy _
    subst hy
    exact ⟨nofile_setFile h a _ rfl (h a).2, [], by cases a <;> rfl, rfl⟩
  | fileEof a =>
    simp only [process, processFileEof] at hp
    split at hp; · cases hp
    injection hp with _ hy; injection hy with hy _
    subst hy
    exact ⟨nofile_setFile h a _ (h a).1 (h a).2, [], by cases a <;> rfl, rfl⟩
  | request hi ids =>
    simp only [process] at hp
    cases hk : processRequest r hi ids with
    | mk x y =>
      rw [hk] at hp
      injection hp with hx hy; injection hy with hy _
      subst hx hy
      obtain ⟨q, outs, h1, h2, h3⟩ := processRequest_queue hi ids r s y hk
      subst h2
      refine ⟨fun a => by have := h a; cases a <;> exact this, outs, ?_, h3⟩
      rw [← h1]
      congr 1
      simp [requests]
  | chunk id c d =>
    simp only [process, processChunk] at hp
    split at hp; · cases hp
    generalize e.save w id _ d = z at hp
    obtain ⟨x, w''⟩ := z
    have : r' = { r with lastChunk := some id } := by
      cases x with
      | ok u => injection hp with _ hy; injection hy with hy _; exact hy.symm
      | ub => cases hp
      | err x => cases x <;> first | (cases hp; done) | (injection hp with _ hy; injection hy with hy _; exact hy.symm)
    subst this
    exact ⟨fun a => by have := h a; cases a <;> exact this, [], rfl, rfl⟩
  | missing id =>
    simp only [process, processMissing] at hp
    split at hp; · cases hp
    generalize e.missing w id = z at hp
    obtain ⟨x, w''⟩ := z
    have : r' = r := by
      cases x with
      | ok u => injection hp with _ hy; injection hy with hy _; exact hy.symm
      | ub => cases hp
      | err x => cases x <;> first | (cases hp; done) | (injection hp with _ hy; injection hy with hy _; exact hy.symm)
    subst this
    exact ⟨h, [], rfl, rfl⟩
  | goodbye =>
    simp only [process] at hp
    rw [processGoodbye_keep h] at hp
    injection hp with _ hy; injection hy with hy _
    subst hy
    exact ⟨fun a => by have := h a; cases a <;> exact this, [], rfl, rfl⟩
  | abort x t =>
    simp only [process, processAbort] at hp
    split at hp <;> cases hp

/-- A turn of `ca_remote_process_message`. -/
theorem HInv.message {W} {e : World W} {l hd tk} (hl : Own l) {c : Conn W} (h : HInv l hd tk c) :
    Weak hd tk (c.act e .message) ∧ ((∃ s, (processMessage e c.w c.r).1 = .ok s) → HInv l hd tk (c.act e .message)) := by
  have hsaid : (c.act e .message).said = c.said := by simp only [Conn.act, speaks, List.append_nil]
  obtain ⟨os, ms, h1, h2, h3, h4, h5, h6⟩ := h.hist
  have stay : ∀ i n, (c.act e .message).log = c.log → (c.act e .message).r = withIn c.r i n → HInv l hd tk (c.act e .message) := by
    intro i n hlog hr
    refine ⟨?_, ?_, ?_, by rw [hsaid]; exact h.said, os, ms, by rw [hlog]; exact h1, h2, h3, h4, h5, ?_⟩
    · rw [hr]; exact h.rem
    · rw [hr]; exact h.loc
    · rw [hr]; intro a; rw [withIn_file]; exact h.nofile a
    · rw [hr]; exact h6
  have wk : (c.act e .message).log = c.log → Weak hd tk (c.act e .message) := by
    intro hlog
    exact ⟨by rw [hsaid]; exact h.said, os, ms, by rw [hlog]; exact h1, h2, h3, h4, h5⟩
  by_cases hs : c.r.state = .eof
  · have hp : processMessage e c.w c.r = (.ok .poll, c.r, c.w) := by unfold processMessage; rw [if_pos hs]
    have := stay c.r.input c.r.frameSize (by simp only [Conn.act, Remote.act, hp, consumed, List.append_nil]) (by simp only [Conn.act, Remote.act, hp]; rfl)
    exact ⟨this.weak, fun _ => this⟩
  rcases frame_or_not c.r.input with ⟨f, rest, hf, hi⟩ | hn
  · have hp := processMessage_frame e c.w c.r f rest hf hi hs
    have hne := dispatch_ne_poll e c.w c.r f
    have hcases := dispatch_cases e c.w c.r hf
    cases hz : dispatch e c.w c.r f with
    | mk x z =>
    obtain ⟨r', w'⟩ := z
    rw [hz] at hp hne hcases
    cases x with
    | err x =>
      have hlog : (c.act e .message).log = c.log := by simp only [Conn.act, Remote.act, hp, consumed, List.append_nil]
      exact ⟨wk hlog, fun ⟨s, hs⟩ => by rw [hp] at hs; cases hs⟩
    | peer x =>
      have hlog : (c.act e .message).log = c.log := by simp only [Conn.act, Remote.act, hp, consumed, List.append_nil]
      exact ⟨wk hlog, fun ⟨s, hs⟩ => by rw [hp] at hs; cases hs⟩
    | ub =>
      have hlog : (c.act e .message).log = c.log := by simp only [Conn.act, Remote.act, hp, consumed, List.append_nil]
      exact ⟨wk hlog, fun ⟨s, hs⟩ => by rw [hp] at hs; cases hs⟩
    | ok s =>
      rcases hcases with hbad | ⟨m, hfm, hwf, hal, hproc⟩
      · injection hbad with hbad _; cases hbad
      have hr : (c.act e .message).r = withIn r' rest 0 := by simp only [Conn.act, Remote.act, hp]
      have ht : c.r.input.take (c.r.input.length - rest.length) = f := by
        rw [hi, List.length_append, Nat.add_sub_cancel]; exact List.take_left' rfl
      have hlog : (c.act e .message).log = c.log ++ [f] := by
        simp only [Conn.act, Remote.act, hp]
        cases s <;> first | exact absurd rfl hne | exact congrArg (fun t => c.log ++ [t]) ht
      obtain ⟨k1, outs, k2, k3⟩ := process_keep h.nofile hproc.symm
      have kst := process_st e c.w c.r m
      rw [← hproc] at kst
      simp only at kst
      have all : HInv l hd tk (c.act e .message) := by
        refine ⟨?_, ?_, ?_, by rw [hsaid]; exact h.said, os ++ (requests [m]).map (fun x => .enqueue x.1 x.2 false), ms ++ [m], ?_, ?_, ?_, ?_, ?_, ?_⟩
        · rw [hr]
          intro hst
          show r'.remoteFlags.testBit 11 = false
          by_cases hh : ∃ fl, m = .hello fl
          · obtain ⟨fl, rfl⟩ := hh
            simp only [process] at hproc
            injection hproc with hx hy; injection hy with hy _
            obtain ⟨_, hy', _, hb, hsv, _⟩ := (processHello_ok c.r r' fl s).1 (Prod.ext hx.symm hy.symm)
            rw [hy']
            show fl.testBit 11 = false
            cases hb11 : fl.testBit 11 with
            | false => rfl
            | true =>
              exfalso
              have h10 := (hb hb11).1
              have := hsv.2.2.2.2.1 h10
              rw [h.loc, hl.2.2.1] at this
              cases this
          · have := kst.2.2 (fun fl hfl => hh ⟨fl, hfl⟩)
            rw [this.1]
            apply h.rem
            intro h0
            have hst0 : allowed c.r (typeOf m) = some true := hal
            rcases this.2 with h7 | h7
            · exact hst (by show r'.state = _; rw [h7]; exact h0)
            · subst h7
              have := (permitted_iff c.r .goodbye).1 hal
              rw [show c.r.state = .running from this] at h0; cases h0
        · rw [hr]; exact kst.2.1.trans h.loc
        · rw [hr]; intro a; rw [withIn_file]; exact k1 a
        · rw [hlog, h1, List.map_append, hfm]; rfl
        · intro x hx
          rcases List.mem_append.1 hx with hx | hx
          · exact h2 x hx
          · rw [List.mem_singleton.1 hx]; exact hwf
        · rw [runQ_append, h6, k2]
          show Http.handed (_ ++ outs) = hd
          rw [handed_append, h3, k3, List.append_nil]
        · refine plain_append h4 ?_
          intro o ho
          obtain ⟨x, _, rfl⟩ := List.mem_map.1 ho
          exact .inr ⟨_, _, rfl⟩
        · rw [asks_append, h5, requests_append]
          congr 1
          generalize requests [m] = l
          induction l with
          | nil => rfl
          | cons x l ih => rw [List.map_cons]; show _ :: asks _ = _; rw [ih]
        · rw [runQ_append, h6, k2, hr]; rfl
      exact ⟨all.weak, fun _ => all⟩
  · obtain ⟨_, ⟨n, k2, _⟩, k4, -⟩ := processMessage_none e c.w c.r hn
    have hlog : (c.act e .message).log = c.log := by
      simp only [Conn.act, Remote.act]
      rcases k4 with k4 | k4 <;> rw [k4] <;> simp [consumed]
    have := stay c.r.input n hlog k2
    exact ⟨this.weak, fun _ => this⟩

/-! ### One step of the engine -/

theorem sendRequest_none {W} {l hd tk} (hl : Own l) {c : Conn W} (h : HInv l hd tk c) : sendRequest c.r = (.ok .poll, c.r) := by
  unfold sendRequest
  by_cases hs : c.r.state = .hello
  · by_cases h1 : (!has c.r.remoteFlags PUSH_INDEX_CHUNKS && !has c.r.localFlags PULL_CHUNKS) = true
    · rw [if_pos h1]
    · rw [if_neg h1, if_pos (by rw [hs]; decide)]
  · have h1 : has c.r.remoteFlags PUSH_INDEX_CHUNKS = false := (has_bit _ 11).trans (h.rem hs)
    have h2 : has c.r.localFlags PULL_CHUNKS = false := (has_bit _ 6).trans (by rw [h.loc]; exact hl.2.2.2)
    rw [h1, h2]
    rfl

theorem sendFile_none {r : R} (h : NoFile r) (a : Bool) (got : Res Bytes) : (sendFile r a got).2 = r ∧ (sendFile r a got).1 ≠ .ok .step := by
  unfold sendFile
  split; · exact ⟨rfl, by intro h; cases h⟩
  split; · exact ⟨rfl, by intro h; cases h⟩
  split; · exact ⟨rfl, by intro h; cases h⟩
  split; · exact ⟨rfl, by intro h; cases h⟩
  rw [(h a).1]
  exact ⟨rfl, by cases a <;> (intro h; cases h)⟩

theorem fileOpen_none {r : R} (h : NoFile r) (a b : Bool) (ok : Res Unit) : Remote.fileOpen r a b ok = (.ok (), r) := by
  unfold Remote.fileOpen
  simp only [(h a).1, (h a).2]
  split <;> rfl

theorem start_none {r : R} (h : NoFile r) (x y : Res Unit) : (start r x y).2 = r := by
  have k : ∀ a x, openIfWanted r a x = (.ok (), r) := by
    intro a x
    unfold openIfWanted
    rw [fileOpen_none h, fileOpen_none h]
    split; · rfl
    split <;> rfl
  unfold start
  split; · rfl
  split; · rfl
  split; · rfl
  rw [k false]
  simp only
  rw [k true]

theorem nofile_out {r r' : R} (h : NoFile r) (h1 : r'.index = r.index) (h2 : r'.archive = r.archive) : NoFile r' := by
  intro a
  have := h a
  cases a
  · show r'.index.fd = false ∧ r'.index.path = false; rw [h1]; exact this
  · show r'.archive.fd = false ∧ r'.archive.path = false; rw [h2]; exact this

/-- The acts of `ca_remote_step` besides the message. -/
theorem HInv.quiet {W} {e : World W} {l hd tk} (hl : Own l) {c : Conn W} (h : HInv l hd tk c) {a : Answers} {x : Act} (hx : x ∈ stepActs a) (hm : x ≠ .message) :
    HInv l hd tk (c.act e x) := by
  have go : ∀ x : Act, x ≠ .message → NoFile (Remote.act e c.w c.r x).2.1 → (Remote.act e c.w c.r x).2.1.queue = c.r.queue →
      talk (speaks c.r x (Remote.act e c.w c.r x).1) = [] → HInv l hd tk (c.act e x) := by
    intro x hm h1 h2 h3
    have := h.act (e := e) x hm h1 h2
    rw [h3, List.append_nil] at this
    exact this
  simp only [stepActs, List.mem_cons, List.mem_nil_iff, or_false] at hx
  rcases hx with rfl | rfl | rfl | rfl | rfl | rfl | rfl | rfl | rfl
  · exact go _ hm (fun b => by have := h.nofile b; cases b <;> exact this) rfl rfl
  · have := start_none h.nofile a.openIndex a.openArchive
    exact go _ hm (by show NoFile (start _ _ _).2; rw [this]; exact h.nofile) (by show (start _ _ _).2.queue = _; rw [this]) rfl
  · have : (write c.r a.accepted).2.index = c.r.index ∧ (write c.r a.accepted).2.archive = c.r.archive ∧ (write c.r a.accepted).2.queue = c.r.queue := by
      unfold write
      split; · exact ⟨rfl, rfl, rfl⟩
      split; · exact ⟨rfl, rfl, rfl⟩
      split; · exact ⟨rfl, rfl, rfl⟩
      simp only
      split <;> exact ⟨rfl, rfl, rfl⟩
    exact go _ hm (nofile_out h.nofile this.1 this.2.1) this.2.2 rfl
  · have : (sendHello c.r).2.index = c.r.index ∧ (sendHello c.r).2.archive = c.r.archive ∧ (sendHello c.r).2.queue = c.r.queue := by
      unfold sendHello
      split <;> exact ⟨rfl, rfl, rfl⟩
    refine go _ hm (nofile_out h.nofile this.1 this.2.1) this.2.2 ?_
    show talk (speaks c.r .sendHello (sendHello c.r).1) = []
    unfold sendHello
    split <;> rfl
  · exact absurd rfl hm
  · have := sendRequest_none hl h
    exact go _ hm (by show NoFile (sendRequest _).2; rw [this]; exact h.nofile) (by show (sendRequest _).2.queue = _; rw [this]) rfl
  · have := sendFile_none h.nofile false a.indexData
    refine go _ hm (by show NoFile (sendFile _ _ _).2; rw [this.1]; exact h.nofile) (by show (sendFile _ _ _).2.queue = _; rw [this.1]) ?_
    show talk (speaks c.r (.sendFile false a.indexData) (sendFile c.r false a.indexData).1) = []
    generalize (sendFile c.r false a.indexData).1 = z at this
    unfold speaks
    split <;> first | rfl | (rename_i k1 k2; cases k1; exact absurd k2 this.2) | skip
    all_goals (rename_i k; first | exact absurd k this.2 | exact absurd rfl this.2 | skip)
  · have := sendFile_none h.nofile true a.archiveData
    refine go _ hm (by show NoFile (sendFile _ _ _).2; rw [this.1]; exact h.nofile) (by show (sendFile _ _ _).2.queue = _; rw [this.1]) ?_
    show talk (speaks c.r (.sendFile true a.archiveData) (sendFile c.r true a.archiveData).1) = []
    generalize (sendFile c.r true a.archiveData).1 = z at this
    unfold speaks
    split <;> first | rfl | (rename_i k1 k2; cases k1; exact absurd k2 this.2) | skip
    all_goals (rename_i k; first | exact absurd k this.2 | exact absurd rfl this.2 | skip)
  · have : (Remote.read c.r a.got).2.index = c.r.index ∧ (Remote.read c.r a.got).2.archive = c.r.archive ∧ (Remote.read c.r a.got).2.queue = c.r.queue := by
      unfold Remote.read
      simp only
      repeat' split
      all_goals exact ⟨rfl, rfl, rfl⟩
    refine go _ hm (nofile_out h.nofile this.1 this.2.1) this.2.2 ?_
    cases hg : a.got <;> rfl

theorem HInv.quiets {W} {e : World W} {l hd tk} (hl : Own l) {a : Answers} : ∀ (xs : List Act) {c : Conn W}, HInv l hd tk c → (∀ x ∈ xs, x ∈ stepActs a ∧ x ≠ .message) →
    HInv l hd tk (c.run e xs)
  | [], _, h, _ => h
  | x :: xs, _, h, hx => HInv.quiets hl xs (h.quiet hl (hx x List.mem_cons_self).1 (hx x List.mem_cons_self).2) fun y hy => hx y (List.mem_cons_of_mem _ hy)

theorem step_hist {W} {e : World W} {l hd tk} (hl : Own l) {c : Conn W} (h : HInv l hd tk c) (a : Answers) :
    ∃ n, (c.run e ((stepActs a).take n)).r = (step' e c.w c.r a).2.1 ∧ (c.run e ((stepActs a).take n)).w = (step' e c.w c.r a).2.2 ∧
      Weak hd tk (c.run e ((stepActs a).take n)) ∧ ((∃ s, (step' e c.w c.r a).1 = .ok s) → HInv l hd tk (c.run e ((stepActs a).take n))) := by
  have q : ∀ xs, (∀ x ∈ xs, x ∈ stepActs a ∧ x ≠ .message) → HInv l hd tk (c.run e xs) := fun xs hx => h.quiets hl xs hx
  have q4 : HInv l hd tk (c.run e ((stepActs a).take 4)) := q _ (by
    intro x hx
    refine ⟨List.mem_of_mem_take hx, ?_⟩
    simp only [stepActs, List.take, List.mem_cons, List.mem_nil_iff, or_false] at hx
    rcases hx with rfl | rfl | rfl | rfl <;> (intro h; cases h))
  have q' : ∀ n ≤ 4, HInv l hd tk (c.run e ((stepActs a).take n)) := by
    intro n hn
    refine q _ fun x hx => ?_
    have hx : x ∈ (stepActs a).take 4 := by
      have : (stepActs a).take n = ((stepActs a).take 4).take n := by rw [List.take_take, Nat.min_eq_left hn]
      rw [this] at hx; exact List.mem_of_mem_take hx
    refine ⟨List.mem_of_mem_take hx, ?_⟩
    simp only [stepActs, List.take, List.mem_cons, List.mem_nil_iff, or_false] at hx
    rcases hx with rfl | rfl | rfl | rfl <;> (intro h; cases h)
  have e5 : ∀ xs, c.run e ((stepActs a).take 4 ++ .message :: xs) = (((c.run e ((stepActs a).take 4)).act e .message).run e xs) := fun _ => rfl
  obtain ⟨m1, m2⟩ := HInv.message (e := e) hl q4
  unfold step'
  by_cases h0 : c.r.state = .eof
  · rw [if_pos h0]; exact ⟨0, rfl, rfl, h.weak, fun _ => h⟩
  rw [if_neg h0]
  simp only
  by_cases h1 : (start (clearBuffers c.r) a.openIndex a.openArchive).1 ≠ .ok .poll
  · rw [if_pos h1]; exact ⟨2, rfl, rfl, (q' 2 (by omega)).weak, fun _ => q' 2 (by omega)⟩
  rw [if_neg h1]
  by_cases h2 : (write (start (clearBuffers c.r) a.openIndex a.openArchive).2 a.accepted).1 ≠ .ok .poll
  · rw [if_pos h2]; exact ⟨3, rfl, rfl, (q' 3 (by omega)).weak, fun _ => q' 3 (by omega)⟩
  rw [if_neg h2]
  by_cases h3 : (sendHello (write (start (clearBuffers c.r) a.openIndex a.openArchive).2 a.accepted).2).1 ≠ .ok .poll
  · rw [if_pos h3]; exact ⟨4, rfl, rfl, (q' 4 (by omega)).weak, fun _ => q' 4 (by omega)⟩
  rw [if_neg h3]
  have hpm : processMessage e (c.run e ((stepActs a).take 4)).w (c.run e ((stepActs a).take 4)).r =
      processMessage e c.w (sendHello (write (start (clearBuffers c.r) a.openIndex a.openArchive).2 a.accepted).2).2 := rfl
  by_cases h4 : (processMessage e c.w (sendHello (write (start (clearBuffers c.r) a.openIndex a.openArchive).2 a.accepted).2).2).1 ≠ .ok .poll
  · rw [if_pos h4]; exact ⟨5, rfl, rfl, m1, fun ⟨s, hs⟩ => m2 ⟨s, hpm ▸ hs⟩⟩
  rw [if_neg h4]
  have h4' := Classical.not_not.1 h4
  have q5 := m2 ⟨.poll, hpm ▸ h4'⟩
  have q6 : ∀ n ≤ 4, HInv l hd tk (((c.run e ((stepActs a).take 4)).act e .message).run e (([.sendRequest, .sendFile false a.indexData, .sendFile true a.archiveData, .read a.got] : List Act).take n)) := by
    intro n hn
    refine q5.quiets hl (a := a) _ fun x hx => ?_
    have hx := List.mem_of_mem_take hx
    simp only [List.mem_cons, List.mem_nil_iff, or_false] at hx
    rcases hx with rfl | rfl | rfl | rfl <;> exact ⟨by simp [stepActs], by intro h; cases h⟩
  split
  · exact ⟨6, rfl, rfl, (q6 1 (by omega)).weak, fun _ => q6 1 (by omega)⟩
  split
  · exact ⟨7, rfl, rfl, (q6 2 (by omega)).weak, fun _ => q6 2 (by omega)⟩
  split
  · exact ⟨8, rfl, rfl, (q6 3 (by omega)).weak, fun _ => q6 3 (by omega)⟩
  · exact ⟨9, rfl, rfl, (q6 4 (by omega)).weak, fun _ => q6 4 (by omega)⟩

/-! ### The program -/

theorem conn_run_append {W} {e : World W} (xs : List Act) : ∀ (c : Conn W) (ys : List Act), c.run e (xs ++ ys) = (c.run e xs).run e ys := by
  induction xs with
  | nil => intro c ys; rfl
  | cons x xs ih => intro c ys; exact ih _ _

/-- A history without errors that ends here. -/
def At {W} (e : World W) (w0 : W) (l : Nat) (hd : List Bytes) (tk : List Msg) (w : W) (r : R) : Prop :=
  ∃ as, (∀ x ∈ as, Sensible x) ∧ ((Conn.new w0 (R.new l false false)).run e as).r = r ∧ ((Conn.new w0 (R.new l false false)).run e as).w = w ∧
    HInv l hd tk ((Conn.new w0 (R.new l false false)).run e as)

/-- A history that ends here. -/
def AtW {W} (e : World W) (w0 : W) (l : Nat) (hd : List Bytes) (tk : List Msg) (w : W) (r : R) : Prop :=
  ∃ as, (∀ x ∈ as, Sensible x) ∧ ((Conn.new w0 (R.new l false false)).run e as).r = r ∧ ((Conn.new w0 (R.new l false false)).run e as).w = w ∧
    Weak hd tk ((Conn.new w0 (R.new l false false)).run e as)

theorem At.weak {W} {e : World W} {w0 l hd tk w r} (h : At e w0 l hd tk w r) : AtW e w0 l hd tk w r := by
  obtain ⟨as, h1, h2, h3, h4⟩ := h
  exact ⟨as, h1, h2, h3, h4.weak⟩

theorem sensible_append {a b : List Act} (ha : ∀ x ∈ a, Sensible x) (hb : ∀ x ∈ b, Sensible x) : ∀ x ∈ a ++ b, Sensible x := by
  intro o ho
  rcases List.mem_append.1 ho with ho | ho
  · exact ha o ho
  · exact hb o ho

theorem stepActs_sensible (a : Answers) (n : Nat) : ∀ x ∈ (stepActs a).take n, Sensible x := by
  intro x hx
  have hx := List.mem_of_mem_take hx
  simp only [stepActs, List.mem_cons, List.mem_nil_iff, or_false] at hx
  rcases hx with rfl | rfl | rfl | rfl | rfl | rfl | rfl | rfl | rfl <;> exact trivial

theorem At.step {W} {e : World W} {w0 l hd tk w r} (hl : Own l) (h : At e w0 l hd tk w r) (a : Answers) :
    AtW e w0 l hd tk (step' e w r a).2.2 (step' e w r a).2.1 ∧
      ((∃ s, (step' e w r a).1 = .ok s) → At e w0 l hd tk (step' e w r a).2.2 (step' e w r a).2.1) := by
  obtain ⟨as, h1, h2, h3, h4⟩ := h
  obtain ⟨n, k1, k2, k3, k4⟩ := step_hist hl h4 a
  rw [h2, h3] at k1 k2 k4
  rw [← conn_run_append] at k1 k2 k3 k4
  exact ⟨⟨_, sensible_append h1 (stepActs_sensible a n), k1, k2, k3⟩, fun hs => ⟨_, sensible_append h1 (stepActs_sensible a n), k1, k2, k4 hs⟩⟩

theorem afterStep_none {u : Until} {rc : Rc} {p : Res Unit} (h : afterStep u rc p = none) : ∃ s, rc = .ok s := by
  cases rc with
  | ok s => exact ⟨s, rfl⟩
  | err x => cases x <;> cases h
  | peer x => cases h
  | ub => cases h

theorem afterStep_ok {u : Until} {rc : Rc} {p : Res Unit} (h : afterStep u rc p = some .ok) : u = .finished := by
  have k : ∀ {x : Ret}, (some (if u = .finished then .ok else .epipe) : Option Ret) = some .ok → u = .finished := by
    intro x h
    by_cases hu : u = .finished
    · exact hu
    · rw [if_neg hu] at h; cases h
  cases rc with
  | ok s => cases s with
    | finished => exact k (x := .ok) h
    | poll => unfold afterStep at h; cases p <;> cases h
    | _ => cases h
  | err x => cases x <;> first | exact k (x := .ok) h | cases h
  | peer x =>
    unfold afterStep at h
    by_cases hx : x = 32
    · simp only [if_pos hx] at h; exact k (x := .ok) h
    · simp only [if_neg hx] at h; cases h
  | ub => cases h

theorem At.process {W} {e : World W} {w0 l hd tk} (hl : Own l) (u : Until) : ∀ (ts : List Tick) {w r}, At e w0 l hd tk w r →
    AtW e w0 l hd tk (processRemote e u ts w r).2.w (processRemote e u ts w r).2.r ∧
      ((processRemote e u ts w r).1 = .ok → u ≠ .finished → At e w0 l hd tk (processRemote e u ts w r).2.w (processRemote e u ts w r).2.r) := by
  intro ts
  induction ts with
  | nil =>
    intro w r h
    unfold processRemote
    cases check u r with
    | err x => exact ⟨h.weak, fun _ _ => h⟩
    | ub => exact ⟨h.weak, fun _ _ => h⟩
    | ok b => cases b <;> exact ⟨h.weak, fun _ _ => h⟩
  | cons t ts ih =>
    intro w r h
    unfold processRemote
    cases check u r with
    | err x => exact ⟨h.weak, fun _ _ => h⟩
    | ub => exact ⟨h.weak, fun _ _ => h⟩
    | ok b =>
      cases b with
      | true => exact ⟨h.weak, fun _ _ => h⟩
      | false =>
        obtain ⟨k1, k2⟩ := h.step hl t.answers
        simp only
        cases ha : afterStep u (step' e w r t.answers).1 t.poll with
        | some x => exact ⟨k1, fun hx hu => absurd (afterStep_ok (ha.trans (congrArg some hx))) hu⟩
        | none => exact ih (k2 (afterStep_none ha))

/-- Something that is put. -/
inductive IsPut : Act → (R → Res Unit × R) → Msg → Prop
  | file (a : Bool) (d : Bytes) : IsPut (.putFile a d) (putFile · a d) (.file a d)
  | eof (a : Bool) : IsPut (.putFileEof a) (putFileEof · a) (.fileEof a)
  | chunk (id d : Bytes) : id.length = 32 → IsPut (.putChunk id .compressed d) (putChunk · id .compressed d) (.chunk id true d)
  | missing (id : Bytes) : id.length = 32 → IsPut (.putMissing id) (putMissing · id) (.missing id)
  | abort (x : Nat) (s : Bytes) : s.length + 25 ≤ 16777216 → (∀ b ∈ s, 32 ≤ b) → IsPut (.abort x s) (abort · x s) (.abort x s)

theorem IsPut.sensible {a f m} (h : IsPut a f m) : Sensible a := by
  cases h with
  | chunk _ _ h => exact h
  | missing _ h => exact h
  | abort _ _ h1 h2 => exact ⟨h1, h2⟩
  | _ => exact trivial

theorem IsPut.act {W} {e : World W} {w : W} {r : R} {a f m} (h : IsPut a f m) : Remote.act e w r a = (.ofRes (f r).1, (f r).2, w) := by
  cases h <;> rfl

theorem IsPut.speaks {a f m} (h : IsPut a f m) (r : R) (x : Res Unit) : talk (speaks r a (.ofRes x)) = if x = .ok () then [m] else [] := by
  cases h <;> cases x <;> first | rfl | (rename_i e; cases e <;> rfl)

theorem IsPut.notMessage {a f m} (h : IsPut a f m) : a ≠ .message := by
  cases h <;> (intro h; cases h)

theorem IsPut.keep {a f m} (h : IsPut a f m) {r : R} (hn : NoFile r) : NoFile (f r).2 ∧ (f r).2.queue = r.queue := by
  cases h with
  | file a d =>
    simp only [putFile]
    repeat' split
    all_goals exact ⟨hn, rfl⟩
  | eof a =>
    cases a
    all_goals
      simp only [putFileEof]
      repeat' split
      all_goals exact ⟨fun b => by have := hn b; cases b <;> exact this, rfl⟩
  | chunk id d _ =>
    simp only [putChunk]
    repeat' split
    all_goals exact ⟨hn, rfl⟩
  | missing id _ =>
    simp only [putMissing]
    repeat' split
    all_goals exact ⟨hn, rfl⟩
  | abort x s _ _ =>
    simp only [Remote.abort]
    repeat' split
    all_goals exact ⟨hn, rfl⟩

theorem At.put {W} {e : World W} {w0 l hd tk w r} (h : At e w0 l hd tk w r) {a f m} (hp : IsPut a f m) :
    At e w0 l hd (tk ++ if (f r).1 = .ok () then [m] else []) w (f r).2 := by
  obtain ⟨as, h1, h2, h3, h4⟩ := h
  have k := hp.keep h4.nofile
  have ha := hp.act (e := e) (w := ((Conn.new w0 (R.new l false false)).run e as).w) (r := ((Conn.new w0 (R.new l false false)).run e as).r)
  have := h4.act (e := e) a hp.notMessage (by rw [ha]; exact k.1) (by rw [ha]; exact k.2)
  rw [ha, hp.speaks] at this
  rw [h2] at this
  refine ⟨as ++ [a], sensible_append h1 (fun x hx => by rw [List.mem_singleton.1 hx]; exact hp.sensible), ?_, ?_, ?_⟩
  · rw [conn_run_append]
    show (Remote.act e _ _ a).2.1 = _
    rw [ha, h2]
  · rw [conn_run_append]
    show (Remote.act e _ _ a).2.2 = _
    rw [ha, h3]
  · rw [conn_run_append]; exact this

/-- `At` for the whole machine. -/
abbrev AtM {W} (e : World W) (w0 : W) (l : Nat) (hd : List Bytes) (tk : List Msg) (m : M W) : Prop := At e w0 l hd tk m.w m.r
/-- `AtW` for the whole machine. -/
abbrev AtWM {W} (e : World W) (w0 : W) (l : Nat) (hd : List Bytes) (tk : List Msg) (m : M W) : Prop := AtW e w0 l hd tk m.w m.r

theorem putWhen_at {W} {e : World W} {w0 l hd tk} (hl : Own l) (u : Until) (hu : u ≠ .finished) {m : M W} (h : AtM e w0 l hd tk m) {a f msg} (hp : IsPut a f msg) :
    ((putWhen e u f m).1 = .ok ∧ AtM e w0 l hd (tk ++ [msg]) (putWhen e u f m).2) ∨
      ((putWhen e u f m).1 ≠ .ok ∧ AtWM e w0 l hd tk (putWhen e u f m).2) := by
  obtain ⟨k1, k2⟩ := At.process hl u m.ticks h
  unfold putWhen
  cases hx : processRemote e u m.ticks m.w m.r with
  | mk x m' =>
  rw [hx] at k1 k2
  cases x with
  | ok =>
    have := (k2 rfl hu).put hp
    simp only
    generalize f m'.r = z at this
    obtain ⟨z, r'⟩ := z
    cases z with
    | ok y => cases y; exact .inl ⟨rfl, this⟩
    | err y =>
      rw [if_neg (by intro h; cases h), List.append_nil] at this
      refine .inr ⟨?_, this.weak⟩
      simp only
      split <;> (intro h; cases h)
    | ub =>
      rw [if_neg (by intro h; cases h), List.append_nil] at this
      exact .inr ⟨(by intro h; cases h), this.weak⟩
  | epipe => exact .inr ⟨(by intro h; cases h), k1⟩
  | fail => exact .inr ⟨(by intro h; cases h), k1⟩
  | waiting => exact .inr ⟨(by intro h; cases h), k1⟩
  | ub => exact .inr ⟨(by intro h; cases h), k1⟩

theorem success_good {p : Protocol} {t : Transfer} {s : Nat} (hr : ¬ t.refused ≥ ATTEMPTS) (h : t.status = some s) : Success p t ↔ good p s = true := by
  have hr : t.refused < 9 := Nat.lt_of_not_le hr
  unfold Success
  rw [h]
  constructor
  · rintro ⟨_, s', hs, h⟩
    injection hs with hs
    subst hs
    rcases h with ⟨rfl, h⟩ | ⟨rfl, h⟩ | ⟨rfl, h⟩
    · simp only [good, beq_iff_eq]; exact h
    · simp only [good, Bool.and_eq_true, decide_eq_true_eq]; omega
    · simp only [good, beq_iff_eq]; exact h
  · intro h
    refine ⟨hr, s, rfl, ?_⟩
    cases p
    · simp only [good, beq_iff_eq] at h; exact .inl ⟨rfl, h⟩
    · simp only [good, Bool.and_eq_true, decide_eq_true_eq] at h; exact .inr (.inl ⟨rfl, by omega⟩)
    · simp only [good, beq_iff_eq] at h; exact .inr (.inr ⟨rfl, h⟩)

theorem fill_body : ∀ (ds : List Bytes) (b b' : Bytes), fill ds b = some b' → b' = b ++ ds.flatten := by
  intro ds
  induction ds with
  | nil => intro b b' h; injection h with h; simp [h]
  | cons d ds ih =>
    intro b b' h
    unfold fill at h
    split at h
    · split at h
      · rename_i hd; rw [hd]; exact ih _ _ h
      · cases h
    · rw [ih _ _ h, List.flatten_cons, List.append_assoc]

theorem dec_printable (s : Nat) : ∀ b ∈ Number.dec s, 32 ≤ b := by
  intro b hb
  have := Number.fmt_digits (base := 10) (by omega) (by omega) s b hb
  have k : ∀ n : Fin 256, Number.isDigit 10 (UInt8.ofNat n.1) = true → 32 ≤ UInt8.ofNat n.1 := by decide +kernel
  have h1 := k ⟨b.toNat, b.toNat_lt⟩
  simp only [UInt8.ofNat_toNat] at h1
  exact h1 this

theorem dec_len : ∀ (k n : Nat), n < 10 ^ (k + 1) → (Number.dec n).length ≤ k + 1 := by
  intro k
  induction k with
  | zero => intro n hn; unfold Number.dec; rw [Number.fmt_lt (by omega)]; exact Nat.le_refl _
  | succ k ih =>
    intro n hn
    by_cases h : n < 10
    · unfold Number.dec; rw [Number.fmt_lt h]; simp
    · unfold Number.dec
      rw [Number.fmt_ge (by omega) (by omega), List.length_append]
      have := ih (n / 10) (by rw [Nat.pow_succ] at hn; omega)
      unfold Number.dec at this
      simp only [List.length_cons, List.length_nil]
      omega

/-- The decision on a file. -/
theorem judge_at {W} {e : World W} {w0 l hd tk} {w : W} {r : R} (h : At e w0 l hd tk w r) (p : Protocol) {url : Bytes} (t : Transfer) (hr : ¬ t.refused ≥ ATTEMPTS) (hu : Printable url)
    (hs : ∀ s, t.status = some s → s < 2 ^ 63) :
    ((judge p url t.status r).1 = none ∧ At e w0 l hd tk w (judge p url t.status r).2) ∨
    (Success p t ∧ (judge p url t.status r).1 = some true ∧ At e w0 l hd tk w (judge p url t.status r).2) ∨
    (∃ s ms, t.status = some s ∧ ¬ Success p t ∧ (ms = [] ∨ ∃ text, ms = [.abort (if p = .http ∧ s = 404 then 123 else 53) text]) ∧ (judge p url t.status r).1 = some false ∧ At e w0 l hd (tk ++ ms) w (judge p url t.status r).2) := by
  unfold judge
  cases hst : t.status with
  | none => exact .inl ⟨rfl, h⟩
  | some s =>
    simp only
    by_cases hg : good p s = true
    · rw [if_pos hg]; exact .inr (.inl ⟨(success_good hr hst).2 hg, rfl, h⟩)
    · rw [if_neg hg]
      have hp : IsPut (.abort (failureCode p s) (failureText p url s)) (abort · (failureCode p s) (failureText p url s)) (.abort (failureCode p s) (failureText p url s)) := by
        refine .abort _ _ ?_ ?_
        · have := dec_len 19 s (by have := hs s hst; omega)
          have := hu.1
          simp only [failureText, List.length_append, List.length_cons, List.length_nil]
          have : (protocolName p).length ≤ 4 := by cases p <;> decide
          omega
        · intro b hb
          simp only [failureText, List.mem_append] at hb
          rcases hb with (((hb | hb) | hb) | hb) | hb
          · revert b; cases p <;> decide
          · revert b; decide
          · exact hu.2 b hb
          · revert b; decide
          · exact dec_printable s b hb
      refine .inr (.inr ⟨s, _, rfl, fun hx => hg ((success_good hr hst).1 hx), ?_, rfl, h.put hp⟩)
      split
      · exact .inr ⟨_, rfl⟩
      · exact .inl rfl

theorem exit_ne {x : Ret} : (some x.exit : Option Exit) ≠ none := by intro h; cases h

theorem writePieces_at {W} {e : World W} {w0 l hd} (hl : Own l) : ∀ (ps : List Bytes) {tk} {m : M W}, AtM e w0 l hd tk m → (∀ d ∈ ps, d ≠ []) →
    ∃ ds : List Bytes, ((writePieces e ps m).1 = .ok ∧ ds.flatten = ps.flatten ∧ AtM e w0 l hd (tk ++ ds.map (.file true)) (writePieces e ps m).2) ∨
      ((writePieces e ps m).1 ≠ .ok ∧ ds.flatten <+: ps.flatten ∧ AtWM e w0 l hd (tk ++ ds.map (.file true)) (writePieces e ps m).2) := by
  intro ps
  induction ps with
  | nil => intro tk m h _; exact ⟨[], .inl ⟨rfl, rfl, by rw [List.map_nil, List.append_nil]; exact h⟩⟩
  | cons d ps ih =>
    intro tk m h hd'
    have key := putWhen_at hl .canPutArchive (by intro h; cases h) h (.file true d)
    unfold writePieces
    cases hx : putWhen e .canPutArchive (putFile · true d) m with
    | mk x m' =>
    rw [hx] at key
    have bad : x ≠ .ok → AtWM e w0 l hd tk m' := by
      intro hne
      rcases key with ⟨k, _⟩ | ⟨_, k⟩
      · exact absurd k hne
      · exact k
    have out : ∀ y : Ret, y ≠ .ok → AtWM e w0 l hd tk m' → ∃ ds : List Bytes, (y = .ok ∧ ds.flatten = (d :: ps).flatten ∧ AtM e w0 l hd (tk ++ ds.map (.file true)) m') ∨
        (y ≠ .ok ∧ ds.flatten <+: (d :: ps).flatten ∧ AtWM e w0 l hd (tk ++ ds.map (.file true)) m') := by
      intro y hy hk
      exact ⟨[], .inr ⟨hy, List.nil_prefix, by rw [List.map_nil, List.append_nil]; exact hk⟩⟩
    have hne := hd' d List.mem_cons_self
    cases x with
    | ok =>
      rcases key with ⟨_, k⟩ | ⟨k, _⟩
      · obtain ⟨ds, hds⟩ := ih k (fun x hx => hd' x (List.mem_cons_of_mem _ hx))
        refine ⟨d :: ds, ?_⟩
        rw [List.append_assoc] at hds
        rcases hds with ⟨h1, h2, h3⟩ | ⟨h1, h2, h3⟩
        · exact .inl ⟨h1, by rw [List.flatten_cons, List.flatten_cons, h2], h3⟩
        · refine .inr ⟨h1, ?_, h3⟩
          rw [List.flatten_cons, List.flatten_cons]
          exact List.prefix_append_right_inj d |>.2 h2
      · exact absurd rfl k
    | waiting => exact out _ (by intro h; cases h) (bad (by intro h; cases h))
    | ub => exact out _ (by intro h; cases h) (bad (by intro h; cases h))
    | epipe => simp only [if_neg hne]; exact out _ (by intro h; cases h) (bad (by intro h; cases h))
    | fail => simp only [if_neg hne]; exact out _ (by intro h; cases h) (bad (by intro h; cases h))

/-- How a part of the program ends, and what it says. -/
def Part {W} (e : World W) (w0 : W) (l : Nat) (hd : List Bytes) (tk : List Msg) (P : Bool → List Msg → Prop) (x : Option Exit × M W) : Prop :=
  ∃ c ms, P c ms ∧ ((x.1 = none ∧ c = true ∧ AtM e w0 l hd (tk ++ ms) x.2) ∨ (x.1 ≠ none ∧ AtWM e w0 l hd (tk ++ ms) x.2))

theorem Part.stop {W} {e : World W} {w0 l hd tk P} {x : Exit} {m : M W} (c : Bool) (ms : List Msg) (hp : P c ms) (h : AtWM e w0 l hd (tk ++ ms) m) :
    Part e w0 l hd tk P (some x, m) := ⟨c, ms, hp,   .inr ⟨(by intro h; cases h), h⟩⟩

theorem eof_at {W} {e : World W} {w0 l hd tk} (hl : Own l) {p : Protocol} {a : Bool} {t : Transfer} (hs : Success p t) {ds : List Bytes} (hds : ds.flatten = body t) {m : M W}
    (h : AtM e w0 l hd (tk ++ ds.map (.file a)) m) :
    Part e w0 l hd tk (FileTalk p a t) (match writeEof e a m with | (.ok, m) => (none, m) | (x, m) => (some x.exit, m)) := by
  have key := putWhen_at hl (if a then .canPutArchive else .canPutIndex) (by cases a <;> (intro h; cases h)) h (.eof a)
  unfold writeEof
  cases hx : putWhen e (if a then .canPutArchive else .canPutIndex) (putFileEof · a) m with
  | mk x m' =>
  rw [hx] at key
  have bad : x ≠ .ok → AtWM e w0 l hd (tk ++ ds.map (.file a)) m' := by
    intro hne
    rcases key with ⟨k, _⟩ | ⟨_, k⟩
    · exact absurd k hne
    · exact k
  cases x with
  | ok =>
    rcases key with ⟨_, k⟩ | ⟨k, _⟩
    · exact ⟨true, _, .all hds hs, .inl ⟨rfl, rfl, by rw [List.append_assoc] at k; exact k⟩⟩
    · exact absurd rfl k
  | waiting => exact .stop false _ (.some (by rw [hds]; exact List.prefix_refl _)) (bad (by intro h; cases h))
  | ub => exact .stop false _ (.some (by rw [hds]; exact List.prefix_refl _)) (bad (by intro h; cases h))
  | epipe => exact .stop false _ (.some (by rw [hds]; exact List.prefix_refl _)) (bad (by intro h; cases h))
  | fail => exact .stop false _ (.some (by rw [hds]; exact List.prefix_refl _)) (bad (by intro h; cases h))

theorem flush_at {W} {e : World W} {w0 l hd tk} (hl : Own l) {m : M W} (h : AtM e w0 l hd tk m) : AtWM e w0 l hd tk (flush e m).2 :=
  (At.process hl .finished m.ticks h).1

/-- A file that was refused. -/
theorem refuse_at {W} {e : World W} {w0 l hd tk} (hl : Own l) {p : Protocol} {a : Bool} {t : Transfer} {s : Nat} (hst : t.status = some s) (hs : ¬ Success p t) {ds : List Bytes} (hds : ds.flatten <+: body t) {ms : List Msg}
    (hms : ms = [] ∨ ∃ text, ms = [.abort (if p = .http ∧ s = 404 then 123 else 53) text]) {m : M W} (h : AtM e w0 l hd (tk ++ ds.map (.file a) ++ ms) m) :
    Part e w0 l hd tk (FileTalk p a t) (some (flush e m).1, (flush e m).2) := by
  have k := flush_at hl h
  rw [List.append_assoc] at k
  rcases hms with rfl | ⟨text, rfl⟩
  · rw [List.append_nil] at k
    exact .stop false _ (.some hds) k
  · exact .stop false _ (.abort hds hst hs rfl) k

theorem serveArchive_at {W} {e : World W} {w0 l hd tk} (hl : Own l) (p : Protocol) {url : Bytes} {t : Transfer} (hu : Printable url)
    (hs : ∀ s, t.status = some s → s < 2 ^ 63) (hne : ∀ d ∈ t.pieces, d ≠ []) {m : M W} (h : AtM e w0 l hd tk m) :
    Part e w0 l hd tk (FileTalk p true t) (serveArchive e p url t m) := by
  unfold serveArchive
  by_cases hr : t.refused ≥ ATTEMPTS
  · rw [if_pos hr]
    exact .stop false [] (.some (ds := []) List.nil_prefix) (by rw [List.append_nil]; exact h.weak)
  rw [if_neg hr]
  obtain ⟨ds, hds⟩ := writePieces_at hl t.pieces h hne
  cases hx : writePieces e t.pieces m with
  | mk x m' =>
  rw [hx] at hds
  have bad : ∀ y : Exit, x ≠ .ok → Part e w0 l hd tk (FileTalk p true t) (some y, m') := by
    intro y hne
    rcases hds with ⟨k, _⟩ | ⟨_, k1, k2⟩
    · exact absurd k hne
    · exact .stop false _ (.some k1) k2
  cases x with
  | ok =>
    rcases hds with ⟨_, k1, k2⟩ | ⟨k, _⟩
    · simp only
      have hj := judge_at k2 p t hr hu hs
      cases hjx : judge p url t.status m'.r with
      | mk y r' =>
      rw [hjx] at hj
      rcases hj with ⟨h1, h2⟩ | ⟨h0, h1, h2⟩ | ⟨s, ms, h0, h1, h2, h3, h4⟩
      · simp only at h1; subst h1
        exact .stop false _ (.some (by rw [k1]; exact List.prefix_refl _)) h2.weak
      · simp only at h1; subst h1
        exact eof_at hl h0 k1 h2
      · simp only at h3; subst h3
        exact refuse_at hl h0 h1 (by rw [k1]; exact List.prefix_refl _) h2 h4
    · exact absurd rfl k
  | waiting => exact bad _ (by intro h; cases h)
  | ub => exact bad _ (by intro h; cases h)
  | epipe => exact bad _ (by intro h; cases h)
  | fail => exact bad _ (by intro h; cases h)

theorem serveIndex_at {W} {e : World W} {w0 l hd tk} (hl : Own l) (p : Protocol) {url : Bytes} {t : Transfer} (hu : Printable url)
    (hs : ∀ s, t.status = some s → s < 2 ^ 63) {m : M W} (h : AtM e w0 l hd tk m) :
    Part e w0 l hd tk (FileTalk p false t) (serveIndex e p url t m) := by
  have stop : ∀ (y : Exit) {m' : M W}, AtWM e w0 l hd tk m' → Part e w0 l hd tk (FileTalk p false t) (some y, m') := by
    intro y m' h
    exact .stop false [] (.some (ds := []) List.nil_prefix) (by rw [List.append_nil]; exact h)
  unfold serveIndex
  by_cases hr : t.refused ≥ ATTEMPTS
  · rw [if_pos hr]; exact stop _ h.weak
  rw [if_neg hr]
  cases hf : fill t.pieces [] with
  | none => exact stop _ h.weak
  | some buffer =>
    have hb : [buffer].flatten = body t := by rw [fill_body _ _ _ hf]; simp [body]
    simp only
    have hj := judge_at h p t hr hu hs
    cases hjx : judge p url t.status m.r with
    | mk y r' =>
    rw [hjx] at hj
    rcases hj with ⟨h1, h2⟩ | ⟨h0, h1, h2⟩ | ⟨s, ms, h0, h1, h2, h3, h4⟩
    · simp only at h1; subst h1
      exact stop _ h2.weak
    · simp only at h1; subst h1
      simp only
      have key := putWhen_at hl .canPutIndex (by intro h; cases h) (m := { m with r := r' }) h2 (.file false buffer)
      unfold writeIndex
      cases hx : putWhen e .canPutIndex (putFile · false buffer) { m with r := r' } with
      | mk x m' =>
      rw [hx] at key
      have bad : ∀ y, x ≠ .ok → Part e w0 l hd tk (FileTalk p false t) (some y, m') := by
        intro y hne
        rcases key with ⟨k, _⟩ | ⟨_, k⟩
        · exact absurd k hne
        · exact stop _ k
      cases x with
      | ok =>
        rcases key with ⟨_, k⟩ | ⟨k, _⟩
        · exact eof_at hl h0 hb k
        · exact absurd rfl k
      | waiting => exact bad _ (by intro h; cases h)
      | ub => exact bad _ (by intro h; cases h)
      | epipe => exact bad _ (by intro h; cases h)
      | fail => exact bad _ (by intro h; cases h)
    · simp only at h3; subst h3
      exact refuse_at hl h0 h1 (ds := []) List.nil_prefix h2 (by rw [List.map_nil, List.append_nil]; exact h4)

theorem nextRequest_at {W} {e : World W} {w0 l hd tk} {w : W} {r : R} (h : At e w0 l hd tk w r) :
    (∃ id, (nextRequest r).1 = .ok id ∧ id.length = 32 ∧ At e w0 l (hd ++ [id]) tk w (nextRequest r).2) ∨
      ((∀ id, (nextRequest r).1 ≠ .ok id) ∧ At e w0 l hd tk w (nextRequest r).2) := by
  unfold nextRequest
  split
  · exact .inr ⟨(by intro id h; cases h), h⟩
  split
  · exact .inr ⟨(by intro id h; cases h), h⟩
  obtain ⟨as, h1, h2, h3, h4⟩ := h
  obtain ⟨os, ms, g1, g2, g3, g4, g5, g6⟩ := h4.hist
  have go : ∀ (out : Res (Bytes × Bool)) q, dequeue r.queue none = (out, q) → At e w0 l (hd ++ Http.handed [.dequeued out]) tk w { r with queue := q } := by
    intro out q hd
    have hact : Remote.act e ((Conn.new w0 (R.new l false false)).run e as).w ((Conn.new w0 (R.new l false false)).run e as).r (.queue (.dequeue none)) =
        (.ok .step, { r with queue := q }, w) := by
      rw [h2, h3]
      simp only [Remote.act, Remote.step, hd]
    refine ⟨as ++ [.queue (.dequeue none)], sensible_append h1 (fun x hx => by rw [List.mem_singleton.1 hx]; exact trivial), ?_, ?_, ?_⟩
    · rw [conn_run_append]
      show (Remote.act e _ _ _).2.1 = _
      rw [hact]
    · rw [conn_run_append]
      show (Remote.act e _ _ _).2.2 = _
      rw [hact]
    · rw [conn_run_append]
      have hr : (((Conn.new w0 (R.new l false false)).run e as).run e [.queue (.dequeue none)]).r = { r with queue := q } := by
        show (Remote.act e _ _ _).2.1 = _
        rw [hact]
      refine ⟨?_, ?_, ?_, ?_, os ++ [.dequeue none], ms, ?_, g2, ?_, ?_, ?_, ?_⟩
      · rw [hr]; show r.state ≠ .hello → r.remoteFlags.testBit 11 = false; rw [← h2]; exact h4.rem
      · rw [hr]; show r.localFlags = l; rw [← h2]; exact h4.loc
      · rw [hr]; intro a; have := h4.nofile a; rw [h2] at this; cases a <;> exact this
      · show talk (_ ++ []) = _; rw [List.append_nil]; exact h4.said
      · show _ ++ [] = _; rw [List.append_nil]; exact g1
      · rw [runQ_append, g6, h2]
        show Http.handed (_ ++ _) = _
        rw [handed_append, g3, runQ]
        simp only [Remote.step, hd]
        rfl
      · exact plain_append g4 (fun o ho => .inl (List.mem_singleton.1 ho))
      · rw [asks_append, g5]; show _ ++ [] = _; rw [List.append_nil]
      · rw [runQ_append, g6, h2, hr, runQ]
        simp only [Remote.step, hd]
        rfl
  cases hq : dequeue r.queue none with
  | mk out q =>
  have k := go _ _ hq
  cases out with
  | ok x => obtain ⟨id, pr⟩ := x; exact .inl ⟨id, rfl, (dequeue_len hq).1, k⟩
  | err x => exact .inr ⟨(by intro id h; cases h), by simp only; have := k; simp only [Http.handed, List.filterMap, List.append_nil] at this; exact this⟩
  | ub => exact .inr ⟨(by intro id h; cases h), by simp only; have := k; simp only [Http.handed, List.filterMap, List.append_nil] at this; exact this⟩

/-- An answer to a request. -/
theorem serveOne_at {W} {e : World W} {w0 l hd tk} (hl : Own l) (p : Protocol) {id : Bytes} (hid : id.length = 32) {t : Transfer} {m : M W} (h : AtM e w0 l hd tk m) :
    ((serveOne e p id t m).1 = none ∧ AtM e w0 l hd (tk ++ [reply p id t]) (serveOne e p id t m).2) ∨
      ((serveOne e p id t m).1 ≠ none ∧ (AtWM e w0 l hd tk (serveOne e p id t m).2 ∨ AtWM e w0 l hd (tk ++ [reply p id t]) (serveOne e p id t m).2)) := by
  have stop : ∀ (y : Exit) {m' : M W}, AtWM e w0 l hd tk m' → (((some y, m') : Option Exit × M W).1 = none ∧ AtM e w0 l hd (tk ++ [reply p id t]) m') ∨
      (((some y, m') : Option Exit × M W).1 ≠ none ∧ (AtWM e w0 l hd tk m' ∨ AtWM e w0 l hd (tk ++ [reply p id t]) m')) := by
    intro y m' h
    exact .inr ⟨(by intro h; cases h), .inl h⟩
  unfold serveOne
  by_cases hr : t.refused ≥ ATTEMPTS
  · rw [if_pos hr]; exact stop _ h.weak
  rw [if_neg hr]
  cases hf : fill t.pieces [] with
  | none => exact stop _ h.weak
  | some buffer =>
  have hb : buffer = body t := fill_body _ _ _ hf
  simp only
  cases hst : t.status with
  | none => exact stop _ h.weak
  | some s =>
  simp only
  have key := At.process hl .canPutChunk m.ticks h
  cases hx : processRemote e .canPutChunk m.ticks m.w m.r with
  | mk x m' =>
  rw [hx] at key
  cases x with
  | ok =>
    have k := key.2 rfl (by intro h; cases h)
    simp only
    have ha : At e w0 l hd (tk ++ if (answer p id s buffer m'.r).1 = .ok () then [reply p id t] else []) m'.w (answer p id s buffer m'.r).2 := by
      unfold answer reply
      by_cases hg : good p s = true
      · simp only [if_pos hg, if_pos ((success_good hr hst).2 hg)]
        rw [← hb]
        exact k.put (.chunk id buffer hid)
      · simp only [if_neg hg, if_neg (fun hx => hg ((success_good hr hst).1 hx))]
        exact k.put (.missing id hid)
    cases hz : answer p id s buffer m'.r with
    | mk z r' =>
    rw [hz] at ha
    cases z with
    | err _ =>
      rw [if_neg (by intro h; cases h), List.append_nil] at ha
      exact stop _ ha.weak
    | ub =>
      rw [if_neg (by intro h; cases h), List.append_nil] at ha
      exact stop _ ha.weak
    | ok u =>
      rw [if_pos rfl] at ha
      have key := At.process hl .written m'.ticks ha
      cases u
      simp only
      cases hx : processRemote e .written m'.ticks m'.w r' with
      | mk x m'' =>
      rw [hx] at key
      cases x with
      | ok => exact .inl ⟨rfl, key.2 rfl (by intro h; cases h)⟩
      | _ => exact .inr ⟨(by intro h; cases h), .inr key.1⟩
  | _ => exact stop _ key.1

theorem serve_at {W} {e : World W} {w0 l} (hl : Own l) (p : Protocol) (stores : List Bytes) (server : Nat → Bytes → Transfer) : ∀ (quits : List Bool) (n : Nat) {hd tk} {m : M W},
    AtM e w0 l hd tk m → ∃ ids rest, rest.length ≤ 1 ∧
      AtWM e w0 l (hd ++ ids ++ rest) (tk ++ replies p server (chunkUrl (stores.headD [])) n ids) (serve e p stores server quits n m).2 := by
  have stop : ∀ (n : Nat) {hd tk} {m' : M W}, AtWM e w0 l hd tk m' → ∃ ids rest, rest.length ≤ 1 ∧
      AtWM e w0 l (hd ++ ids ++ rest) (tk ++ replies p server (chunkUrl (stores.headD [])) n ids) m' := by
    intro n hd tk m' h
    refine ⟨[], [], by decide, ?_⟩
    rw [List.append_nil, List.append_nil]
    show AtWM e w0 l hd (tk ++ []) m'
    rw [List.append_nil]
    exact h
  intro quits
  induction quits with
  | nil => intro n hd tk m h; exact stop n h.weak
  | cons b quits ih =>
    intro n hd tk m h
    cases b with
    | true => exact stop n h.weak
    | false =>
      unfold serve
      have key := At.process hl .haveRequest m.ticks h
      cases hx : processRemote e .haveRequest m.ticks m.w m.r with
      | mk x m' =>
      rw [hx] at key
      cases x with
      | ok =>
        have k := key.2 rfl (by intro h; cases h)
        simp only
        have hn := nextRequest_at k
        cases hz : nextRequest m'.r with
        | mk z r' =>
        rw [hz] at hn
        cases z with
        | err x =>
          rcases hn with ⟨id, hn, _⟩ | ⟨_, hn⟩
          · cases hn
          simp only
          split
          · exact ih n (m := { m' with r := r' }) hn
          · exact stop n (m' := { m' with r := r' }) hn.weak
        | ub =>
          rcases hn with ⟨id, hn, _⟩ | ⟨_, hn⟩
          · cases hn
          exact stop n (m' := { m' with r := r' }) hn.weak
        | ok id =>
          rcases hn with ⟨id', hn, h32, k'⟩ | ⟨hn, _⟩
          · injection hn with hn
            subst hn
            simp only
            have ho := serveOne_at hl p h32 (t := server n (chunkUrl (stores.headD []) id)) (m := { m' with r := r' }) k'
            cases hs : serveOne e p id (server n (chunkUrl (stores.headD []) id)) { m' with r := r' } with
            | mk y m'' =>
            rw [hs] at ho
            cases y with
            | none =>
              rcases ho with ⟨_, ho⟩ | ⟨ho, _⟩
              · obtain ⟨ids, rest, h1, h2⟩ := ih (n + 1) ho
                refine ⟨id :: ids, rest, h1, ?_⟩
                have e1 : hd ++ (id :: ids) ++ rest = hd ++ [id] ++ ids ++ rest := by simp
                rw [e1]
                show AtWM e w0 l _ (tk ++ (_ :: _)) _
                rw [List.append_assoc tk] at h2
                exact h2
              · exact absurd rfl ho
            | some y =>
              rcases ho with ⟨ho, _⟩ | ⟨_, ho | ho⟩
              · cases ho
              · refine ⟨[], [id], Nat.le_refl 1, ?_⟩
                rw [List.append_nil]
                show AtWM e w0 l _ (tk ++ []) _
                rw [List.append_nil]
                exact ho
              · refine ⟨[id], [], by decide, ?_⟩
                rw [List.append_nil]
                exact ho
          · exact absurd rfl (hn id)
      | _ => exact stop n key.1

theorem flags_own (archive index : Option Bytes) (stores : List Bytes) (h : flags archive index stores ≠ 0) : Own (flags archive index stores) := by
  refine ⟨h, ?_⟩
  have k : ∀ a b c : Bool, ((if c then READABLE_STORE else 0) ||| (if b then READABLE_INDEX else 0) ||| (if a then READABLE_ARCHIVE else 0)) < 2 ^ 64 - 1 ∧
      ((if c then READABLE_STORE else 0) ||| (if b then READABLE_INDEX else 0) ||| (if a then READABLE_ARCHIVE else 0)).testBit 3 = false ∧
      ((if c then READABLE_STORE else 0) ||| (if b then READABLE_INDEX else 0) ||| (if a then READABLE_ARCHIVE else 0)).testBit 6 = false := by decide
  have := k archive.isSome index.isSome (decide (stores ≠ []))
  simp only [decide_eq_true_eq] at this
  exact this

theorem new_at {W} (e : World W) (w : W) (l : Nat) : At e w l [] [] w (R.new l false false) :=
  ⟨[], (fun x h => nomatch h), rfl, rfl, ⟨fun h => absurd rfl h, rfl, fun a => by cases a <;> exact ⟨rfl, rfl⟩, rfl, [], [], rfl, (fun x h => nomatch h), rfl, (fun x h => nomatch h), rfl, rfl⟩⟩

theorem runStores_at {W} {e : World W} {w0 l tk} (hl : Own l) (p : Protocol) (stores : List Bytes) (server : Nat → Bytes → Transfer) (quits : List Bool) (n : Nat) {m : M W}
    (h : AtM e w0 l [] tk m) : ∃ ids rest, rest.length ≤ 1 ∧ (stores = [] → ids = []) ∧
      AtWM e w0 l (ids ++ rest) (tk ++ replies p server (chunkUrl (stores.headD [])) n ids) (runStores e p stores server quits n m).2 := by
  have stop : ∀ {m' : M W}, AtWM e w0 l [] tk m' → ∃ ids rest, rest.length ≤ 1 ∧ (stores = [] → ids = []) ∧
      AtWM e w0 l (ids ++ rest) (tk ++ replies p server (chunkUrl (stores.headD [])) n ids) m' := by
    intro m' h
    refine ⟨[], [], by decide, fun _ => rfl, ?_⟩
    show AtWM e w0 l [] (tk ++ []) m'
    rw [List.append_nil]
    exact h
  unfold runStores
  by_cases hs : stores = []
  · rw [if_pos hs]
    split
    · exact stop h.weak
    · exact stop h.weak
    · exact stop (flush_at hl h)
  · rw [if_neg hs]
    obtain ⟨ids, rest, h1, h2⟩ := serve_at hl p stores server quits n h
    exact ⟨ids, rest, h1, fun h => absurd h hs, h2⟩

theorem runIndex_at {W} {e : World W} {w0 l tk} (hl : Own l) (p : Protocol) {index : Option Bytes} (hi : ∀ u, index = some u → Printable u) (stores : List Bytes)
    {server : Nat → Bytes → Transfer} (hsv : ∀ n u s, (server n u).status = some s → s < 2 ^ 63) (quits : List Bool) (n : Nat) {m : M W} (h : AtM e w0 l [] tk m) :
    ∃ ids rest I i, rest.length ≤ 1 ∧ FileTalk? p false (index.map (server n)) i I ∧ (i = false → ids = []) ∧ (stores = [] → ids = []) ∧
      AtWM e w0 l (ids ++ rest) (tk ++ I ++ replies p server (chunkUrl (stores.headD [])) (n + index.toList.length) ids) (runIndex e p index stores server quits n m).2 := by
  unfold runIndex
  cases index with
  | none =>
    obtain ⟨ids, rest, h1, h2, h3⟩ := runStores_at hl p stores server quits n h
    refine ⟨ids, rest, [], true, h1, ⟨rfl, rfl⟩, (fun h => nomatch h), h2, ?_⟩
    rw [List.append_nil]
    exact h3
  | some url =>
    obtain ⟨c, I, h1, h2⟩ := serveIndex_at hl p (t := server n url) (hi url rfl) (hsv n url) h
    simp only
    cases hx : serveIndex e p url (server n url) m with
    | mk x m' =>
    rw [hx] at h2
    cases x with
    | some x =>
      rcases h2 with ⟨h2, _⟩ | ⟨_, h2⟩
      · cases h2
      refine ⟨[], [], I, c, by decide, h1, fun _ => rfl, fun _ => rfl, ?_⟩
      show AtWM e w0 l [] (tk ++ I ++ []) m'
      rw [List.append_nil]
      exact h2
    | none =>
      rcases h2 with ⟨_, hc, h2⟩ | ⟨h2, _⟩
      · obtain ⟨ids, rest, k1, k2, k3⟩ := runStores_at hl p stores server quits (n + 1) h2
        refine ⟨ids, rest, I, c, k1, h1, (fun h => by rw [hc] at h; cases h), k2, k3⟩
      · exact absurd rfl h2

end Casync.Http
