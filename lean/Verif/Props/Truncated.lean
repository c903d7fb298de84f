import Verif.Props.Archive
import Verif.Lemmas.DecoderTrunc
/-!
C37: archives that end too early.
-/
namespace Casync.Archive
open Casync Flags

variable {q : List Goodbye.NameItem → List Goodbye.NameItem}

/-- **C37, in part.** The first bytes of the archive of a tree, but not all of them: the session never ends in success.  It ends with `EPIPE`, or the
decoder asks for more data although it has been told that there is none; what was reported up to then is the beginning of what the whole archive
would have given.  Missing from C37: that the second case is reported as an error; that is false, see `C37_waits_for_ever_violated`. -/
theorem C37_truncated_never_success_partial (ff : Word) (hff : areNormalized ff = .ok true) (t : Tree) (ht : Storable ff t) (hd : t.isDir = true)
    (hh : t.height ≤ 64) (hl : (encTree q 0 t).length < 2 ^ 62) (cfg : DCfg) (hn : cfg.naked = false) (hw : cfg.wantPayload = true) (e m : Word)
    (he : e = none64 ∨ e = ff) (ps : List Bytes) (missing : Bytes) (hm : missing ≠ []) (hps : ps.flatten ++ missing = encTree q 0 t)
    (obs : List Obs) (o : Outcome) (hr : Run (start cfg e m) ps obs o) :
    (o = .error .EPIPE ∨ o = .starved) ∧ ∃ more, events [] t = atoms obs ++ more := by
  obtain ⟨f', hv⟩ := validate_first (m := m) hff he
  obtain ⟨r, hb⟩ := hr.full (ready_start cfg hw e m ps)
  obtain ⟨n', _, h⟩ := tree_reach (fresh cfg) q ff ((known_iff' ff).2 ((C17_areNormalized_iff ff).1 hff).1) t { expected := e, mask := m } f' .init {} [] 0 [] ht hv
    (.inl ⟨rfl, hn⟩) rfl (.inr hd) ⟨by simpa using hh, Nat.zero_le _⟩ hl
  have hfin := h [] (.finished, []) (.finished (s' := enterState (here (fresh cfg) f' .finalize [n'] [] (0 + (encTree q 0 t).length)) .eof) rfl)
  rw [List.append_nil, List.append_nil] at hfin
  have hi : DInv (full (advance (start cfg e m)) ps.flatten) := by
    have h := (DInv.start cfg e m).advance.more ps.flatten
    exact ⟨h.size, h.chain, h.head⟩
  have ht := hb.trunc rfl rfl hi (fun _ n hn => by
    rw [show (full (advance (start cfg e m)) ps.flatten).nodes = [{}] from rfl, List.mem_singleton] at hn
    rw [hn]) hn hw missing
  have hsame : more (full (advance (start cfg e m)) ps.flatten) missing = here (fresh cfg) { expected := e, mask := m } .init [{}] (encTree q 0 t) 0 := by
    unfold more full advance start here
    simp only [List.nil_append, List.drop_nil, hps]
    rfl
  rw [hsame] at ht
  rcases ht with h1 | ⟨h1, u, o', h2⟩
  · obtain ⟨_, h2⟩ := h1.det hfin
    injection h2 with _ h2
    exact absurd (List.append_eq_nil_iff.1 h2).2 hm
  · obtain ⟨h3, _⟩ := h2.det hfin
    exact ⟨h1.symm, u, h3.symm⟩

/-- **C37 is false**: for every directory tree there is a proper prefix of its archive (the metadata of the root) after which the decoder is told
that there is no more data and goes on to ask for data. -/
theorem C37_waits_for_ever_violated (ff : Word) (hff : areNormalized ff = .ok true) (t : Tree) (ht : Storable ff t) (hd : t.isDir = true)
    (cfg : DCfg) (hn : cfg.naked = false) (hw : cfg.wantPayload = true) (e m : Word) (he : e = none64 ∨ e = ff) :
    ∃ some missing, missing ≠ [] ∧ some ++ missing = encTree q 0 t ∧
      ∀ ps : List Bytes, ps.flatten = some → ∀ obs o, Run (start cfg e m) ps obs o → atoms obs = [] ∧ o = .starved := by
  obtain ⟨f', hv⟩ := validate_first (m := m) hff he
  have hk := (known_iff' ff).2 ((C17_areNormalized_iff ff).1 hff).1
  cases t with
  | dir en a api kids =>
    obtain ⟨ho, hdir, _⟩ := ht
    have hfe := (validateFeatureFlags_again hv).2.1
    refine ⟨headBytes (.dir en a api kids), ?_⟩
    have hex : ∃ missing, missing ≠ [] ∧ headBytes (.dir en a api kids) ++ missing = encTree q 0 (.dir en a api kids) := by
      have hg : ∀ r d (k : Bytes), k ++ goodbyeBytes r d ≠ [] := by
        intro r d k hk
        have := congrArg List.length hk
        rw [List.length_append, goodbyeBytes_length] at this
        simp only [List.length_nil] at this
        omega
      cases api with
      | true => exact ⟨_, (by have := hg (rowsOf q [] (0 + (headBytes (.dir en a true kids)).length)) (headBytes (.dir en a true kids)).length []; rwa [List.nil_append] at this), by rw [encTree]⟩
      | false => exact ⟨_, hg _ _ _, by rw [encTree]⟩
    obtain ⟨y, h1, h2⟩ := hex
    refine ⟨y, h1, h2, ?_⟩
    intro ps hps obs o hr
    obtain ⟨r, hb⟩ := hr.full (ready_start cfg hw e m ps)
    rw [hps] at hb
    have hpe : parseEntry { expected := e, mask := m } true (headBytes (.dir en a api kids)) = (f', .request) := by
      unfold headBytes tailBytes
      simp only [Tree.entry, Tree.attrs]
      unfold parseEntry
      rw [List.append_assoc, parse_entry ho.entry (.inr (.inl hdir)) hv hk, parse_attrs (by rw [hfe]; exact ho.attrs)]
      rw [parseLoop, dif_pos (by simp)]
    generalize headBytes (.dir en a api kids) = B at hb hpe
    have hnk : isNaked (full (advance (start cfg e m)) B) = false := by
      unfold isNaked full advance start
      simp [hn]
    have hst : stepNode (full (advance (start cfg e m)) B) =
        ({ full (advance (start cfg e m)) B with ff := f', nodes := [{}] }, .ok .request) := by
      unfold stepNode
      rw [show (full (advance (start cfg e m)) B).state = .init from rfl]
      simp only [hnk, Bool.false_eq_true, if_false]
      unfold stepParse
      rw [show (full (advance (start cfg e m)) B).nodes = [{}] from rfl]
      simp only
      rw [show (full (advance (start cfg e m)) B).ff = { expected := e, mask := m } from rfl,
        show (full (advance (start cfg e m)) B).buf = B from rfl,
        show (([] : List DNode) == []) = true from rfl, hpe]
    obtain ⟨h3, h4⟩ := hb.det (.starved hst)
    exact ⟨h3, congrArg Prod.fst h4⟩
  | file e a api c => cases hd
  | symlink e a t => cases hd
  | device e a x y => cases hd
  | special e a => cases hd

/-- The hypotheses are met by the example tree. -/
example (q : List Goodbye.NameItem → List Goodbye.NameItem) (ps : List Bytes) (y : Bytes) (hy : y ≠ []) (h : ps.flatten ++ y = encTree q 0 exTree)
    (obs : List Obs) (o : Outcome) (hr : Run (start {} none64 none64) ps obs o) : o ≠ .finished := by
  have := C37_truncated_never_success_partial exFf (by decide) exTree exStorable rfl (by decide) (Nat.lt_of_le_of_lt (encTree_bound q exTree 0) (by decide))
    {} rfl rfl none64 none64 (.inl rfl) ps y hy h obs o hr
  rcases this.1 with h | h <;> rw [h] <;> simp

end Casync.Archive
