import Verif.Spec.Hardlink
import Verif.Lemmas.Meta
import Verif.Lemmas.RestoreStored
import Verif.Lemmas.MetaGather
import Verif.Model.Restore
import Verif.Props.ChunkId
import Verif.Props.Archive
/-!
C58: files that are replaced by hard links to seed files are the archived files.
-/
namespace Casync.Hardlink
open Casync Flags Archive

/-! ### The digest tells the object -/

/-- A file can be read from the bytes that its digest covers. -/
theorem parse_covered {ff : Word} (hff : areNormalized ff = .ok true) {e : Entry} {a : Attrs} {api : Bool} {c : Bytes}
    (h : Storable ff (.file e a api c)) (hl : (stored api c).length < 2 ^ 62) :
    ∃ f', parseEntry { expected := none64, mask := none64 } false (covered (.file e a api c)) =
      (f', .ok (⟨e, a, .payload (stored api c).length⟩, (headBytes (.file e a api c)).length)) := by
  obtain ⟨ho, hreg⟩ := h
  obtain ⟨f', hv⟩ := validate_first (e := none64) (m := none64) hff (.inl rfl)
  have hmax : u64max = 2 ^ 64 - 1 := by decide
  refine ⟨f', ?_⟩
  have hp := parseEntry_head ho (.inl hreg) hv ((known_iff' ff).2 ((C17_areNormalized_iff ff).1 hff).1)
    (TermFor.file (root := false) (n := (stored api c).length) hreg rfl) (headRec_payload (stored api c) (by omega) hreg)
  unfold covered content headBytes tailBytes
  rw [List.length_append, show (header (16 + (stored api c).length) .payload).length = 16 by unfold header; simp only [List.length_append, le64_length]]
  simpa only [List.append_assoc, Tree.entry, Tree.attrs] using hp

/-- **C58.** Two files with the same bytes under the digest have the same metadata and the same content: what the digest covers determines the
file. -/
theorem C58_covered_determines {ff ff' : Word} (hff : areNormalized ff = .ok true) (hff' : areNormalized ff' = .ok true) {e e' : Entry} {a a' : Attrs}
    {api api' : Bool} {c c' : Bytes} (h : Storable ff (.file e a api c)) (h' : Storable ff' (.file e' a' api' c')) (hl : (stored api c).length < 2 ^ 62)
    (hl' : (stored api' c').length < 2 ^ 62) (heq : covered (.file e a api c) = covered (.file e' a' api' c')) :
    e = e' ∧ a = a' ∧ stored api c = stored api' c' := by
  obtain ⟨f1, h1⟩ := parse_covered hff h hl
  obtain ⟨f2, h2⟩ := parse_covered hff' h' hl'
  rw [heq, h2] at h1
  injection h1 with _ h1
  injection h1 with h1
  injection h1 with h1 h3
  injection h1 with k1 k2 _
  refine ⟨k1.symm, k2.symm, ?_⟩
  exact (List.append_inj heq h3.symm).2

/-! ### What a seed knows -/

theorem entryPath_inj {a b : Bytes} (ha : a.length = 32) (hb : b.length = 32) (h : Seed.entryPath a = Seed.entryPath b) : a = b := by
  unfold Seed.entryPath at h
  have l1 := ChunkId.format_length a
  have l2 := ChunkId.format_length b
  have := (List.append_inj h (by rw [List.length_take, List.length_take]; omega)).2
  injection this with _ this
  exact ChunkId.format_inj this

theorem reg_file {ff : Word} {t : Tree} (h : Storable ff t) (hr : isType t.entry.mode ifReg = true) : ∃ e a api c, t = .file e a api c := by
  cases t with
  | file e a api c => exact ⟨e, a, api, c, rfl⟩
  | symlink e a x => have := isType_excl (b := ifReg) h.2.1 (by decide); rw [Tree.entry] at hr; rw [hr] at this; cases this
  | device e a x y =>
    have : isType e.mode ifReg = false := by rcases h.2.1 with h | h <;> exact isType_excl h (by decide)
    rw [Tree.entry] at hr; rw [hr] at this; cases this
  | special e a =>
    have : isType e.mode ifReg = false := by rcases h.2 with ⟨h, _⟩ | ⟨h, _⟩ <;> exact isType_excl h (by decide)
    rw [Tree.entry] at hr; rw [hr] at this; cases this
  | dir e a api k => have := isType_excl (b := ifReg) h.2.1 (by decide); rw [Tree.entry] at hr; rw [hr] at this; cases this

mutual
theorem postorder_storable {ff : Word} : ∀ (t : Tree) (path : List Bytes), Storable ff t → ∀ x ∈ postorder path t, Storable ff x.2
  | .file .., path, h, x, hx => by rw [postorder, List.mem_singleton] at hx; rw [hx]; exact h
  | .symlink .., path, h, x, hx => by rw [postorder, List.mem_singleton] at hx; rw [hx]; exact h
  | .device .., path, h, x, hx => by rw [postorder, List.mem_singleton] at hx; rw [hx]; exact h
  | .special .., path, h, x, hx => by rw [postorder, List.mem_singleton] at hx; rw [hx]; exact h
  | .dir _ _ true _, path, h, x, hx => by rw [postorder, List.mem_singleton] at hx; rw [hx]; exact h
  | .dir _ _ false k, path, h, x, hx => by
    rw [postorder] at hx
    rcases List.mem_append.1 hx with hx | hx
    · exact kidsPost_storable k path h.2.2 x hx
    · rw [List.mem_singleton] at hx; rw [hx]; exact h
theorem kidsPost_storable {ff : Word} : ∀ (k : Kids) (path : List Bytes), StorableKids ff k → ∀ x ∈ kidsPost path k, Storable ff x.2
  | .nil, path, h, x, hx => by rw [kidsPost] at hx; cases hx
  | .cons false _ _ r, path, h, x, hx => by rw [kidsPost] at hx; exact kidsPost_storable r path h x hx
  | .cons true name t r, path, h, x, hx => by
    rw [kidsPost] at hx
    obtain ⟨_, h1, h2⟩ := h
    rcases List.mem_append.1 hx with hx | hx
    · exact postorder_storable t _ h1 x hx
    · exact kidsPost_storable r path h2 x hx
end

/-- What a link of the cache is. -/
def LinkOK (H : Bytes → Bytes) (s : Tree) (p : Bytes) (text : Bytes) : Prop :=
  ∃ l, Location.parse text = .ok l ∧ (l.size ≠ u64max ∨
    ∃ path e a api c, (path, Tree.file e a api c) ∈ postorder [] s ∧ p = Seed.entryPath (H (covered (.file e a api c))) ∧ l.path = joinPath path)

theorem Seeded.links {H : Bytes → Bytes} {s : Tree} {ff : Word} (hs : Storable ff s) {c : Seed.Cache} (h : Seeded H s c) :
    ∀ p t, c p = some (.link t) → LinkOK H s p t := by
  induction h with
  | empty => intro p t h; cases h
  | @object c c' fail path t _ hm hc ih =>
    intro p x hx
    unfold cacheHardlink at hc
    split at hc
    · injection hc with hc; subst hc; exact ih p x hx
    · rename_i hreg
      have hreg : isType t.entry.mode ifReg = true := by simpa using hreg
      obtain ⟨e, a, api, cc, ht⟩ := reg_file (postorder_storable s [] hs _ hm) hreg
      simp only at ht
      subst ht
      rw [show (digestsOf H (Tree.file e a api cc)).2 = .ok (H (covered (.file e a api cc))) from rfl] at hc
      simp only at hc
      split at hc
      · cases hc
      · cases hc
      · rename_i l hl
        have hwf := Location.C18_new_wf _ _ _ _ l (Nat.zero_le _) (Nat.le_refl _) hl
        have hfmt := Location.parse_format l Location.withAll hwf
        unfold Location.new at hl
        split at hl; · cases hl
        split at hl; · cases hl
        split at hl; · cases hl
        split at hl; · cases hl
        split at hl; · cases hl
        split at hl; · cases hl
        injection hl with hl
        have hpath : l.path = joinPath path := by rw [← hl]; rfl
        unfold Seed.symlinkat at hc
        cases hf : fail (Seed.entryPath (H (covered (.file e a api cc)))) .symlink with
        | some er =>
          rw [hf] at hc
          simp only at hc
          cases er <;> first | (cases hc; done) | (injection hc with hc; subst hc; exact ih p x hx)
        | none =>
          rw [hf] at hc
          simp only at hc
          split at hc
          · rename_i hh
            split at hh
            · cases hh
            · split at hh
              · cases hh
              · injection hh with hh
                injection hc with hc
                subst hc hh
                unfold Seed.Cache.set at hx
                split at hx
                · rename_i hp
                  injection hx with hx
                  injection hx with hx
                  subst hx
                  refine ⟨_, hfmt, .inr ⟨path, e, a, api, cc, hm, hp, hpath⟩⟩
                · exact ih p x hx
          · cases hc
          · injection hc with hc; subst hc; exact ih p x hx
          · cases hc
  | @chunk c c' fail loc data _ hwf hlen hc ih =>
    intro p x hx
    have hfmt := Location.parse_format _ Location.withAll hwf
    unfold Seed.writeEntry at hc
    simp only at hc
    have hsym : ∀ {c1 : Seed.Cache} {t q : Bytes}, Seed.symlinkat fail c t q = .ok c1 → c1 = c.set q (.link t) := by
      intro c1 t q h
      unfold Seed.symlinkat at h
      split at h
      · cases h
      · split at h
        · cases h
        · split at h
          · cases h
          · injection h with h; exact h.symm
    split at hc
    · rename_i c1 hh
      injection hc with hc
      subst hc
      rw [hsym hh] at hx
      unfold Seed.Cache.set at hx
      split at hx
      · injection hx with hx
        injection hx with hx
        subst hx
        refine ⟨_, hfmt, .inl ?_⟩
        show (if Location.withAll.size = true then (Location.patchSize loc data.length).size else u64max) ≠ u64max
        show data.length ≠ u64max
        omega
      · exact ih p x hx
    · cases hc
    · injection hc with hc; subst hc; exact ih p x hx
    · split at hc
      · cases hc
      · injection hc with hc
        subst hc
        unfold Seed.Cache.set at hx
        split at hx
        · cases hx
        · exact ih p x hx
    · cases hc

/-- **C58.** The path that a seed has for a digest is that of a regular file of the seed with this digest. Entries for chunks are never taken for
files. -/
theorem C58_target {H : Bytes → Bytes} (h32 : ∀ b, (H b).length = 32) {s : Tree} {ff : Word} (hs : Storable ff s) {c : Seed.Cache} (h : Seeded H s c)
    {b : Bytes} {p : Bytes} (ht : Seed.hardlinkTarget (seedOf c) true (H b) = .ok p) :
    ∃ path e a api cc, (path, Tree.file e a api cc) ∈ postorder [] s ∧ H (covered (.file e a api cc)) = H b ∧ p = joinPath path := by
  unfold Seed.hardlinkTarget at ht
  rw [if_neg (by simp [seedOf]), if_neg (by simp)] at ht
  split at ht
  · cases ht
  · cases ht
  · cases ht
  · rename_i t hc
    obtain ⟨l, h1, h2⟩ := h.links hs _ _ hc
    rw [h1] at ht
    simp only at ht
    split at ht
    · cases ht
    · rename_i hn
      injection ht with ht
      rcases h2 with h2 | ⟨path, e, a, api, cc, k1, k2, k3⟩
      · exact absurd (.inr (.inr h2)) hn
      · exact ⟨path, e, a, api, cc, k1, (entryPath_inj (h32 _) (h32 _) k2).symm, ht ▸ k3⟩

/-! ### The link -/

theorem put_same (fs : FS) (x : Bytes) (v : Option Nat) : (fs.put x v).dir x = v := by show (if x = x then v else _) = v; rw [if_pos rfl]
theorem put_other (fs : FS) {x y : Bytes} (v : Option Nat) (h : y ≠ x) : (fs.put x v).dir y = fs.dir y := by
  show (if y = x then v else _) = _; rw [if_neg h]

/-- Files and seeds are not touched, and no names of the directory but these. -/
structure Only (names : List Bytes) (fs fs' : FS) : Prop where
  inode : fs'.inode = fs.inode
  seeds : fs'.seeds = fs.seeds
  dir : ∀ m, m ∉ names → fs'.dir m = fs.dir m

theorem Only.refl (l : List Bytes) (fs : FS) : Only l fs fs := ⟨rfl, rfl, fun _ _ => rfl⟩
theorem Only.trans {l : List Bytes} {a b c : FS} (h1 : Only l a b) (h2 : Only l b c) : Only l a c :=
  ⟨h2.inode.trans h1.inode, h2.seeds.trans h1.seeds, fun m hm => (h2.dir m hm).trans (h1.dir m hm)⟩
theorem Only.put {l : List Bytes} {x : Bytes} (h : x ∈ l) (fs : FS) (v : Option Nat) : Only l fs (fs.put x v) :=
  ⟨rfl, rfl, fun _ hm => put_other fs v (fun e => hm (e ▸ h))⟩

theorem linkat_ok {f : Option Errno} {fs fs' : FS} {i : Nat} {x : Bytes} (h : linkat f fs i x = (fs', .ok ())) : fs.dir x = none ∧ fs' = fs.put x (some i) := by
  unfold linkat at h
  split at h
  · cases h
  · split at h
    · cases h
    · rename_i hh
      injection h with h
      exact ⟨by simpa using hh, h.symm⟩

theorem linkat_err {f : Option Errno} {fs fs' : FS} {i : Nat} {x : Bytes} {e : Errno} (h : linkat f fs i x = (fs', .err e)) : fs' = fs := by
  unfold linkat at h
  split at h
  · injection h with h; exact h.symm
  · split at h
    · injection h with h; exact h.symm
    · cases h

theorem renameat_only {f : Option Errno} {fs : FS} {x y : Bytes} {l : List Bytes} (hx : x ∈ l) (hy : y ∈ l) : Only l fs (renameat f fs x y).1 := by
  unfold renameat
  split
  · exact .refl _ _
  · split
    · exact .refl _ _
    · split
      · split
        · exact .refl _ _
        · split
          · exact .refl _ _
          · exact (Only.put hy fs _).trans (Only.put hx _ _)
      · exact (Only.put hy fs _).trans (Only.put hx _ _)

theorem exchange_only {f : Option Errno} {fs : FS} {x y : Bytes} {l : List Bytes} (hx : x ∈ l) (hy : y ∈ l) : Only l fs (exchange f fs x y).1 := by
  unfold exchange
  split
  · exact .refl _ _
  · split
    · exact (Only.put hx fs _).trans (Only.put hy _ _)
    · exact .refl _ _

theorem remove_only {f : Option Errno} {fs : FS} {x : Bytes} {l : List Bytes} (hx : x ∈ l) : Only l fs (remove f fs x).1 := by
  unfold remove
  split
  · exact .refl _ _
  · exact Only.put hx _ _

theorem install_only {v : Env} {fs : FS} {t x : Bytes} {l : List Bytes} (ht : t ∈ l) (hx : x ∈ l) : Only l fs (installFile v fs t x).1 := by
  unfold installFile
  have h1 := renameat_only (f := v.rename) (fs := fs) ht hx
  generalize renameat v.rename fs t x = p at h1 ⊢
  obtain ⟨fs1, r⟩ := p
  cases r with
  | ok u => exact h1
  | ub => exact h1
  | err e =>
    simp only
    split
    · exact h1
    · have h2 := exchange_only (f := v.exchange) (fs := fs1) ht hx
      generalize exchange v.exchange fs1 t x = p at h2 ⊢
      obtain ⟨fs2, r⟩ := p
      have h12 := Only.trans h1 h2
      cases r with
      | ok u => exact h12.trans (remove_only ht)
      | err e => exact (h12.trans (remove_only hx)).trans (renameat_only ht hx)
      | ub => exact (h12.trans (remove_only hx)).trans (renameat_only ht hx)

/-- A rename that succeeds. -/
theorem renameat_ok {f : Option Errno} {fs fs' : FS} {x y : Bytes} {i : Nat} (hi : fs.dir x = some i) (hxy : x ≠ y) (h : renameat f fs x y = (fs', .ok ())) :
    fs'.dir y = some i ∧ (fs.dir y ≠ some i → fs'.dir x = none) := by
  unfold renameat at h
  split at h
  · cases h
  · rw [hi] at h
    simp only at h
    split at h
    · rename_i j hj
      split at h
      · rename_i hji
        injection h with h
        subst h hji
        exact ⟨hj, fun hh => absurd hj hh⟩
      · split at h
        · cases h
        · injection h with h
          subst h
          exact ⟨by rw [put_other _ _ (fun h => hxy h.symm), put_same], fun _ => put_same ..⟩
    · injection h with h
      subst h
      exact ⟨by rw [put_other _ _ (fun h => hxy h.symm), put_same], fun _ => put_same ..⟩

theorem install_ok {v : Env} {fs fs' : FS} {t x : Bytes} {i : Nat} (hi : fs.dir t = some i) (htx : t ≠ x) (h : installFile v fs t x = (fs', .ok ())) :
    fs'.dir x = some i ∧ (fs.dir x ≠ some i → fs'.dir t = none) := by
  have same : ∀ {f fs1 r}, renameat f fs t x = (fs1, r) → r ≠ .ok () → fs1 = fs := by
    intro f fs1 r h hr
    unfold renameat at h
    split at h
    · injection h with h; exact h.symm
    · rw [hi] at h
      simp only at h
      split at h
      · split at h
        · injection h with _ h; exact absurd h.symm hr
        · split at h
          · injection h with h; exact h.symm
          · injection h with _ h; exact absurd h.symm hr
      · injection h with _ h; exact absurd h.symm hr
  unfold installFile at h
  cases hr : renameat v.rename fs t x with
  | mk fs1 r =>
    rw [hr] at h
    cases r with
    | ok u => injection h with h; subst h; exact renameat_ok hi htx hr
    | ub => cases h
    | err e =>
      simp only at h
      split at h
      · cases h
      · have h1 := same hr (by simp)
        subst h1
        cases he : exchange v.exchange fs1 t x with
        | mk fs2 r =>
          rw [he] at h
          unfold exchange at he
          split at he
          · injection he with he1 he2
            subst he1 he2
            have hrm : (remove v.rm fs1 x).1.dir t = some i := by
              unfold remove
              split
              · exact hi
              · rw [put_other _ _ htx]; exact hi
            obtain ⟨k1, k2⟩ := renameat_ok hrm htx h
            refine ⟨k1, fun hx => k2 ?_⟩
            unfold remove
            split
            · exact hx
            · rw [put_same]; simp
          · split at he
            · injection he with he1 he2
              subst he1 he2
              simp only at h
              unfold remove at h
              split at h
              · cases h
              · injection h with h
                subst h
                refine ⟨?_, fun _ => put_same ..⟩
                rw [put_other _ _ (fun h => htx h.symm), put_same, hi]
            · injection he with he1 he2
              subst he1 he2
              have hrm : (remove v.rm fs1 x).1.dir t = some i := by
                unfold remove
                split
                · exact hi
                · rw [put_other _ _ htx]; exact hi
              obtain ⟨k1, k2⟩ := renameat_ok hrm htx h
              refine ⟨k1, fun hx => k2 ?_⟩
              unfold remove
              split
              · exact hx
              · rw [put_same]; simp

theorem dropTemp_ok {v : Env} {fs fs' : FS} {n : Node} {b : Bool} (h : dropTemp v fs n = (fs', .ok b)) : b = true ∧ fs' = fs.put n.temp none := by
  unfold dropTemp remove at h
  split at h
  · rename_i hh
    split at hh
    · cases hh
    · injection hh with hh
      injection h with h1 h2
      injection h2 with h2
      subst h1 h2
      exact ⟨rfl, hh.symm⟩
  · cases h
  · cases h

/-- The link is in place. -/
theorem place_true {v : Env} {fs fs' : FS} {n : Node} {t : Bytes} {i : Nat} (h1 : n.name ≠ n.temp) (h2 : t ≠ n.name) (h3 : t ≠ n.temp)
    (h : placeLink v fs n t i = (fs', .ok true)) :
    Only [n.name, n.temp, t] fs fs' ∧ fs'.dir n.name = some i ∧ fs'.dir n.temp = none ∧ (fs.dir n.name ≠ some i → fs.dir t = none → fs'.dir t = none) := by
  have hn : n.name ∈ [n.name, n.temp, t] := by simp
  have ht : n.temp ∈ [n.name, n.temp, t] := by simp
  have htt : t ∈ [n.name, n.temp, t] := by simp
  unfold placeLink at h
  cases hl : linkat v.link fs i n.name with
  | mk fs1 r =>
    rw [hl] at h
    cases r with
    | ub => cases h
    | ok u =>
      obtain ⟨_, k⟩ := dropTemp_ok h
      obtain ⟨k1, k2⟩ := linkat_ok hl
      subst k2 k
      refine ⟨(Only.put hn fs _).trans (Only.put ht _ _), by rw [put_other _ _ h1, put_same], put_same .., fun _ hf => ?_⟩
      rw [put_other _ _ h3, put_other _ _ h2]
      exact hf
    | err e =>
      have := linkat_err hl
      subst this
      simp only at h
      split at h
      · cases h
      · split at h
        · cases h
        · split at h
          · cases h
          · cases hl2 : linkat v.link2 fs1 i t with
            | mk fs2 r =>
              rw [hl2] at h
              cases r with
              | err e => simp only at h; split at h <;> cases h
              | ub => cases h
              | ok u =>
                simp only at h
                obtain ⟨k1, k2⟩ := linkat_ok hl2
                subst k2
                have hon := install_only (v := v) (fs := fs1.put t (some i)) htt hn
                cases hi : installFile v (fs1.put t (some i)) t n.name with
                | mk fs3 r =>
                  rw [hi] at h hon
                  cases r with
                  | err e => cases h
                  | ub => cases h
                  | ok u =>
                    simp only at h
                    obtain ⟨m1, m2⟩ := install_ok (put_same ..) h2 hi
                    obtain ⟨_, k⟩ := dropTemp_ok h
                    subst k
                    refine ⟨((Only.put htt fs1 _).trans hon).trans (Only.put ht _ _), by rw [put_other _ _ h1]; exact m1, put_same .., fun hne _ => ?_⟩
                    rw [put_other _ _ h3]
                    exact m2 (by rw [put_other _ _ (fun h => h2 h.symm)]; exact hne)

/-- No link, nothing done. -/
theorem place_false {v : Env} {fs fs' : FS} {n : Node} {t : Bytes} {i : Nat} (h : placeLink v fs n t i = (fs', .ok false)) : fs' = fs := by
  unfold placeLink at h
  cases hl : linkat v.link fs i n.name with
  | mk fs1 r =>
    rw [hl] at h
    cases r with
    | ub => cases h
    | ok u => have := (dropTemp_ok h).1; cases this
    | err e =>
      have := linkat_err hl
      subst this
      simp only at h
      split at h
      · injection h with h; exact h.symm
      · split at h
        · cases h
        · split at h
          · cases h
          · cases hl2 : linkat v.link2 fs1 i t with
            | mk fs2 r =>
              rw [hl2] at h
              cases r with
              | err e =>
                have := linkat_err hl2
                subst this
                simp only at h
                split at h
                · injection h with h; exact h.symm
                · cases h
              | ub => cases h
              | ok u =>
                simp only at h
                split at h
                · have := (dropTemp_ok h).1; cases this
                · cases h
                · cases h

theorem dropTemp_only {v : Env} {fs : FS} {n : Node} {l : List Bytes} (h : n.temp ∈ l) : Only l fs (dropTemp v fs n).1 := by
  have := remove_only (f := v.unlink) (fs := fs) h
  unfold dropTemp
  generalize remove v.unlink fs n.temp = p at this ⊢
  obtain ⟨fs1, r⟩ := p
  cases r <;> exact this

/-- Whatever happens. -/
theorem place_only (v : Env) (fs : FS) (n : Node) (t : Bytes) (i : Nat) : Only [n.name, n.temp, t] fs (placeLink v fs n t i).1 := by
  have hn : n.name ∈ [n.name, n.temp, t] := by simp
  have ht : n.temp ∈ [n.name, n.temp, t] := by simp
  have htt : t ∈ [n.name, n.temp, t] := by simp
  have lk : ∀ {f : Option Errno} {g : FS} {x : Bytes}, x ∈ [n.name, n.temp, t] → Only [n.name, n.temp, t] g (linkat f g i x).1 := by
    intro f g x hx
    unfold linkat
    split
    · exact .refl _ _
    · split
      · exact .refl _ _
      · exact Only.put hx _ _
  unfold placeLink
  have h1 := lk (f := v.link) (g := fs) hn
  generalize linkat v.link fs i n.name = p at h1 ⊢
  obtain ⟨fs1, r⟩ := p
  cases r with
  | ok u => exact h1.trans (dropTemp_only ht)
  | ub => exact h1
  | err e =>
    simp only
    split
    · exact h1
    · split
      · exact h1
      · split
        · exact h1
        · have h2 := lk (f := v.link2) (g := fs1) htt
          generalize linkat v.link2 fs1 i t = p at h2 ⊢
          obtain ⟨fs2, r⟩ := p
          have h12 := Only.trans h1 h2
          cases r with
          | err e => simp only; split <;> exact h12
          | ub => exact h12
          | ok u =>
            simp only
            have h3 := install_only (v := v) (fs := fs2) htt hn
            generalize installFile v fs2 t n.name = p at h3 ⊢
            obtain ⟨fs3, r⟩ := p
            have h123 := h12.trans h3
            cases r with
            | ok u => exact h123.trans (dropTemp_only ht)
            | err e => exact h123.trans (remove_only htt)
            | ub => exact h123

/-- The extracted file is removed at the very end only. -/
theorem place_keeps {v : Env} {fs fs' : FS} {n : Node} {t : Bytes} {i : Nat} {r : Res Bool} (h1 : n.name ≠ n.temp) (h3 : t ≠ n.temp)
    (h : placeLink v fs n t i = (fs', r)) (hr : r ≠ .ok true) : fs'.dir n.temp = fs.dir n.temp := by
  have hd : ∀ {g : FS}, (dropTemp v g n) = (fs', r) → fs'.dir n.temp = g.dir n.temp := by
    intro g h
    unfold dropTemp remove at h
    split at h
    · rename_i hh
      injection h with _ h
      exact absurd h.symm hr
    · rename_i hh
      injection h with h _
      subst h
      split at hh
      · injection hh with hh; rw [hh]
      · cases hh
    · rename_i hh
      split at hh <;> cases hh
  have hnt : n.temp ∉ [n.name, t] := by
    intro hm
    simp only [List.mem_cons, List.mem_nil_iff, or_false] at hm
    rcases hm with hm | hm
    · exact h1 hm.symm
    · exact h3 hm.symm
  have lk : ∀ {f : Option Errno} {g : FS} {x : Bytes}, x ∈ [n.name, t] → Only [n.name, t] g (linkat f g i x).1 := by
    intro f g x hx
    unfold linkat
    split
    · exact .refl _ _
    · split
      · exact .refl _ _
      · exact Only.put hx _ _
  have hn : n.name ∈ [n.name, t] := by simp
  have htt : t ∈ [n.name, t] := by simp
  unfold placeLink at h
  have g1 := lk (f := v.link) (g := fs) hn
  generalize linkat v.link fs i n.name = p at g1 h
  obtain ⟨fs1, r1⟩ := p
  cases r1 with
  | ok u => exact (hd h).trans (g1.dir _ hnt)
  | ub => injection h with h _; subst h; exact g1.dir _ hnt
  | err e =>
    simp only at h
    split at h
    · injection h with h _; subst h; exact g1.dir _ hnt
    · split at h
      · injection h with h _; subst h; exact g1.dir _ hnt
      · split at h
        · injection h with h _; subst h; exact g1.dir _ hnt
        · have g2 := lk (f := v.link2) (g := fs1) htt
          generalize linkat v.link2 fs1 i t = p at g2 h
          obtain ⟨fs2, r2⟩ := p
          have g12 := Only.trans g1 g2
          cases r2 with
          | err e => simp only at h; split at h <;> (injection h with h _; subst h; exact g12.dir _ hnt)
          | ub => injection h with h _; subst h; exact g12.dir _ hnt
          | ok u =>
            simp only at h
            have g3 := install_only (v := v) (fs := fs2) htt hn
            generalize installFile v fs2 t n.name = p at g3 h
            obtain ⟨fs3, r3⟩ := p
            have g123 := g12.trans g3
            cases r3 with
            | ok u => exact (hd h).trans (g123.dir _ hnt)
            | err e => injection h with h _; subst h; exact (g123.trans (remove_only htt)).dir _ hnt
            | ub => injection h with h _; subst h; exact g123.dir _ hnt

/-! ### The attempts -/

theorem try_true {ff : Word} {v : Env} {fs fs' : FS} {n : Node} {t : Bytes} {s : Nat} {p : Bytes} (h : tryHardlink ff v fs n t s p = (fs', .ok true)) :
    ∃ i, fs.seeds s p = some i ∧ looksSame ff n (fs.inode i) = .ok true ∧ placeLink v fs n t i = (fs', .ok true) := by
  unfold tryHardlink at h
  split at h
  · split at h <;> cases h
  · split at h
    · cases h
    · rename_i i hi
      split at h
      · cases h
      · cases h
      · cases h
      · rename_i hl
        exact ⟨i, hi, hl, h⟩

theorem try_false {ff : Word} {v : Env} {fs fs' : FS} {n : Node} {t : Bytes} {s : Nat} {p : Bytes} (h : tryHardlink ff v fs n t s p = (fs', .ok false)) :
    fs' = fs := by
  unfold tryHardlink at h
  split at h
  · split at h
    · injection h with h; exact h.symm
    · cases h
  · split at h
    · injection h with h; exact h.symm
    · split at h
      · cases h
      · cases h
      · injection h with h; exact h.symm
      · exact place_false h

/-- One attempt made a link, the ones before it did nothing. -/
theorem seeds_true {ff : Word} {n : Node} {d : Bytes} : ∀ {l : List Attempt} {fs fs' : FS}, attempt ff n d l fs = (fs', .ok true) →
    ∃ x ∈ l, ∃ p, Seed.hardlinkTarget (seedOf x.cache) true d = .ok p ∧ tryHardlink ff x.env fs n x.temp x.number p = (fs', .ok true) := by
  intro l
  induction l with
  | nil => intro fs fs' h; cases h
  | cons x l ih =>
    intro fs fs' h
    unfold attempt at h
    rw [List.map_cons] at h
    unfold trySeeds at h
    split at h
    · split at h
      · obtain ⟨y, hy, k⟩ := ih h
        exact ⟨y, List.mem_cons_of_mem _ hy, k⟩
      · cases h
    · cases h
    · rename_i p hp
      cases ht : tryHardlink ff x.env fs n x.temp x.number p with
      | mk fs1 r =>
        rw [ht] at h
        cases r with
        | ok b =>
          cases b with
          | true => injection h with h _; subst h; exact ⟨x, List.mem_cons_self, p, hp, ht⟩
          | false =>
            have := try_false ht
            subst this
            obtain ⟨y, hy, k⟩ := ih h
            exact ⟨y, List.mem_cons_of_mem _ hy, k⟩
        | err e => cases h
        | ub => cases h

/-- **C58.** Seeds that have no entry for the file are as if they were not there; if none has one, nothing is done, and that is no failure. -/
theorem C58_skipped {ff : Word} {n : Node} {d : Bytes} {fs : FS} (l : List Attempt) : ∀ (without : List Attempt), (∀ x ∈ without, x.cache (Seed.entryPath d) = none) →
    attempt ff n d (without ++ l) fs = attempt ff n d l fs ∧ attempt ff n d without fs = (fs, .ok false) := by
  intro without
  induction without with
  | nil => intro _; exact ⟨rfl, rfl⟩
  | cons x xs ih =>
    intro h
    obtain ⟨h1, h2⟩ := ih fun y hy => h y (List.mem_cons_of_mem _ hy)
    have ht : Seed.hardlinkTarget (seedOf x.cache) true d = .err .ENOENT := by
      unfold Seed.hardlinkTarget
      rw [if_neg (by simp [seedOf]), if_neg (by simp), show (seedOf x.cache).cache (Seed.entryPath d) = none from h x List.mem_cons_self]
    have key : ∀ ys, attempt ff n d (x :: ys) fs = attempt ff n d ys fs := by
      intro ys
      unfold attempt
      rw [List.map_cons, ht, trySeeds.eq_def]
      simp only [if_true]
    rw [List.cons_append, key, key]
    exact ⟨h1, h2⟩

/-- **C58.** Where no seed has the file, nothing is done: the file that was extracted is kept. -/
theorem C58_not_linked {ff : Word} {n : Node} {d : Bytes} : ∀ {l : List Attempt} {fs fs' : FS}, attempt ff n d l fs = (fs', .ok false) → fs' = fs := by
  intro l
  induction l with
  | nil => intro fs fs' h; injection h with h; exact h.symm
  | cons x l ih =>
    intro fs fs' h
    unfold attempt at h
    rw [List.map_cons] at h
    unfold trySeeds at h
    split at h
    · split at h
      · exact ih h
      · cases h
    · cases h
    · rename_i p hp
      cases ht : tryHardlink ff x.env fs n x.temp x.number p with
      | mk fs1 r =>
        rw [ht] at h
        cases r with
        | ok b =>
          cases b with
          | true => cases h
          | false => have := try_false ht; subst this; exact ih h
        | err e => cases h
        | ub => cases h

theorem attempt_inode {ff : Word} {n : Node} {d : Bytes} {l : List Attempt} {fs fs' : FS} (h : attempt ff n d l fs = (fs', .ok true)) : fs'.inode = fs.inode := by
  obtain ⟨x, _, p, _, ht⟩ := seeds_true h
  obtain ⟨i, _, _, i3⟩ := try_true ht
  have := (place_only x.env fs n x.temp i).inode
  rw [i3] at this
  exact this

/-- **C58.** A link that takes the place of an extracted file is a link to the file that was archived: all its metadata is what the archive records,
and its content is the archived content. The extracted file is removed; nothing else in the directory is touched, and no file is written to. For
this, the files of the seeds must not have been changed since they were read, and the digest must tell them from the archived file. -/
theorem C58_linked {H : Bytes → Bytes} (h32 : ∀ b, (H b).length = 32) {ff ffA : Word} (hff : areNormalized ffA = .ok true) {cfg : Meta.Cfg}
    {db : Meta.Names} {e : Entry} {a : Attrs} {api : Bool} {c : Bytes} (hs : Storable ffA (.file e a api c)) (hlen : (stored api c).length < 2 ^ 62)
    {n : Node} {l : List Attempt} {fs fs' : FS} (hl : ∀ x ∈ l, Genuine H cfg db (.file e a api c) fs x) (hnames : n.name ≠ n.temp)
    (htemps : ∀ x ∈ l, x.temp ≠ n.name ∧ x.temp ≠ n.temp)
    (h : attempt ff n (H (covered (.file e a api c))) l fs = (fs', .ok true)) :
    ∃ i, fs'.dir n.name = some i ∧ Recorded cfg db (fs'.inode i) e a ∧ (fs'.inode i).content = stored api c ∧ fs'.dir n.temp = none ∧
      fs'.inode = fs.inode ∧ fs'.seeds = fs.seeds ∧ ∀ m, m ≠ n.name → m ≠ n.temp → (∀ x ∈ l, m ≠ x.temp) → fs'.dir m = fs.dir m := by
  obtain ⟨x, hx, p, hp, ht⟩ := seeds_true h
  obtain ⟨s, ffS, k1, k2, k3, k4, k5, k6⟩ := hl x hx
  obtain ⟨path, e', a', api', c', m1, m2, m3⟩ := C58_target h32 k2 k4 hp
  have hc := k6 path _ m1 m2
  obtain ⟨q1, q2, q3⟩ := C58_covered_determines k1 hff (postorder_storable s [] k2 _ m1) hs (k3 path e' a' api' c' m1) hlen hc
  obtain ⟨i, i1, _, i3⟩ := try_true ht
  obtain ⟨u1, j, u2, u3, u4⟩ := k5 path e' a' api' c' m1
  obtain ⟨w1, w2, w3, _⟩ := place_true hnames (htemps x hx).1 (htemps x hx).2 i3
  rw [m3, u2] at i1
  injection i1 with i1
  subst i1
  refine ⟨j, w2, ?_, ?_, w3, w1.inode, w1.seeds, fun m h1 h2 h3 => w1.dir m ?_⟩
  · rw [w1.inode, ← q1, ← q2]; exact u3
  · rw [w1.inode, ← q3, u1, u4]; rfl
  · intro hm
    simp only [List.mem_cons, List.mem_nil_iff, or_false] at hm
    rcases hm with hm | hm | hm
    · exact h1 hm
    · exact h2 hm
    · exact h3 x hx hm

/-- **C58.** Even if the seed has been changed: what is linked is a regular file of the right length, and its permissions, owner and time agree as far
as the archive records them. -/
theorem C58_checked {ff : Word} {n : Node} {d : Bytes} {l : List Attempt} {fs fs' : FS} (hnames : n.name ≠ n.temp)
    (htemps : ∀ x ∈ l, x.temp ≠ n.name ∧ x.temp ≠ n.temp) (h : attempt ff n d l fs = (fs', .ok true)) :
    ∃ i, fs'.dir n.name = some i ∧ isType (fs'.inode i).info.mode ifReg = true ∧ (fs'.inode i).content.length = n.size ∧
      (has ff withPermissions = true → (fs'.inode i).info.mode &&& 0xfff#64 = n.entry.mode &&& 0xfff#64) ∧
      (has ff withReadOnly = true → (fs'.inode i).info.mode &&& 0x80#64 = n.entry.mode &&& 0x80#64) ∧
      (has ff with16BitUids = true ∨ has ff with32BitUids = true → (fs'.inode i).info.uid = n.entry.uid ∧ (fs'.inode i).info.gid = n.entry.gid) ∧
      (∀ g, granularity ff = .ok g → Meta.timespecToNsec (fs'.inode i).info.sec (fs'.inode i).info.nsec / g = n.entry.mtime / g) := by
  obtain ⟨x, hx, p, hp, ht⟩ := seeds_true h
  obtain ⟨i, i1, i2, i3⟩ := try_true ht
  obtain ⟨w1, w2, w3, _⟩ := place_true hnames (htemps x hx).1 (htemps x hx).2 i3
  refine ⟨i, w2, ?_⟩
  rw [w1.inode]
  unfold looksSame at i2
  split at i2; · cases i2
  rename_i j1
  split at i2; · cases i2
  rename_i j2
  split at i2; · cases i2
  rename_i j3
  split at i2; · cases i2
  rename_i j4
  have j3 : ((fs.inode i).info.mode ^^^ n.entry.mode) &&& modeMask ff = 0#64 := Classical.byContradiction j3
  have xor : ∀ {a b m : Word}, (a ^^^ b) &&& m = 0#64 → a &&& m = b &&& m := by
    intro a b m h
    refine BitVec.eq_of_getLsbD_eq fun k hk => ?_
    have := congrArg (fun z => z.getLsbD k) h
    simp only [BitVec.getLsbD_and, BitVec.getLsbD_xor, BitVec.getLsbD_zero] at this ⊢
    revert this
    cases a.getLsbD k <;> cases b.getLsbD k <;> cases m.getLsbD k <;> simp
  refine ⟨by simpa using j1, by simpa using j2, ?_, ?_, ?_, ?_⟩
  · intro hp
    unfold modeMask at j3
    rw [if_pos hp] at j3
    exact xor j3
  · intro hr
    unfold modeMask at j3
    split at j3
    · have := xor j3
      have h2 := congrArg (fun z => z &&& 0x80#64) this
      simp only [BitVec.and_assoc] at h2
      exact h2
    · exact xor j3
  · intro hid
    have hw : has ff Meta.withIds = true := by
      unfold Meta.withIds
      rw [has_or]
      rcases hid with hid | hid <;> rw [hid] <;> simp
    rw [hw] at j4
    simp only [Bool.true_and, Bool.or_eq_true, decide_eq_true_eq, not_or, Classical.not_not] at j4
    exact j4
  · intro g hg
    split at i2
    · rw [hg] at i2
      injection i2 with i2
      exact of_decide_eq_true i2
    · rename_i hn
      exfalso
      apply hn
      unfold granularity at hg
      unfold withTimes
      rw [has_or, has_or, has_or]
      split at hg; · cases hg
      split at hg; · rename_i h; rw [h]; simp
      split at hg; · rename_i h; rw [h]; simp
      split at hg; · rename_i h; rw [h]; simp
      split at hg; · rename_i h; rw [h]; simp
      cases hg


/-! ### Failures -/

/-- `linkat()` changes the entry to what it says. -/
theorem linkat_val {f : Option Errno} {fs : FS} {i : Nat} {x y : Bytes} : (linkat f fs i x).1.dir y = fs.dir y ∨ (linkat f fs i x).1.dir y = some i := by
  unfold linkat
  split
  · exact .inl rfl
  · split
    · exact .inl rfl
    · by_cases h : y = x
      · subst h; exact .inr (put_same ..)
      · exact .inl (put_other _ _ h)

/-- Both names have values in this set. -/
def In2 (S : Option Nat → Prop) (t x : Bytes) (fs : FS) : Prop := S (fs.dir t) ∧ S (fs.dir x)

theorem In2.put {S : Option Nat → Prop} {t x : Bytes} {fs : FS} (h : In2 S t x fs) (y : Bytes) {v : Option Nat} (hv : S v) : In2 S t x (fs.put y v) := by
  constructor
  · show S (if t = y then v else fs.dir t)
    split
    · exact hv
    · exact h.1
  · show S (if x = y then v else fs.dir x)
    split
    · exact hv
    · exact h.2

theorem renameat_in {S : Option Nat → Prop} {t x : Bytes} {fs : FS} {f : Option Errno} (h : In2 S t x fs) (hn : S none) : In2 S t x (renameat f fs t x).1 := by
  unfold renameat
  split
  · exact h
  · cases hi : fs.dir t with
    | none => exact h
    | some i =>
      have hv : S (some i) := hi ▸ h.1
      simp only
      split
      · split
        · exact h
        · split
          · exact h
          · exact (h.put _ hv).put _ hn
      · exact (h.put _ hv).put _ hn

theorem exchange_in {S : Option Nat → Prop} {t x : Bytes} {fs : FS} {f : Option Errno} (h : In2 S t x fs) : In2 S t x (exchange f fs t x).1 := by
  unfold exchange
  split
  · exact h
  · split
    · exact (h.put _ h.2).put _ h.1
    · exact h

theorem remove_in {S : Option Nat → Prop} {t x y : Bytes} {fs : FS} {f : Option Errno} (h : In2 S t x fs) (hn : S none) : In2 S t x (remove f fs y).1 := by
  unfold remove
  split
  · exact h
  · exact h.put _ hn

theorem install_in {S : Option Nat → Prop} {t x : Bytes} {fs : FS} {v : Env} (h : In2 S t x fs) (hn : S none) : In2 S t x (installFile v fs t x).1 := by
  unfold installFile
  have h1 := renameat_in (f := v.rename) h hn
  generalize renameat v.rename fs t x = p at h1 ⊢
  obtain ⟨fs1, r⟩ := p
  cases r with
  | ok u => exact h1
  | ub => exact h1
  | err e =>
    simp only
    split
    · exact h1
    · have h2 := exchange_in (f := v.exchange) h1
      simp only at h2
      generalize exchange v.exchange fs1 t x = p at h2 ⊢
      obtain ⟨fs2, r⟩ := p
      cases r with
      | ok u => exact remove_in h2 hn
      | err e => exact renameat_in (remove_in h2 hn) hn
      | ub => exact renameat_in (remove_in h2 hn) hn

theorem dropTemp_name {v : Env} {fs : FS} {n : Node} (h : n.name ≠ n.temp) : (dropTemp v fs n).1.dir n.name = fs.dir n.name := by
  have : (remove v.unlink fs n.temp).1.dir n.name = fs.dir n.name := by
    unfold remove
    split
    · rfl
    · exact put_other _ _ h
  unfold dropTemp
  generalize remove v.unlink fs n.temp = p at this ⊢
  obtain ⟨fs1, r⟩ := p
  cases r <;> exact this

/-- What the name is after an attempt. -/
theorem place_name {v : Env} {fs : FS} {n : Node} {t : Bytes} {i : Nat} (h1 : n.name ≠ n.temp) (h2 : t ≠ n.name) :
    (placeLink v fs n t i).1.dir n.name = fs.dir n.name ∨ (placeLink v fs n t i).1.dir n.name = none ∨ (placeLink v fs n t i).1.dir n.name = some i := by
  unfold placeLink
  have g1 := linkat_val (f := v.link) (fs := fs) (i := i) (x := n.name) (y := n.name)
  cases hl : linkat v.link fs i n.name with
  | mk fs1 r =>
    rw [hl] at g1
    cases r with
    | ok u => simp only; rw [dropTemp_name h1]; exact g1.elim .inl (fun g => .inr (.inr g))
    | ub => exact g1.elim .inl (fun g => .inr (.inr g))
    | err e =>
      have := linkat_err hl
      subst this
      simp only
      split
      · exact .inl rfl
      · split
        · exact .inl rfl
        · split
          · exact .inl rfl
          · cases hl2 : linkat v.link2 fs1 i t with
            | mk fs2 r =>
              cases r with
              | err e => have := linkat_err hl2; subst this; simp only; split <;> exact .inl rfl
              | ub =>
                exfalso
                unfold linkat at hl2
                split at hl2
                · cases hl2
                · split at hl2 <;> cases hl2
              | ok u =>
                obtain ⟨k1, k2⟩ := linkat_ok hl2
                subst k2
                simp only
                have hin : In2 (fun z => z = fs1.dir n.name ∨ z = none ∨ z = some i) t n.name (fs1.put t (some i)) :=
                  ⟨.inr (.inr (put_same ..)), .inl (put_other _ _ (fun h => h2 h.symm))⟩
                have g3 := install_in (v := v) hin (.inr (.inl rfl))
                generalize installFile v (fs1.put t (some i)) t n.name = p at g3 ⊢
                obtain ⟨fs3, r⟩ := p
                cases r with
                | ok u => simp only; rw [dropTemp_name h1]; exact g3.2
                | err e =>
                  simp only
                  exact (remove_in (y := t) (f := none) g3 (.inr (.inl rfl))).2
                | ub => exact g3.2

/-- **C58.** An attempt that fails does not lose the extracted file; the name is what it was, or is gone, or is a link to the file of a seed; nothing
else is touched but temporary names. -/
theorem C58_failure {ff : Word} {n : Node} {d : Bytes} (hnames : n.name ≠ n.temp) : ∀ {l : List Attempt} {fs fs' : FS} {r : Res Bool},
    (∀ x ∈ l, x.temp ≠ n.name ∧ x.temp ≠ n.temp) → attempt ff n d l fs = (fs', r) → r ≠ .ok true →
    fs'.dir n.temp = fs.dir n.temp ∧ fs'.inode = fs.inode ∧ fs'.seeds = fs.seeds ∧
      (fs'.dir n.name = fs.dir n.name ∨ fs'.dir n.name = none ∨
        ∃ x ∈ l, ∃ p, Seed.hardlinkTarget (seedOf x.cache) true d = .ok p ∧ fs'.dir n.name = fs.seeds x.number p) ∧
      ∀ m, m ≠ n.name → m ≠ n.temp → (∀ x ∈ l, m ≠ x.temp) → fs'.dir m = fs.dir m := by
  intro l
  induction l with
  | nil => intro fs fs' r _ h _; injection h with h; subst h; exact ⟨rfl, rfl, rfl, .inl rfl, fun _ _ _ _ => rfl⟩
  | cons x l ih =>
    intro fs fs' r htemps h hr
    have later : ∀ {fs' : FS}, attempt ff n d l fs = (fs', r) → fs'.dir n.temp = fs.dir n.temp ∧ fs'.inode = fs.inode ∧ fs'.seeds = fs.seeds ∧
      (fs'.dir n.name = fs.dir n.name ∨ fs'.dir n.name = none ∨
        ∃ y ∈ x :: l, ∃ p, Seed.hardlinkTarget (seedOf y.cache) true d = .ok p ∧ fs'.dir n.name = fs.seeds y.number p) ∧
      ∀ m, m ≠ n.name → m ≠ n.temp → (∀ y ∈ x :: l, m ≠ y.temp) → fs'.dir m = fs.dir m := by
      intro fs' h
      obtain ⟨k1, k2, k3, k4, k5⟩ := ih (fun y hy => htemps y (List.mem_cons_of_mem _ hy)) h hr
      refine ⟨k1, k2, k3, ?_, fun m a b c => k5 m a b (fun y hy => c y (List.mem_cons_of_mem _ hy))⟩
      rcases k4 with k4 | k4 | ⟨y, hy, k4⟩
      · exact .inl k4
      · exact .inr (.inl k4)
      · exact .inr (.inr ⟨y, List.mem_cons_of_mem _ hy, k4⟩)
    have same : fs' = fs → fs'.dir n.temp = fs.dir n.temp ∧ fs'.inode = fs.inode ∧ fs'.seeds = fs.seeds ∧
      (fs'.dir n.name = fs.dir n.name ∨ fs'.dir n.name = none ∨
        ∃ y ∈ x :: l, ∃ p, Seed.hardlinkTarget (seedOf y.cache) true d = .ok p ∧ fs'.dir n.name = fs.seeds y.number p) ∧
      ∀ m, m ≠ n.name → m ≠ n.temp → (∀ y ∈ x :: l, m ≠ y.temp) → fs'.dir m = fs.dir m := by
      intro h; subst h; exact ⟨rfl, rfl, rfl, .inl rfl, fun _ _ _ _ => rfl⟩
    unfold attempt at h
    rw [List.map_cons] at h
    unfold trySeeds at h
    split at h
    · split at h
      · exact later h
      · injection h with h _; exact same h.symm
    · injection h with h _; exact same h.symm
    · rename_i p hp
      cases ht : tryHardlink ff x.env fs n x.temp x.number p with
      | mk fs1 r1 =>
        rw [ht] at h
        by_cases hb : r1 = .ok false
        · subst hb
          have := try_false ht
          subst this
          exact later h
        · have he : (fs1, r1) = (fs', r) := by
            cases r1 with
            | ok b =>
              cases b with
              | true => exact h
              | false => exact absurd rfl hb
            | err e => exact h
            | ub => exact h
          injection he with e1 e2
          subst e1 e2
          unfold tryHardlink at ht
          split at ht
          · split at ht
            · injection ht with _ ht; exact absurd ht.symm hb
            · injection ht with ht _; exact same ht.symm
          · split at ht
            · injection ht with _ ht; exact absurd ht.symm hb
            · rename_i i hi
              split at ht
              · injection ht with ht _; exact same ht.symm
              · injection ht with ht _; exact same ht.symm
              · injection ht with _ ht; exact absurd ht.symm hb
              · obtain ⟨t1, t2⟩ := htemps x List.mem_cons_self
                have w1 := place_keeps hnames t2 ht hr
                have w2 := place_only x.env fs n x.temp i
                have w3 := place_name (v := x.env) (fs := fs) (i := i) hnames t1
                rw [ht] at w2 w3
                refine ⟨w1, w2.inode, w2.seeds, ?_, fun m a b c => w2.dir m ?_⟩
                · rcases w3 with w3 | w3 | w3
                  · exact .inl w3
                  · exact .inr (.inl w3)
                  · exact .inr (.inr ⟨x, List.mem_cons_self, p, hp, w3.trans hi.symm⟩)
                · intro hm
                  simp only [List.mem_cons, List.mem_nil_iff, or_false] at hm
                  rcases hm with hm | hm | hm
                  · exact a hm
                  · exact b hm
                  · exact c x List.mem_cons_self hm


/-! ### Files that have not been changed are linked -/

theorem looks_same {cfg : Meta.Cfg} {db : Meta.Names} (hc : Meta.CfgOK cfg) (hshift : cfg.shift = 0) (hrange : cfg.range = 0) {x : Inode} {e : Entry} {a : Attrs}
    (hrec : Recorded cfg db x e a) (hreg : isType x.info.mode ifReg = true)
    (hro : has cfg.ff withReadOnly = true → has x.info.mode 0x92#64 = true → has x.info.mode 0x80#64 = true)
    {n : Node} (hn : n.entry = e) (hsize : n.size = x.content.length) : looksSame cfg.ff n x = .ok true := by
  obtain ⟨k, k', hg⟩ := hrec
  unfold Meta.gather at hg
  split at hg; · cases hg
  · cases hg
  split at hg; · cases hg
  · cases hg
  split at hg; · cases hg
  · cases hg
  rename_i uid gid hids
  split at hg; · cases hg
  injection hg with hg
  injection hg with hg _
  have hlnk : isType x.info.mode ifLnk = false := isType_excl hreg (by decide)
  have hdir : isType x.info.mode ifDir = false := isType_excl hreg (by decide)
  unfold looksSame
  rw [hn, ← hg]
  rw [if_neg (by rw [hreg]; simp), if_neg (by rw [hsize]; simp)]
  have xor : ∀ {a b m : Word}, a &&& m = b &&& m → (a ^^^ b) &&& m = 0#64 := by
    intro a b m h
    refine BitVec.eq_of_getLsbD_eq fun k hk => ?_
    have := congrArg (fun z => z.getLsbD k) h
    simp only [BitVec.getLsbD_and, BitVec.getLsbD_xor, BitVec.getLsbD_zero] at this ⊢
    revert this
    cases a.getLsbD k <;> cases b.getLsbD k <;> cases m.getLsbD k <;> simp
  have hm : (x.info.mode ^^^ Meta.fixupMode cfg x.info) &&& modeMask cfg.ff = 0#64 := by
    apply xor
    unfold modeMask
    split
    · rename_i hp
      exact (Meta.fixupMode_same (by rw [has_or, hp]; rfl) hlnk).symm
    · split
      · rename_i hp hr
        unfold Meta.fixupMode
        rw [if_neg (by rw [hlnk]; simp)]
        split
        · exact (Meta.and_and_sub _ _ _ (by decide)).symm
        · rw [hdir]
          simp only [Bool.false_eq_true, if_false]
          have z : ifmt &&& 0x80#64 = 0#64 := by decide
          have dist : ∀ y : Word, (x.info.mode &&& ifmt ||| y) &&& 0x80#64 = y &&& 0x80#64 := by
            intro y
            refine BitVec.eq_of_getLsbD_eq fun k hk => ?_
            have := congrArg (fun z => z.getLsbD k) z
            simp only [BitVec.getLsbD_and, BitVec.getLsbD_or, BitVec.getLsbD_zero] at this ⊢
            revert this
            cases ifmt.getLsbD k <;> cases (0x80#64 : Word).getLsbD k <;> simp
          rw [dist]
          have bit : has x.info.mode 0x80#64 = x.info.mode.getLsbD 7 := by
            rw [show (0x80#64 : Word) = BitVec.twoPow 64 7 from by decide]; exact has_bit _ _ (by decide)
          have val : x.info.mode &&& 0x80#64 = if x.info.mode.getLsbD 7 = true then 0x80#64 else 0#64 := by
            rw [show (0x80#64 : Word) = BitVec.twoPow 64 7 from by decide]
            exact BitVec.and_twoPow _ _
          split
          · rename_i hw
            have := hro hr hw
            rw [bit] at this
            rw [val, if_pos this]; decide
          · rename_i hw
            have : x.info.mode.getLsbD 7 = false := by
              rw [← bit]
              cases h7 : has x.info.mode 0x80#64 with
              | false => rfl
              | true =>
                exfalso
                apply hw
                rw [show (0x92#64 : Word) = 0x80#64 ||| 0x12#64 from by decide, has_or, h7]; rfl
            rw [val, this]; decide
      · rw [BitVec.and_zero, BitVec.and_zero]
  rw [if_neg (by rw [hm]; simp)]
  have hshiftU : ∀ u, Meta.uidValid (Meta.shiftUid cfg u) = true → Meta.shiftUid cfg u = u := by
    intro u hv
    unfold Meta.shiftUid at hv ⊢
    split
    · rename_i h; rw [if_pos h] at hv; exact absurd hv (by decide)
    · rw [hshift, if_neg (by omega), if_neg (by simp [hrange])]; rfl
  have hid : (has cfg.ff Meta.withIds && (decide (x.info.uid ≠ uid) || decide (x.info.gid ≠ gid))) = false := by
    unfold Meta.entryIds at hids
    split at hids
    · split at hids; · cases hids
      rename_i hu
      split at hids; · cases hids
      rename_i hg
      split at hids; · cases hids
      injection hids with hids
      injection hids with i1 i2
      have hu := hshiftU _ (by simpa using hu)
      have hg := hshiftU _ (by simpa using hg)
      rw [← i1, ← i2, hu, hg]
      simp
    · rename_i h
      rw [show has cfg.ff Meta.withIds = false from by simpa using h]; rfl
  simp only [hid, Bool.false_eq_true, if_false]
  split
  · rename_i ht
    have hsome : granularity cfg.ff = .ok cfg.gran ∧ 0 < cfg.gran ∧ cfg.gran ≠ u64max := by
      have hu : u64max = 2 ^ 64 - 1 := by decide
      rcases hc.gran with g | ⟨g, _⟩
      · refine ⟨g, ?_⟩
        rcases hc.cases with ⟨_, h⟩ | ⟨_, _, h⟩ | ⟨_, _, _, h⟩ | ⟨_, _, _, _, h⟩ | ⟨h1, h2, h3, h4, h⟩
        · rw [h, hu]; omega
        · rw [h, hu]; omega
        · rw [h, hu]; omega
        · rw [h, hu]; omega
        · unfold withTimes at ht; rw [has_or, has_or, has_or, h1, h2, h3, h4] at ht; cases ht
      · exfalso
        unfold withTimes at ht
        rw [has_or, has_or, has_or] at ht
        unfold granularity at g
        split at g; · cases g
        split at g; · cases g
        rename_i h1
        split at g; · cases g
        rename_i h2
        split at g; · cases g
        rename_i h3
        split at g; · cases g
        rename_i h4
        simp only [Bool.not_eq_true] at h1 h2 h3 h4
        rw [h1, h2, h3, h4] at ht
        cases ht
    rw [hsome.1]
    simp only
    unfold Meta.fixupMtime
    rw [if_neg hsome.2.2, Nat.mul_div_cancel _ hsome.2.1]
    simp
  · rfl

/-- Without failures a link is put in place. -/
theorem place_plain {fs : FS} {n : Node} {t : Bytes} {i : Nat} (ht1 : t ≠ n.name) (hfree : fs.dir t = none) :
    ∃ fs', placeLink {} fs n t i = (fs', .ok true) := by
  unfold placeLink linkat
  simp only
  by_cases h : (fs.dir n.name).isSome
  · rw [if_pos h]
    simp only
    rw [if_neg (by decide), if_neg (by decide), if_neg (by rw [hfree]; simp)]
    simp only
    have hi : ∃ fs'', installFile {} (fs.put t (some i)) t n.name = (fs'', .ok ()) := by
      unfold installFile renameat exchange remove
      simp only
      rw [put_same, put_other _ _ (fun h => ht1 h.symm)]
      simp only
      cases hd : fs.dir n.name with
      | none => rw [hd] at h; cases h
      | some j =>
        simp only
        by_cases hj : j = i
        · rw [if_pos hj]; exact ⟨_, rfl⟩
        · rw [if_neg hj]
          split
          · rename_i hh
            split at hh
            · cases hh
            · exact ⟨_, rfl⟩
          · rename_i hh; split at hh <;> cases hh
          · rename_i hh
            split at hh
            · injection hh with hh1 hh2
              injection hh2 with hh2
              subst hh1 hh2
              rw [if_neg (by simp), put_same, put_other _ _ (fun h => ht1 h.symm), hd, if_pos (by rfl)]
              exact ⟨_, rfl⟩
            · cases hh
    obtain ⟨fs'', hi⟩ := hi
    rw [hi]
    exact ⟨_, rfl⟩
  · rw [if_neg h]
    exact ⟨_, rfl⟩

/-- **C58.** A file of a seed whose metadata is still recorded as it is in the archive, and whose length is right, is linked if nothing fails; only
with `read-only` a file that others but not the owner may write to is not. -/
theorem C58_unchanged_linked {cfg : Meta.Cfg} {db : Meta.Names} (hc : Meta.CfgOK cfg) (hshift : cfg.shift = 0) (hrange : cfg.range = 0) {x : Attempt}
    {fs : FS} {i : Nat} {e : Entry} {a : Attrs} (hrec : Recorded cfg db (fs.inode i) e a) (hreg : isType (fs.inode i).info.mode ifReg = true)
    (hro : has cfg.ff withReadOnly = true → has (fs.inode i).info.mode 0x92#64 = true → has (fs.inode i).info.mode 0x80#64 = true)
    {n : Node} (hn : n.entry = e) (hsize : n.size = (fs.inode i).content.length) (hnames : n.name ≠ n.temp) (htemp : x.temp ≠ n.name ∧ x.temp ≠ n.temp)
    (hfree : fs.dir x.temp = none) {d p : Bytes} (hp : Seed.hardlinkTarget (seedOf x.cache) true d = .ok p) (hi : fs.seeds x.number p = some i)
    (henv : x.env = {}) : ∃ fs', attempt cfg.ff n d [x] fs = (fs', .ok true) ∧ fs'.dir n.name = some i := by
  obtain ⟨fs', hpl⟩ := place_plain (fs := fs) (i := i) htemp.1 hfree
  obtain ⟨_, w, _⟩ := place_true hnames htemp.1 htemp.2 hpl
  refine ⟨fs', ?_, w⟩
  unfold attempt
  rw [List.map_cons]
  unfold trySeeds
  rw [hp]
  simp only
  unfold tryHardlink
  rw [henv]
  simp only
  rw [hi]
  simp only
  rw [looks_same hc hshift hrange hrec hreg hro hn hsize]
  simp only
  rw [hpl]

/-- **C58.** A seed knows every regular file whose path can be the target of a symbolic link of its cache, from when it has read it. -/
theorem C58_known {c : Seed.Cache} {mode : Word} {d path : Bytes} (hreg : isType mode ifReg = true) (hpath : path.head? ≠ some 47)
    (hnew : c (Seed.entryPath d) = none) {l : Location.Location} (hl : Location.new (some path) 101 0 u64max = .ok l)
    (hlen : (Location.format l Location.withAll).length ≤ Seed.linkMax) :
    ∃ c', cacheHardlink (fun _ _ => none) c mode (.ok d) path = .ok c' ∧ Seed.hardlinkTarget (seedOf c') true d = .ok path := by
  have hwf := Location.C18_new_wf _ _ _ _ l (Nat.zero_le _) (Nat.le_refl _) hl
  have hfmt := Location.parse_format l Location.withAll hwf
  have heq : l = { path := path, designator := 101, offset := 0, size := u64max } := by
    unfold Location.new at hl
    rw [if_neg (by decide), if_neg (by exact hpath), if_neg (by decide), if_neg (by decide), if_neg (fun h => absurd h.1 (by decide)), if_neg (by simp)] at hl
    injection hl with hl
    exact hl.symm
  refine ⟨c.set (Seed.entryPath d) (.link (Location.format l Location.withAll)), ?_, ?_⟩
  · unfold cacheHardlink
    rw [if_neg (by rw [hreg]; simp)]
    simp only
    rw [hl]
    simp only
    unfold Seed.symlinkat
    simp only
    rw [if_neg (Nat.not_lt.2 hlen), if_neg (by rw [hnew]; simp)]
  · unfold Seed.hardlinkTarget
    rw [if_neg (by simp [seedOf]), if_neg (by simp)]
    have : (seedOf (c.set (Seed.entryPath d) (.link (Location.format l Location.withAll)))).cache (Seed.entryPath d) =
        some (.link (Location.format l Location.withAll)) := by
      show (if _ = _ then _ else _) = _
      rw [if_pos rfl]
    rw [this]
    simp only
    rw [hfmt]
    simp only
    rw [heq]
    exact if_neg (fun h => by rcases h with h | h | h <;> exact h rfl)

/-! ### What is violated -/

/-- `WITH_32BIT_UIDS`, `WITH_SEC_TIME`, `WITH_PERMISSIONS`. No repo lines. -/
abbrev exFlags : Word := with32BitUids ||| withSecTime ||| withPermissions
/-- No repo lines. -/
def exCfg : Meta.Cfg := { ff := exFlags, gran := 1000000000 }
/-- No repo lines. -/
def exDb : Meta.Names := ⟨fun _ => none, fun _ => none, fun _ => none, fun _ => none⟩
/-- A file of user 1000. No repo lines. -/
def exMeta : Meta.Meta := { mode := 0x81a4#64, uid := 1000, gid := 1000, sec := 5, nsec := 7 }
/-- Its record. No repo lines. -/
def exRec : Entry := { ff := exFlags, mode := 0x81a4#64, flags := 0#64, uid := 1000, gid := 1000, mtime := 5000000000 }
/-- A directory with this file. No repo lines. -/
def exSeed (c : Bytes) : Tree := .dir { exRec with mode := 0x41ed#64 } {} false (.cons true [97] (.file exRec {} false c) .nil)

theorem exCfg_ok : Meta.CfgOK exCfg := ⟨by decide +kernel, .inl (by decide +kernel)⟩
theorem exGathered : Meta.gather exCfg exDb {} exMeta = .ok (exRec, {}, {}) := by decide +kernel
theorem exGather (c : Bytes) : Recorded exCfg exDb ⟨exMeta, c⟩ exRec {} :=
  ⟨{}, {}, exGathered⟩

theorem exAttrs' (e : Entry) : AttrsOK exFlags e {} where
  user := by simp
  group := by simp
  names := by intro h; exact absurd h (by decide)
  xattrFlag := by simp
  xattrs := by simp
  xattrOrder := by simp
  aclUser := by simp
  aclGroup := by simp
  defUser := by simp
  defGroup := by simp
  aclUserOrder := by simp
  aclGroupOrder := by simp
  defUserOrder := by simp
  defGroupOrder := by simp
  groupObj := by simp
  needsGroupObj := by simp
  aclDefault := by simp
  needsMask := by simp
  defaultDir := by simp
  selinux := by simp
  fcaps := by simp
  quota := by simp
  link := by simp

theorem exObj' {mode : Word} (h : mode &&& ~~~(0xffff#64) = 0#64) (hp : PermOK exFlags mode) : ObjOK exFlags { exRec with mode := mode } {} :=
  ⟨{ same := rfl, bits := h, perm := hp, uid := by show IdOK exFlags 1000; unfold IdOK; decide, gid := by show IdOK exFlags 1000; unfold IdOK; decide,
     time := by show TimeOK exFlags 5000000000; unfold TimeOK; decide, flags := BitVec.zero_and,
     subvol := fun _ => by show has 0#64 withSubvolume = false; decide, flagsFor := fun _ _ => rfl }, exAttrs' _⟩

theorem exSeed_storable (c : Bytes) : Storable exFlags (exSeed c) := by
  have hd : ObjOK exFlags { exRec with mode := 0x41ed#64 } {} := exObj' (by decide) (by unfold PermOK; decide)
  have hf : ObjOK exFlags exRec {} := exObj' (mode := 0x81a4#64) (by decide) (by unfold PermOK; decide)
  exact ⟨hd, by decide, ⟨by simp, by decide, by decide, by decide, by decide⟩, ⟨hf, by decide⟩, trivial⟩

/-- The name, and the temporary name of the extracted file. No repo lines. -/
def exNode (k : Nat) : Node := { name := [98], temp := [99], entry := exRec, size := k }

/-- The seed has its file 7 as "a"; the extracted file is file 8; the name stands for `old`. No repo lines. -/
def exFs (old : Option Nat) (c : Bytes) : FS where
  seeds := fun _ p => if p = [97] then some 7 else none
  dir := fun m => if m = [99] then some 8 else if m = [98] then old else none
  inode := fun _ => ⟨exMeta, c⟩

theorem exKnown (H : Bytes → Bytes) (c : Bytes) : ∃ k : Seed.Cache, Seeded H (exSeed c) k ∧
    Seed.hardlinkTarget (seedOf k) true (H (covered (.file exRec {} false c))) = .ok [97] := by
  obtain ⟨k, h1, h2⟩ := C58_known (c := fun _ => none) (mode := 0x81a4#64) (d := H (covered (.file exRec {} false c))) (path := [97]) (by decide)
    (by decide) rfl (l := { path := [97], designator := 101, offset := 0, size := u64max }) (by decide +kernel) (by decide +kernel)
  refine ⟨k, .object (path := [[97]]) (t := .file exRec {} false c) .empty ?_ h1, h2⟩
  rw [exSeed, postorder, kidsPost, postorder]
  simp

/-- Whatever the file holds now, it is linked. -/
theorem exLinked (H : Bytes → Bytes) (c c' : Bytes) (old : Option Nat) (hlen : c'.length = c.length) : ∃ k : Seed.Cache, Seeded H (exSeed c) k ∧
    ∃ fs', attempt exFlags (exNode c.length) (H (covered (.file exRec {} false c))) [⟨0, k, {}, [100]⟩] (exFs old c') = (fs', .ok true) ∧
      fs'.dir [98] = some 7 := by
  obtain ⟨k, h1, h2⟩ := exKnown H c
  refine ⟨k, h1, ?_⟩
  exact C58_unchanged_linked (cfg := exCfg) (db := exDb) exCfg_ok rfl rfl (x := ⟨0, k, {}, [100]⟩) (fs := exFs old c') (i := 7) (exGather c') (show isType 0x81a4#64 ifReg = true by decide)
    (fun h => absurd h (by decide)) (n := exNode c.length) rfl hlen.symm (show ([98] : Bytes) ≠ [99] by decide)
    ⟨show ([100] : Bytes) ≠ [98] by decide, show ([100] : Bytes) ≠ [99] by decide⟩ rfl h2 rfl rfl

theorem exGenuine (H : Bytes → Bytes) (c : Bytes) (hc : c.length < 2 ^ 62) (old : Option Nat) {k : Seed.Cache} (hk : Seeded H (exSeed c) k)
    (hdir : H (covered (exSeed c)) ≠ H (covered (.file exRec {} false c))) :
    Genuine H exCfg exDb (.file exRec {} false c) (exFs old c) ⟨0, k, {}, [100]⟩ := by
  have hpost : ∀ path t, (path, t) ∈ postorder [] (exSeed c) → (path = [[97]] ∧ t = .file exRec {} false c) ∨ (path = [] ∧ t = exSeed c) := by
    intro path t h
    rw [exSeed, postorder, kidsPost, postorder, kidsPost] at h
    simp only [List.nil_append, List.append_nil, List.cons_append, List.mem_cons, List.mem_nil_iff, or_false, Prod.mk.injEq] at h
    exact h
  refine ⟨exSeed c, exFlags, exCfg_ok.norm, exSeed_storable c, ?_, hk, ?_, ?_⟩
  · intro path e a api c1 h
    rcases hpost path _ h with ⟨_, h⟩ | ⟨_, h⟩
    · injection h with _ _ h1 h2; rw [h1, h2]; exact hc
    · cases h
  · intro path e a api c1 h
    rcases hpost path _ h with ⟨hp, h⟩ | ⟨_, h⟩
    · injection h with h1 h2 h3 h4
      subst hp h1 h2 h3 h4
      exact ⟨rfl, 7, rfl, exGather _, rfl⟩
    · cases h
  · intro path u h hh
    rcases hpost path u h with ⟨_, h⟩ | ⟨_, h⟩
    · rw [h]
    · rw [h] at hh; exact absurd hh hdir

/-- **C58, violated.** If the file of the seed was written to and its length and time are the same, then the name stands for a file with other
content than the archived one. -/
theorem C58_stale_violated (H : Bytes → Bytes) : ∃ (k : Seed.Cache) (fs' : FS), Seeded H (exSeed [1]) k ∧
    attempt exFlags (exNode 1) (H (covered (.file exRec {} false [1]))) [⟨0, k, {}, [100]⟩] (exFs none [2]) = (fs', .ok true) ∧
    ∃ i, fs'.dir [98] = some i ∧ (fs'.inode i).content = [2] := by
  obtain ⟨k, h1, fs', h2, h3⟩ := exLinked H [1] [2] none rfl
  refine ⟨k, fs', h1, h2, 7, h3, ?_⟩
  rw [attempt_inode h2]
  rfl

/-- **C58, violated.** With `--uid-shift=65536` a file of user 1000 would be extracted as one of user 66536; if a seed has it, it becomes a link to a
file of user 1000. -/
theorem C58_shift_violated (H : Bytes → Bytes) (c : Bytes) : ∃ (k : Seed.Cache) (fs' : FS), Seeded H (exSeed c) k ∧
    attempt exFlags (exNode c.length) (H (covered (.file exRec {} false c))) [⟨0, k, {}, [100]⟩] (exFs none c) = (fs', .ok true) ∧
    ∃ i, fs'.dir [98] = some i ∧ (fs'.inode i).info.uid = 1000 ∧ Meta.unshiftUid { replay := exFlags, shift := 65536, range := 65536 } exRec.uid = 66536 := by
  obtain ⟨k, h1, fs', h2, h3⟩ := exLinked H c c none rfl
  refine ⟨k, fs', h1, h2, 7, h3, ?_, by decide +kernel⟩
  rw [attempt_inode h2]
  rfl

/-- **C58, violated.** If the name is already a link to the file of the seed, as after an earlier extraction, a temporary name is left behind, although
everything succeeds. -/
theorem C58_leftover_violated (H : Bytes → Bytes) (c : Bytes) : ∃ (k : Seed.Cache) (fs' : FS), Seeded H (exSeed c) k ∧
    attempt exFlags (exNode c.length) (H (covered (.file exRec {} false c))) [⟨0, k, {}, [100]⟩] (exFs (some 7) c) = (fs', .ok true) ∧
    (exFs (some 7) c).dir [100] = none ∧ fs'.dir [100] = some 7 := by
  obtain ⟨k, h1, fs', h2, h3⟩ := exLinked H c c (some 7) rfl
  refine ⟨k, fs', h1, h2, rfl, ?_⟩
  obtain ⟨x, hx, p, hp, ht⟩ := seeds_true h2
  simp only [List.mem_cons, List.mem_nil_iff, or_false] at hx
  subst hx
  obtain ⟨i, i1, _, i3⟩ := try_true ht
  have h7 : i = 7 := by
    have : (if p = [97] then some 7 else none) = some i := i1
    split at this
    · injection this with this; exact this.symm
    · cases this
  subst h7
  have hr : placeLink {} (exFs (some 7) c) (exNode c.length) [100] 7 = ((((exFs (some 7) c).put [100] (some 7))).put [99] none, .ok true) := rfl
  rw [hr] at i3
  injection i3 with i3 _
  rw [← i3]
  rfl

/-- **C58, violated.** A seed with a regular file whose path does not fit into the target of a symbolic link cannot be read at all. -/
theorem C58_long_path_violated {mode : Word} {path : Bytes} (hreg : isType mode ifReg = true) (hpath : path.head? ≠ some 47)
    (hlong : Seed.linkMax ≤ path.length) (c : Seed.Cache) (d : Bytes) :
    cacheHardlink (fun _ _ => none) c mode (.ok d) path = .err .ENAMETOOLONG := by
  unfold cacheHardlink
  rw [if_neg (by rw [hreg]; simp)]
  simp only
  cases hl : Location.new (some path) 101 0 u64max with
  | err e =>
    exfalso
    unfold Location.new at hl
    rw [if_neg (by decide), if_neg (by exact hpath), if_neg (by decide), if_neg (by decide), if_neg (fun h => absurd h.1 (by decide)), if_neg (by simp)] at hl
    cases hl
  | ub =>
    exfalso
    unfold Location.new at hl
    rw [if_neg (by decide), if_neg (by exact hpath), if_neg (by decide), if_neg (by decide), if_neg (fun h => absurd h.1 (by decide)), if_neg (by simp)] at hl
    cases hl
  | ok l =>
    have heq : l.path = path := by
      unfold Location.new at hl
      rw [if_neg (by decide), if_neg (by exact hpath), if_neg (by decide), if_neg (by decide), if_neg (fun h => absurd h.1 (by decide)), if_neg (by simp)] at hl
      injection hl with hl
      rw [← hl]; rfl
    simp only
    unfold Seed.symlinkat
    simp only
    rw [if_pos (by
      unfold Location.format
      simp only [List.length_append, List.length_cons]
      rw [heq]
      omega)]

/-! ### Non-vacuity -/

/-- C58: a seed as `C58_linked` wants it, from which a link is made. -/
example (H : Bytes → Bytes) (c : Bytes) (hc : c.length < 2 ^ 62) (hdir : H (covered (exSeed c)) ≠ H (covered (.file exRec {} false c))) :
    ∃ (k : Seed.Cache) (fs' : FS), Genuine H exCfg exDb (.file exRec {} false c) (exFs none c) ⟨0, k, {}, [100]⟩ ∧
      Storable exFlags (.file exRec {} false c) ∧
      attempt exFlags (exNode c.length) (H (covered (.file exRec {} false c))) [⟨0, k, {}, [100]⟩] (exFs none c) = (fs', .ok true) := by
  obtain ⟨k, h1, fs', h2, _⟩ := exLinked H c c none rfl
  exact ⟨k, fs', exGenuine H c hc none h1 hdir, (exSeed_storable c).2.2.2.1, h2⟩

/-- C58: without a seed nothing is done; a link to another file system is not made; a failing `unlinkat()` is an error, and the link is there. -/
example : attempt exFlags (exNode 1) [] [] (exFs none [1]) = (exFs none [1], .ok false) := rfl
example : placeLink { link := some .EXDEV } (exFs none [1]) (exNode 1) [100] 7 = (exFs none [1], .ok false) := rfl
example : (placeLink { unlink := some .EIO } (exFs none [1]) (exNode 1) [100] 7).2 = .err .EIO ∧
    (placeLink { unlink := some .EIO } (exFs none [1]) (exNode 1) [100] 7).1.dir [98] = some 7 := by constructor <;> rfl

end Casync.Hardlink
