import Verif.Store.Transfer
import Mathlib.Tactic.ByContra

/-
C87: files that go in and out of a persistent store.
-/
namespace Verif.Store.Transfer

open Verif.Store

deriving instance DecidableEq for Except

variable {C : Type}

/-! ## Following links -/

/-- Changing the entry at `e` changes where `p` leads only if `e` leads there too. -/
theorem follow_update (d : Disk C) (e : Path) (x : Option (Entry C)) (q : Path) : ∀ (f : Nat) (p : Path),
    follow d f p = some q → (∃ f', f' ≤ f ∧ follow d f' e = some q) ∨ follow (Function.update d e x) f p = some q
  | 0, _, h => by cases h
  | f + 1, p, h => by
      by_cases hp : p = e
      · subst hp
        exact .inl ⟨f + 1, Nat.le_refl _, h⟩
      · have hu : Function.update d e x p = d p := Function.update_of_ne hp x d
        rw [follow] at h ⊢
        rw [hu]
        cases hd : d p with
        | none => rw [hd] at h; exact .inr h
        | some en =>
          rw [hd] at h
          cases en with
          | file c => exact .inr h
          | dir => exact .inr h
          | link t =>
            rcases follow_update d e x q f t h with ⟨f', h1, h2⟩ | h1
            · exact .inl ⟨f', by omega, h2⟩
            · exact .inr h1

theorem follow_mono (d : Disk C) (q : Path) : ∀ (f f' : Nat) (p : Path), follow d f p = some q → f ≤ f' →
    follow d f' p = some q
  | 0, _, _, h, _ => by cases h
  | f + 1, 0, _, _, hl => by omega
  | f + 1, f' + 1, p, h, hl => by
      rw [follow] at h ⊢
      cases hd : d p with
      | none => rw [hd] at h; exact h
      | some en =>
        rw [hd] at h
        cases en with
        | file c => exact h
        | dir => exact h
        | link t => exact follow_mono d q f f' t h (by omega)

theorem follow_end (d : Disk C) (q : Path) : ∀ (f : Nat) (p : Path), follow d f p = some q →
    ∀ t, d q ≠ some (.link t)
  | 0, _, h => by cases h
  | f + 1, p, h => by
      rw [follow] at h
      intro t ht
      split at h
      · exact follow_end d q f _ h t ht
      · rename_i hn
        cases h
        exact hn t ht

theorem content_some {d : Disk C} {p : Path} {c : C} (h : content d p = some c) :
    ∃ q, follow d maxLinks p = some q ∧ d q = some (.file c) := by
  unfold content stat at h
  cases hf : follow d maxLinks p with
  | none => rw [hf] at h; simp at h
  | some q =>
    rw [hf] at h
    simp only [Option.bind_some] at h
    split at h
    · rename_i c' hc
      cases h
      exact ⟨q, rfl, hc⟩
    · cases h

theorem content_of {d : Disk C} {p q : Path} {c : C} (h1 : follow d maxLinks p = some q) (h2 : d q = some (.file c)) :
    content d p = some c := by
  unfold content stat
  rw [h1]
  simp [h2]

theorem content_file {d : Disk C} {p : Path} {c : C} (h : d p = some (.file c)) : content d p = some c := by
  have hf : follow d maxLinks p = some p := by
    unfold maxLinks
    rw [follow, h]
  exact content_of hf h

/-- What `_same_file_content` says, when digests of different contents differ. -/
theorem sameContent_content {same : C → C → Bool} (hs : ∀ a b, same a b = true → a = b) {d : Disk C} {a b : Path}
    (h : sameContent same d a b = true) : content d a = content d b := by
  unfold sameContent at h
  split at h
  · rename_i p q hp hq
    split at h
    · rename_i x y hx hy
      split at h
      · rename_i hpq
        subst hpq
        unfold content stat
        rw [hp, hq]
      · split at h
        · rename_i c c'
          rw [content_of hp hx, content_of hq hy, hs _ _ h]
        · cases h
    · cases h
  · cases h

theorem sameContent_file {same : C → C → Bool} (hr : ∀ a, same a a = true) {d : Disk C} {a b : Path} {c : C}
    (h1 : content d a = some c) (h2 : content d b = some c) : sameContent same d a b = true := by
  obtain ⟨p, e1, e2⟩ := content_some h1
  obtain ⟨q, e3, e4⟩ := content_some h2
  unfold sameContent
  rw [e1, e3]
  simp only [e2, e4]
  split
  · rfl
  · exact hr c

/-! ## Download -/

/-- **C87.** What is neither in the store nor, for a relative key, in the working directory cannot be
downloaded: the call raises and no path changes. -/
theorem download_missing_refused (same : C → C → Bool) (c : Conf) (d : Disk C) (key : Str) (dest : Path)
    (h1 : ∀ s, resolveKey c key = .ok s → pathExists d (comps s) = false)
    (h2 : pathExists d (comps (abspath c.cwd key)) = false) :
    (∃ e, (download same c d key dest).2 = .error e) ∧ (download same c d key dest).1 = d := by
  have hsrc : ∃ e, downloadSource c d key = .error e := by
    unfold downloadSource
    by_cases ha : key.head? = some '/'
    · rw [if_pos ha, if_neg (by simp [h2])]
      exact ⟨_, rfl⟩
    · rw [if_neg ha]
      cases hr : resolveKey c key with
      | error e => exact ⟨_, rfl⟩
      | ok s =>
        simp only
        rw [if_neg (by simp [h1 s hr]), if_neg (by simp [h2])]
        exact ⟨_, rfl⟩
  obtain ⟨e, he⟩ := hsrc
  unfold download
  rw [he]
  exact ⟨⟨e, rfl⟩, rfl⟩

/-- **C87.** A download that succeeds leaves at the local path exactly the contents the source has; the
source and every other path keep their entries; and the only way it can fail, the source being there, is
that the local path is a directory, in which case nothing changes. (`hs`: different contents have different
digests. `hshort`: the source itself is not at the end of a chain of the longest length the system
follows.) -/
theorem download_delivers {same : C → C → Bool} (hs : ∀ a b, same a b = true → a = b) (d : Disk C)
    (src dest q : Path) (c : C) (hshort : follow d (maxLinks - 1) src = some q) (hq : d q = some (.file c)) :
    ((place same d src dest).2 = .ok () ∧ content (place same d src dest).1 dest = some c ∧
        content (place same d src dest).1 src = some c ∧
        ∀ p, p ≠ dest → (place same d src dest).1 p = d p) ∨
      ((place same d src dest).2 = .error .fileExists ∧ d dest = some .dir ∧ (place same d src dest).1 = d) := by
  have hfull : follow d maxLinks src = some q := follow_mono d q _ _ src hshort (by decide)
  have hc : content d src = some c := content_of hfull hq
  -- after linking `dest` to `src`
  have linked : dest ≠ src → (∀ f', f' ≤ maxLinks → follow d f' dest ≠ some q) →
      content (Function.update d dest (some (.link src))) dest = some c ∧
      content (Function.update d dest (some (.link src))) src = some c := by
    intro hne hno
    have hqd : q ≠ dest := by
      rintro rfl
      apply hno maxLinks (Nat.le_refl _)
      unfold maxLinks
      rw [follow, hq]
    have h1 : follow (Function.update d dest (some (.link src))) (maxLinks - 1) src = some q := by
      rcases follow_update d dest (some (.link src)) q (maxLinks - 1) src hshort with ⟨f', hle, hf⟩ | h
      · exact absurd hf (hno f' (by unfold maxLinks at *; omega))
      · exact h
    have hq' : Function.update d dest (some (.link src)) q = some (.file c) := by
      rw [Function.update_of_ne hqd, hq]
    refine ⟨?_, content_of (follow_mono _ q _ _ src h1 (by decide)) hq'⟩
    refine content_of (q := q) ?_ hq'
    have e : maxLinks = (maxLinks - 1) + 1 := by decide
    rw [e, follow, Function.update_self]
    exact h1
  unfold place
  by_cases h1 : src = dest
  · subst h1
    rw [if_pos rfl]
    exact .inl ⟨rfl, hc, hc, fun _ _ => rfl⟩
  rw [if_neg h1]
  by_cases h2 : (d dest).isSome = true
  · rw [if_pos h2]
    by_cases h3 : isRealDir d dest = true
    · rw [if_pos h3]
      refine .inr ⟨rfl, ?_, rfl⟩
      unfold isRealDir at h3
      split at h3
      · assumption
      · cases h3
    rw [if_neg h3]
    by_cases h4 : sameContent same d src dest = true
    · rw [if_pos h4]
      exact .inl ⟨rfl, by rw [← sameContent_content hs h4, hc], hc, fun _ _ => rfl⟩
    rw [if_neg h4]
    have hno : ∀ f', f' ≤ maxLinks → follow d f' dest ≠ some q := by
      intro f' hle hf
      apply h4
      unfold sameContent
      rw [hfull, follow_mono d q f' maxLinks dest hf hle]
      simp [hq]
    obtain ⟨g1, g2⟩ := linked (fun e => h1 e.symm) hno
    exact .inl ⟨rfl, g1, g2, fun p hp => Function.update_of_ne hp _ _⟩
  · rw [if_neg h2]
    have hd : d dest = none := by simpa using h2
    have hno : ∀ f', f' ≤ maxLinks → follow d f' dest ≠ some q := by
      intro f' hle hf
      cases f' with
      | zero => cases hf
      | succ f' =>
        rw [follow, hd] at hf
        simp at hf
        subst hf
        rw [hq] at hd
        cases hd
    obtain ⟨g1, g2⟩ := linked (fun e => h1 e.symm) hno
    exact .inl ⟨rfl, g1, g2, fun p hp => Function.update_of_ne hp _ _⟩

/-- A disk for the examples: a stored file. -/
def toyDisk : Disk Nat := fun p =>
  if p = [['s'], ['a']] then some (.file 7) else if p = [['s'], ['l']] then some (.link [['s'], ['a']]) else none

example : follow toyDisk (maxLinks - 1) [['s'], ['l']] = some [['s'], ['a']] ∧ toyDisk [['s'], ['a']] = some (.file 7) ∧
    content (place (fun a b => a == b) toyDisk [['s'], ['l']] [['t']]).1 [['t']] = some 7 := by decide

/-! ## Upload -/

/-- **C87.** An upload never overwrites: if the destination holds a file with other contents, it fails and
nothing changes. -/
theorem upload_refuses {same : C → C → Bool} (hs : ∀ a b, same a b = true → a = b) (d : Disk C)
    (source dst : Path) (x y : C) (hne : source ≠ dst) (h1 : content d source = some x) (h2 : content d dst = some y)
    (hxy : x ≠ y) : deliver same d source dst = (d, .error .fileExists) := by
  unfold deliver
  rw [if_neg hne]
  have hd : (d dst).isSome = true := by
    obtain ⟨q, e1, e2⟩ := content_some h2
    cases hd : d dst with
    | some _ => rfl
    | none =>
      exfalso
      have : follow d maxLinks dst = some dst := by
        unfold maxLinks
        rw [follow, hd]
      rw [this] at e1
      cases e1
      rw [hd] at e2
      cases e2
  rw [if_pos hd]
  have h3 : isRealDir d dst = false := by
    cases h : isRealDir d dst with
    | false => rfl
    | true =>
      exfalso
      unfold isRealDir at h
      split at h
      · rename_i hd
        unfold content stat at h2
        have : follow d maxLinks dst = some dst := by
          unfold maxLinks
          rw [follow, hd]
        rw [this] at h2
        simp [hd] at h2
      · cases h
  rw [h3]
  have h4 : sameContent same d source dst = false := by
    cases h : sameContent same d source dst with
    | false => rfl
    | true =>
      have := sameContent_content hs h
      rw [h1, h2] at this
      cases this
      exact absurd rfl hxy
  rw [h4]
  simp

example : content toyDisk [['s'], ['a']] = some 7 ∧
    deliver (fun a b => a == b) (Function.update toyDisk [['t']] (some (.file 8))) [['t']] [['s'], ['a']] =
      (Function.update toyDisk [['t']] (some (.file 8)), .error .fileExists) := by
  refine ⟨by decide, upload_refuses (x := 8) (y := 7) (fun a b h => by simpa using h) _ _ _ (by decide) (by decide) (by decide) (by decide)⟩

/-- **C87.** An upload of a regular file that succeeds leaves the file's contents at the destination, which
was absent, or held the same contents already; no path but the local one and the destination changes.
(A local path that is a symbolic link is excluded: see `upload_self_link_violated`.) -/
theorem upload_delivers_partial {same : C → C → Bool} (hs : ∀ a b, same a b = true → a = b) (d d' : Disk C)
    (source dst : Path) (x : C) (hx : d source = some (.file x)) (h : deliver same d source dst = (d', .ok ())) :
    content d' dst = some x ∧ (d dst = none ∨ content d dst = some x) ∧
      ∀ p, p ≠ source → p ≠ dst → d' p = d p := by
  have hcx : content d source = some x := content_file hx
  unfold deliver at h
  by_cases h1 : source = dst
  · rw [if_pos h1] at h
    subst h1
    simp only [Prod.mk.injEq, and_true] at h
    subst h
    exact ⟨hcx, .inr hcx, fun _ _ _ => rfl⟩
  rw [if_neg h1] at h
  by_cases h2 : (d dst).isSome = true
  · rw [if_pos h2] at h
    by_cases h3 : isRealDir d dst = true
    · rw [if_pos h3] at h
      simp at h
    rw [if_neg h3] at h
    by_cases h4 : sameContent same d source dst = true
    · rw [if_pos h4] at h
      have hcd : content d dst = some x := by rw [← sameContent_content hs h4, hcx]
      by_cases h5 : isLink d dst = true
      · rw [if_pos h5] at h
        simp only [Prod.mk.injEq, and_true] at h
        subst h
        refine ⟨?_, .inr hcd, ?_⟩
        · apply content_file
          simp only [move]
          rw [Function.update_of_ne (fun e => h1 e.symm), Function.update_self, Function.update_of_ne h1, hx]
        · intro p hp1 hp2
          simp only [move]
          rw [Function.update_of_ne hp1, Function.update_of_ne hp2, Function.update_of_ne hp2]
      · rw [if_neg h5] at h
        simp only [Prod.mk.injEq, and_true] at h
        subst h
        refine ⟨?_, .inr hcd, fun p hp1 _ => Function.update_of_ne hp1 _ _⟩
        -- the destination is a regular file itself
        cases hd : d dst with
        | none => rw [hd] at h2; cases h2
        | some en =>
          cases en with
          | dir => exact absurd (by unfold isRealDir; rw [hd]) h3
          | link t => exact absurd (by unfold isLink; rw [hd]) h5
          | file y =>
            have : content d dst = some y := content_file hd
            rw [hcd] at this
            cases this
            apply content_file
            rw [Function.update_of_ne (fun e => h1 e.symm), hd]
    · rw [if_neg h4] at h
      simp at h
  · rw [if_neg h2] at h
    simp only [Prod.mk.injEq, and_true] at h
    subst h
    refine ⟨?_, .inl (by simpa using h2), ?_⟩
    · apply content_file
      simp only [move]
      rw [Function.update_of_ne (fun e => h1 e.symm), Function.update_self, hx]
    · intro p hp1 hp2
      simp only [move]
      rw [Function.update_of_ne hp1, Function.update_of_ne hp2]

example : (Function.update toyDisk [['t']] (some (.file 8)) : Disk Nat) [['t']] = some (.file 8) ∧
    (deliver (fun a b => a == b) (Function.update toyDisk [['t']] (some (.file 8))) [['t']] [['s'], ['b']]).2 = .ok () ∧
    content (deliver (fun a b => a == b) (Function.update toyDisk [['t']] (some (.file 8))) [['t']] [['s'], ['b']]).1
      [['s'], ['b']] = some 8 := by decide

/-! ## Tables through the store -/

/-- A process in directory `/w`, with a store under `/s`. -/
def confA : Conf := { cwd := ['/', 'w'], rootPath := ['/', 's'] }

/-- Another party in the same directory, with its own store under `/r`. -/
def confB : Conf := { cwd := ['/', 'w'], rootPath := ['/', 'r'] }

theorem exists_of_content {d : Disk C} {p : Path} {c : C} (h : content d p = some c) : pathExists d p = true := by
  unfold content at h
  unfold pathExists
  split at h
  · rename_i e; rw [e]; rfl
  · cases h

/-- **C87, round trip.** On a path that neither the store nor the local directory holds yet (relative, not
leading out of the store, its local copy not being the store's file itself), a table written through the
store and then read through it is the table written: the read gives a handle whose file has those contents.
-/
theorem write_read_partial {same : C → C → Bool} (hs : ∀ a b, same a b = true → a = b) (c : Conf) (d : Disk C)
    (path : Str) (s : Str) (x : C) (hrel : path.head? ≠ some '/') (hres : resolveKey c path = .ok s)
    (hne : localPath c path ≠ comps s) (hl : d (localPath c path) = none) (hd : d (comps s) = none) :
    ∃ d' d'' h, tableWrite same c d path x = (d', .ok ()) ∧ content d' (comps s) = some x ∧
      tableRead same c d' path = (d'', .ok h) ∧ content d'' h = some x := by
  have hw : writeFile d (localPath c path) x = (Function.update d (localPath c path) (some (.file x)), .ok ()) := by
    unfold writeFile
    have : follow d maxLinks (localPath c path) = some (localPath c path) := by
      unfold maxLinks
      rw [follow, hl]
    rw [this]
    simp [hl]
  generalize hd1 : Function.update d (localPath c path) (some (Entry.file x)) = d1 at hw
  have h1l : d1 (localPath c path) = some (.file x) := by rw [← hd1, Function.update_self]
  have h1d : d1 (comps s) = none := by rw [← hd1, Function.update_of_ne (fun e => hne e.symm), hd]
  have hup : upload same c d1 (localPath c path) path = (move d1 (localPath c path) (comps s), .ok ()) := by
    unfold upload
    rw [if_neg (by simp [exists_of_content (content_file h1l)])]
    simp only [uploadTarget, if_neg hrel, hres]
    unfold deliver
    rw [if_neg hne, if_neg (by simp [h1d])]
  generalize hd2 : move d1 (localPath c path) (comps s) = d2 at hup
  have h2d : d2 (comps s) = some (.file x) := by
    rw [← hd2]
    simp only [move]
    rw [Function.update_of_ne (fun e => hne e.symm), Function.update_self, h1l]
  have h2l : d2 (localPath c path) = none := by
    rw [← hd2]
    simp only [move]
    rw [Function.update_self]
  have hsrc : downloadSource c d2 path = .ok (comps s) := by
    simp only [downloadSource, if_neg hrel, hres]
    rw [if_pos (exists_of_content (content_file h2d))]
  have hshort : follow d2 (maxLinks - 1) (comps s) = some (comps s) := by
    have e : maxLinks - 1 = 39 + 1 := by decide
    rw [e, follow, h2d]
  have hdl := download_delivers hs d2 (comps s) (localPath c path) (comps s) x hshort h2d
  refine ⟨d2, (place same d2 (comps s) (localPath c path)).1, localPath c path, ?_, content_file h2d, ?_, ?_⟩
  · simp only [tableWrite, hw, hup]
  · rcases hdl with ⟨e1, e2, _, _⟩ | ⟨_, e2, _⟩
    · have hdd : download same c d2 path (localPath c path) =
          ((place same d2 (comps s) (localPath c path)).1, .ok ()) := by
        simp only [download, hsrc]
        rw [← e1]
      simp only [tableRead, hdd]
      rw [if_pos (exists_of_content e2)]
    · rw [h2l] at e2
      cases e2
  · rcases hdl with ⟨_, e2, _, _⟩ | ⟨_, e2, _⟩
    · exact e2
    · rw [h2l] at e2
      cases e2

/-- The hypotheses of `write_read_partial` are met by an empty disk. -/
example : resolveKey confA ['a'] = .ok ['/', 's', '/', 'a'] ∧
    localPath confA ['a'] ≠ comps ['/', 's', '/', 'a'] := by
  decide

/-- The digest comparison of the examples. -/
def eqNat (a b : Nat) : Bool := a == b

/-- The disk of the examples: each of two parties has its own file `a` in its own store. -/
def twoStores : Disk Nat := fun p =>
  if p = [['s'], ['a']] then some (.file 1) else if p = [['r'], ['a']] then some (.file 2) else none

example : (∀ s, resolveKey confA ['z'] = .ok s → pathExists twoStores (comps s) = false) ∧
    pathExists twoStores (comps (abspath confA.cwd ['z'])) = false ∧
    (download eqNat confA twoStores ['z'] [['t']]).2 = .error .fileNotFound := by
  refine ⟨?_, by decide, by decide⟩
  intro s hs
  have : resolveKey confA ['z'] = .ok ['/', 's', '/', 'z'] := by decide
  rw [this] at hs
  cases hs
  decide

/-- **C87 does not hold between parties that share a working directory** (all parties of the in-memory
simulator do, and workers started side by side): the local copy `.tmp/<path>` is one file for all of them, so
when a second party reads its own file of the same name, the first party's table, not yet read, becomes the
second party's (table_impl.py:830-833). -/
theorem cross_party_read_violated :
    let a := tableRead eqNat confA twoStores ['a']
    let b := tableRead eqNat confB a.1 ['a']
    ∃ h, a.2 = .ok h ∧ b.2 = .ok h ∧ content a.1 h = some 1 ∧ content b.1 h = some 2 := by
  refine ⟨[['w'], ['.', 't', 'm', 'p'], ['a']], ?_⟩
  decide

/-- **C87, "no overwrite", does not hold after a read**: the read leaves a link `.tmp/<path>` to the stored
file, the write goes through it, and the upload then finds "the same file" (object_store.py:226-237) and
reports success. Without the read, the same write is refused. -/
theorem write_after_read_violated :
    let r := tableRead eqNat confA twoStores ['a']
    (tableWrite eqNat confA twoStores ['a'] 9).2 = .error .fileExists ∧
      content (tableWrite eqNat confA twoStores ['a'] 9).1 [['s'], ['a']] = some 1 ∧
    (tableWrite eqNat confA r.1 ['a'] 9).2 = .ok () ∧
      content (tableWrite eqNat confA r.1 ['a'] 9).1 [['s'], ['a']] = some 9 := by
  decide

/-- **C87 does not hold between parties for writes either**: a party that writes a file of a name another
party has read overwrites the other party's stored file. -/
theorem cross_party_write_violated :
    let d : Disk Nat := fun p => if p = [['s'], ['a']] then some (.file 1) else none
    let r := tableRead eqNat confA d ['a']
    (tableWrite eqNat confB r.1 ['a'] 9).2 = .ok () ∧
      content (tableWrite eqNat confB r.1 ['a'] 9).1 [['s'], ['a']] = some 9 := by
  decide

/-- **C87 does not hold for a stored file that is a symbolic link** (as the write of another party leaves it):
reading it and writing it again turns the stored entry into a link to itself, and the file can no longer be
read from the store (object_store.py:311-314: the destination link is removed, and the local link, which
points to it, takes its place). -/
theorem upload_self_link_violated :
    let d : Disk Nat := fun p =>
      if p = [['s'], ['a']] then some (.link [['x']]) else if p = [['x']] then some (.file 1) else none
    let r := tableRead eqNat confA d ['a']
    let w := tableWrite eqNat confA r.1 ['a'] 9
    r.2.toOption.isSome ∧ w.2 = .ok () ∧ w.1 [['s'], ['a']] = some (.link [['s'], ['a']]) ∧
      content w.1 [['s'], ['a']] = none := by
  decide

/-- **C87**: the store's own check keeps a relative path inside the store, but the local copy is not checked:
`..` leads out of `.tmp` (here: a write to the path `../a` first overwrites `/w/a`, the user's own file next to
`.tmp`, and only then is refused by the store). -/
theorem local_copy_escapes_violated :
    let d : Disk Nat := fun p => if p = [['w'], ['a']] then some (.file 5) else none
    let w := tableWrite eqNat confA d ['.', '.', '/', 'a'] 9
    w.2 = .error .traversal ∧ content w.1 [['w'], ['a']] = some 9 := by
  decide

end Verif.Store.Transfer
