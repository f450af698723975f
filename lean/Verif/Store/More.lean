import Verif.Store.Props
/-!
# C28 — exactly when a write to the file-system backend succeeds
-/
namespace Verif.Store
variable {V : Type}

/-- a file (readable or not) is stored at this path -/
def isFile (fs : FS V) (p : Path) : Prop := ∃ x, look fs p = some (.file x)

theorem mkdirs_flag (qs : List Path) (fs : FS V) : (mkdirs fs qs).2 = true ↔ ∀ q ∈ qs, ¬ isFile fs q := by
  induction qs generalizing fs with
  | nil => simp [mkdirs]
  | cons q qs ih =>
    simp only [mkdirs]
    cases hl : look fs q with
    | none =>
      simp only
      rw [ih]
      have hq : q ≠ [] := by
        rintro rfl
        simp [look] at hl
      have e : ∀ p, isFile (assign q .dir fs) p ↔ isFile fs p := by
        intro p
        by_cases hp : p = q
        · subst hp
          simp [isFile, look_assign_self hq, hl]
        · simp [isFile, look_assign_ne hp]
      simp only [e, List.mem_cons, forall_eq_or_imp]
      refine ⟨fun h => ⟨?_, h⟩, fun h => h.2⟩
      rintro ⟨x, hx⟩
      rw [hl] at hx; cases hx
    | some n =>
      cases n with
      | file x =>
        simp only [Bool.false_eq_true, false_iff, List.mem_cons, forall_eq_or_imp, not_and]
        intro h
        exact absurd ⟨x, hl⟩ h
      | dir =>
        simp only
        rw [ih]
        simp only [List.mem_cons, forall_eq_or_imp]
        refine ⟨fun h => ⟨?_, h⟩, fun h => h.2⟩
        rintro ⟨x, hx⟩
        rw [hl] at hx; cases hx

theorem look_mkdirs_other (qs : List Path) (fs : FS V) (p : Path) (h : p ∉ qs) : look (mkdirs fs qs).1 p = look fs p := by
  induction qs generalizing fs with
  | nil => rfl
  | cons q qs ih =>
    simp only [List.mem_cons, not_or] at h
    simp only [mkdirs]
    cases hl : look fs q with
    | none => simp only; rw [ih _ h.2, look_assign_ne h.1]
    | some n => cases n with
      | file x => rfl
      | dir => exact ih _ h.2

theorem mem_ancestors (p q : Path) : q ∈ ancestors p ↔ q <+: p ∧ q ≠ p := by
  simp only [ancestors, List.mem_map, List.mem_range]
  constructor
  · rintro ⟨n, hn, rfl⟩
    refine ⟨List.take_prefix _ _, fun e => ?_⟩
    have := congrArg List.length e
    simp at this
    omega
  · rintro ⟨⟨r, rfl⟩, hne⟩
    refine ⟨q.length, ?_, by simp⟩
    rcases r with _ | ⟨x, r⟩
    · simp at hne
    · simp

/-- **C28, when a write succeeds** A `put` to the file-system backend succeeds exactly when the key stays below the root, no
proper ancestor of the file to write is itself a stored file, the path is not a directory, and the value can be pickled; a
write below a stored file fails and leaves the contents of every file as they were. -/
theorem fs_put_succeeds_iff (c : Conf) (fs : FS V) (key : Str) (v : V) (d : Bool) :
    ((fsPut c fs key v d).2 = .ok () ↔
      (∃ path, resolveKey c key = .ok path) ∧ (∀ q, q <+: target c key → q ≠ target c key → ¬ isFile fs q) ∧
        look fs (target c key) ≠ some .dir ∧ d = true) ∧
    (∀ q, (∃ path, resolveKey c key = .ok path) → q <+: target c key → q ≠ target c key → isFile fs q →
      (fsPut c fs key v d).2 = .error .notDirectory ∧ ∀ p, fileVal (fsPut c fs key v d).1 p = fileVal fs p) := by
  have hnot : target c key ∉ ancestors (target c key) := fun h => ((mem_ancestors _ _).mp h).2 rfl
  have hflag := mkdirs_flag (ancestors (target c key)) fs
  have hlook := look_mkdirs_other (ancestors (target c key)) fs _ hnot
  constructor
  · unfold fsPut
    cases hr : resolveKey c key with
    | error e => simp
    | ok path =>
      simp only [resolve_comps hr]
      rcases hk : mkdirs fs (ancestors (target c key)) with ⟨fs', b⟩
      rw [hk] at hflag hlook
      cases b with
      | false =>
        simp only [Bool.false_eq_true, false_iff, reduceCtorEq] at hflag ⊢
        rintro ⟨-, h, -⟩
        exact hflag fun q hq => h q ((mem_ancestors _ _).mp hq).1 ((mem_ancestors _ _).mp hq).2
      | true =>
        simp only [true_iff] at hflag hlook ⊢
        have hA : ∀ q, q <+: target c key → q ≠ target c key → ¬ isFile fs q :=
          fun q h1 h2 => hflag q ((mem_ancestors _ _).mpr ⟨h1, h2⟩)
        rw [← hlook]
        cases hl : look fs' (target c key) with
        | none => cases d <;> simp; exact hA
        | some n => cases n with
          | dir => simp
          | file x => cases d <;> simp; exact hA
  · rintro q ⟨path, hp⟩ h1 h2 hf
    have hb : (mkdirs fs (ancestors (target c key))).2 = false := by
      cases hb : (mkdirs fs (ancestors (target c key))).2 with
      | false => rfl
      | true => exact absurd hf ((hflag.mp hb) q ((mem_ancestors _ _).mpr ⟨h1, h2⟩))
    have he : (fsPut c fs key v d).2 = .error .notDirectory := by
      unfold fsPut
      simp only [hp, resolve_comps hp]
      rcases hk : mkdirs fs (ancestors (target c key)) with ⟨fs', b⟩
      rw [hk] at hb
      subst hb
      rfl
    exact ⟨he, fsPut_err he (by simp)⟩

/-- both cases occur: after writing `a`, writing `b/c` succeeds and writing `a/b` fails -/
example : let c : Conf := ⟨"/w".toList, "store".toList⟩
    let fs := (fsPut c ([] : FS Nat) "a".toList 1 true).1
    (fsPut c fs "b/c".toList 2 true).2 = .ok () ∧ (fsPut c fs "a/b".toList 2 true).2 = .error .notDirectory := by
  decide +kernel

end Verif.Store
