import Verif.Store.Lemmas
/-!
# C28, C29, C30 — the object store
-/
namespace Verif.Store
variable {V : Type}

/-! ## Specification: objects and histories -/

/-- An object is a key of the memory backend or a file (absolute path) of the file-system backend. -/
inductive Loc where
  | mem (key : Str)
  | file (path : Path)
  deriving DecidableEq

/-- The object a URI names: split at the first `://`; the part after it is the memory key, or is walked component by
component from the root directory. `none` when the library rejects the URI. -/
def locOf (c : Conf) (persistent : Bool) (uri : Str) : Option Loc :=
  match partition uri with
  | none => none
  | some (scheme, key) =>
    if scheme = memScheme then some (.mem key)
    else if scheme = fsScheme ∧ persistent = true then
      match resolveKey c key with
      | .ok _ => some (.file (target c key))
      | .error _ => none
    else none

/-- The value held by an object. -/
def valueAt (s : State V) : Loc → Option V
  | .mem k => lookup k s.mem
  | .file p => match s.fs with
    | none => none
    | some fs => match look fs p with
      | some (.file (some v)) => some v
      | _ => none

/-- Dictionaries and directories hold each key once. -/
def WF (s : State V) : Prop := Keys s.mem ∧ ∀ fs, s.fs = some fs → Keys fs

/-- The object a `put` call is about. -/
def putLoc (c : Conf) (s : State V) (uri : Option Str) (uuid : Str) : Option Loc :=
  match uri with
  | none => some (.mem uuid)
  | some u => match resolveUri s u with
    | .ok w => locOf c s.fs.isSome w
    | .error _ => none

/-- What a call that would leave `x` in object `l` does, judged from its outcome: if it returned, that; if it failed
while pickling, the object has no value any more; otherwise nothing. -/
def outcomeEffect {A : Type} (l : Option Loc) (x : Option V) : Except Err A → Option (Loc × Option V)
  | .ok _ => l.map (fun l => (l, x))
  | .error e => if e = .unpicklable then l.map (fun l => (l, none)) else none

/-- What one call does to the objects, judged from the call and its outcome only: a `put` that returns writes its value
to the object it was given, a `put` whose pickling failed leaves that object without a value, a `delete` that returns
leaves its object without a value, and nothing else has an effect. -/
def effect (c : Conf) (s : State V) : Op V → Option (Loc × Option V)
  | .put v uri uuid dumpOk => outcomeEffect (putLoc c s uri uuid) (some v) (put c s v uri uuid dumpOk).2
  | .delete uri => outcomeEffect (locOf c s.fs.isSome uri) none (delete c s uri).2
  | .get _ => none
  | .exists_ _ => none

/-- The effects of a history, in order. -/
def effects (c : Conf) (s : State V) : List (Op V) → List (Loc × Option V)
  | [] => []
  | op :: ops => (effect c s op).toList ++ effects c (exec c s op) ops

/-- A plain map from objects to values, after a list of writes. -/
def replay (m : Loc → Option V) (es : List (Loc × Option V)) : Loc → Option V :=
  es.foldl (fun m e l => if l = e.1 then e.2 else m l) m

/-! ## Auxiliary facts -/

theorem parse_mem {s : State V} {uri key : Str} (h : parseUri s uri = .ok (.mem, key)) (c : Conf) :
    locOf c s.fs.isSome uri = some (.mem key) := by
  unfold parseUri at h; unfold locOf
  cases hp : partition uri with
  | none => simp [hp] at h
  | some r =>
    obtain ⟨a, b⟩ := r
    simp only [hp] at h ⊢
    by_cases h1 : a = memScheme
    · simp only [h1, if_true, Except.ok.injEq, Prod.mk.injEq, true_and] at h ⊢; rw [h]
    · simp only [h1, if_false] at h
      split at h <;> simp at h

theorem parse_fs {s : State V} {uri key : Str} (h : parseUri s uri = .ok (.fs, key)) (c : Conf) :
    s.fs.isSome = true ∧ locOf c s.fs.isSome uri =
      (match resolveKey c key with | .ok _ => some (.file (target c key)) | .error _ => none) := by
  unfold parseUri at h; unfold locOf
  cases hp : partition uri with
  | none => simp [hp] at h
  | some r =>
    obtain ⟨a, b⟩ := r
    simp only [hp] at h ⊢
    by_cases h1 : a = memScheme
    · simp [h1] at h
    · simp only [h1, if_false] at h ⊢
      by_cases h2 : a = fsScheme ∧ s.fs.isSome = true
      · simp only [h2, and_self, if_true, Except.ok.injEq, Prod.mk.injEq, true_and] at h ⊢
        rw [h]
      · simp [h2] at h

theorem parse_err {s : State V} {uri : Str} {e : Err} (h : parseUri s uri = .error e) (c : Conf) :
    locOf c s.fs.isSome uri = none := by
  unfold parseUri at h; unfold locOf
  cases hp : partition uri with
  | none => rfl
  | some r =>
    obtain ⟨a, b⟩ := r
    simp only [hp] at h ⊢
    by_cases h1 : a = memScheme
    · simp [h1] at h
    · simp only [h1, if_false] at h ⊢
      by_cases h2 : a = fsScheme ∧ s.fs.isSome = true
      · simp [h2] at h
      · simp [h2]

theorem partition_fs (u : Str) : partition (fsScheme ++ sep ++ u) = some (fsScheme, u) :=
  partition_scheme u (by decide)
theorem partition_mem (u : Str) : partition (memScheme ++ sep ++ u) = some (memScheme, u) :=
  partition_scheme u (by decide)

theorem locOf_fs (c : Conf) (u : Str) : locOf c true (fsScheme ++ sep ++ u) =
    (match resolveKey c u with | .ok _ => some (.file (target c u)) | .error _ => none) := by
  unfold locOf; rw [partition_fs]
  simp [show fsScheme ≠ memScheme by decide]

theorem locOf_mem (c : Conf) (b : Bool) (u : Str) : locOf c b (memScheme ++ sep ++ u) = some (.mem u) := by
  unfold locOf; rw [partition_mem]; simp

/-! ### The file-system backend refines a map -/

/-- The value of a file. -/
def fileVal (fs : FS V) (p : Path) : Option V :=
  match look fs p with
  | some (.file (some v)) => some v
  | _ => none

theorem fileVal_mkdirs (qs : List Path) (fs : FS V) (p : Path) : fileVal (mkdirs fs qs).1 p = fileVal fs p := by
  unfold fileVal
  rcases look_mkdirs qs fs p with h | h
  · rw [h]
  · simp [h.1, h.2.1]

theorem fsPut_ok {c : Conf} {fs : FS V} {key : Str} {v : V} {d : Bool} (h : (fsPut c fs key v d).2 = .ok ()) :
    (∃ path, resolveKey c key = .ok path) ∧
    ∀ p, fileVal (fsPut c fs key v d).1 p = if p = target c key then some v else fileVal fs p := by
  unfold fsPut at h ⊢
  cases hr : resolveKey c key with
  | error e => simp [hr] at h
  | ok path =>
    refine ⟨⟨path, rfl⟩, ?_⟩
    simp only [hr, resolve_comps hr] at h ⊢
    have hm := fun p => fileVal_mkdirs (ancestors (target c key)) fs p
    rcases hk : mkdirs fs (ancestors (target c key)) with ⟨fs', b⟩
    rw [hk] at h hm
    cases b with
    | false => simp at h
    | true =>
      simp only at h hm ⊢
      have hd : look fs' (target c key) ≠ some .dir := by
        intro hd; rw [hd] at h; simp at h
      have hne : target c key ≠ [] := fun h0 => hd (by rw [h0]; rfl)
      have hdo : d = true := by
        cases d with
        | true => rfl
        | false =>
          cases hl : look fs' (target c key) with
          | none => rw [hl] at h; simp at h
          | some n => cases n with
            | dir => exact absurd hl hd
            | file x => rw [hl] at h; simp at h
      subst hdo
      intro p
      have hgoal : fileVal (assign (target c key) (.file (some v)) fs') p
          = if p = target c key then some v else fileVal fs p := by
        by_cases hp : p = target c key
        · rw [if_pos hp, hp]; unfold fileVal; rw [look_assign_self hne]
        · rw [if_neg hp, ← hm p]; unfold fileVal; rw [look_assign_ne hp]
      cases hl : look fs' (target c key) with
      | none => simpa using hgoal
      | some n => cases n with
        | dir => exact absurd hl hd
        | file x => simpa using hgoal

theorem fsPut_unpicklable {c : Conf} {fs : FS V} {key : Str} {v : V} {d : Bool}
    (h : (fsPut c fs key v d).2 = .error .unpicklable) :
    (∃ path, resolveKey c key = .ok path) ∧
    ∀ p, fileVal (fsPut c fs key v d).1 p = if p = target c key then none else fileVal fs p := by
  unfold fsPut at h ⊢
  cases hr : resolveKey c key with
  | error e =>
    rw [resolve_eq] at hr
    split at hr
    · simp at hr
    · simp only [Except.error.injEq] at hr; subst hr; simp [resolve_eq] at h
      split at h <;> simp_all
  | ok path =>
    refine ⟨⟨path, rfl⟩, ?_⟩
    simp only [hr, resolve_comps hr] at h ⊢
    have hm := fun p => fileVal_mkdirs (ancestors (target c key)) fs p
    rcases hk : mkdirs fs (ancestors (target c key)) with ⟨fs', b⟩
    rw [hk] at h hm
    cases b with
    | false => simp at h
    | true =>
      simp only at h hm ⊢
      have hd : look fs' (target c key) ≠ some .dir := by
        intro hd; rw [hd] at h; simp at h
      have hne : target c key ≠ [] := fun h0 => hd (by rw [h0]; rfl)
      have hdo : d = false := by
        cases d with
        | false => rfl
        | true =>
          cases hl : look fs' (target c key) with
          | none => rw [hl] at h; simp at h
          | some n => cases n with
            | dir => exact absurd hl hd
            | file x => rw [hl] at h; simp at h
      subst hdo
      intro p
      have hgoal : fileVal (assign (target c key) (.file none) fs') p
          = if p = target c key then none else fileVal fs p := by
        by_cases hp : p = target c key
        · rw [if_pos hp, hp]; unfold fileVal; rw [look_assign_self hne]
        · rw [if_neg hp, ← hm p]; unfold fileVal; rw [look_assign_ne hp]
      cases hl : look fs' (target c key) with
      | none => simpa using hgoal
      | some n => cases n with
        | dir => exact absurd hl hd
        | file x => simpa using hgoal

theorem fsPut_err {c : Conf} {fs : FS V} {key : Str} {v : V} {d : Bool} {e : Err}
    (h : (fsPut c fs key v d).2 = .error e) (he : e ≠ .unpicklable) :
    ∀ p, fileVal (fsPut c fs key v d).1 p = fileVal fs p := by
  unfold fsPut at h ⊢
  cases hr : resolveKey c key with
  | error e => intro p; rfl
  | ok path =>
    simp only [hr] at h ⊢
    have hm := fun p => fileVal_mkdirs (ancestors (comps path)) fs p
    rcases hk : mkdirs fs (ancestors (comps path)) with ⟨fs', b⟩
    rw [hk] at h hm
    cases b with
    | false => exact hm
    | true =>
      simp only at h hm ⊢
      cases hl : look fs' (comps path) with
      | none => rw [hl] at h; cases d <;> simp at h; exact absurd h.symm he
      | some n => cases n with
        | dir => exact hm
        | file x => rw [hl] at h; cases d <;> simp at h; exact absurd h.symm he

theorem fsDelete_ok {c : Conf} {fs : FS V} {key : Str} (hk : Keys fs) (h : (fsDelete c fs key).2 = .ok ()) :
    (∃ path, resolveKey c key = .ok path) ∧
    (∀ p, fileVal (fsDelete c fs key).1 p = if p = target c key then none else fileVal fs p) ∧
    look (fsDelete c fs key).1 (target c key) = none := by
  unfold fsDelete at h ⊢
  cases hr : resolveKey c key with
  | error e => simp [hr] at h
  | ok path =>
    refine ⟨⟨path, rfl⟩, ?_⟩
    simp only [hr, resolve_comps hr] at h ⊢
    cases hl : look fs (target c key) with
    | none =>
      simp only
      refine ⟨fun p => ?_, hl⟩
      by_cases hp : p = target c key
      · rw [if_pos hp, hp]; unfold fileVal; rw [hl]
      · rw [if_neg hp]
    | some n => cases n with
      | dir => rw [hl] at h; simp at h
      | file x =>
        simp only
        have hne : target c key ≠ [] := fun h0 => by rw [h0] at hl; simp [look] at hl
        have hnone : look (remove (target c key) fs) (target c key) = none := by
          simp [look, hne, lookup_remove_self hk]
        refine ⟨fun p => ?_, hnone⟩
        by_cases hp : p = target c key
        · rw [if_pos hp, hp]; unfold fileVal; rw [hnone]
        · rw [if_neg hp]; unfold fileVal; rw [look_remove_ne hp]

theorem fsDelete_err {c : Conf} {fs : FS V} {key : Str} {e : Err} (h : (fsDelete c fs key).2 = .error e) :
    (fsDelete c fs key).1 = fs := by
  unfold fsDelete at h ⊢
  cases hr : resolveKey c key with
  | error e => rfl
  | ok path =>
    simp only [hr] at h ⊢
    cases hl : look fs (comps path) with
    | none => rfl
    | some n => cases n with
      | dir => rfl
      | file x => rw [hl] at h; simp at h

theorem fsPut_keys {c : Conf} {fs : FS V} {key : Str} {v : V} {d : Bool} (h : Keys fs) :
    Keys (fsPut c fs key v d).1 := by
  unfold fsPut
  cases hr : resolveKey c key with
  | error e => exact h
  | ok path =>
    simp only
    have := mkdirs_keys (ancestors (comps path)) fs h
    rcases hk : mkdirs fs (ancestors (comps path)) with ⟨fs', b⟩
    rw [hk] at this
    cases b with
    | false => exact this
    | true =>
      simp only
      cases hl : look fs' (comps path) with
      | none => exact this.assign
      | some n => cases n with
        | dir => exact this
        | file x => exact this.assign

theorem fsDelete_keys {c : Conf} {fs : FS V} {key : Str} (h : Keys fs) : Keys (fsDelete c fs key).1 := by
  unfold fsDelete
  cases hr : resolveKey c key with
  | error e => exact h
  | ok path =>
    simp only
    cases hl : look fs (comps path) with
    | none => exact h
    | some n => cases n with
      | dir => exact h
      | file x => exact h.remove

/-! ### One call -/

theorem backendPut_fsSome (c : Conf) (s : State V) (b : Backend) (k : Str) (v : V) (d : Bool) :
    (backendPut c s b k v d).1.fs.isSome = s.fs.isSome := by
  cases b with
  | mem => rfl
  | fs => unfold backendPut; cases h : s.fs <;> simp [h]

theorem backendPut_wf {c : Conf} {s : State V} (b : Backend) (k : Str) (v : V) (d : Bool) (h : WF s) :
    WF (backendPut c s b k v d).1 := by
  cases b with
  | mem => exact ⟨h.1.assign, h.2⟩
  | fs =>
    unfold backendPut
    cases hf : s.fs with
    | none => exact h
    | some fs =>
      refine ⟨h.1, ?_⟩
      intro fs' hfs
      simp only [Option.some.injEq] at hfs
      rw [← hfs]; exact fsPut_keys (h.2 fs hf)

theorem exec_fsSome (c : Conf) (s : State V) (op : Op V) : (exec c s op).fs.isSome = s.fs.isSome := by
  cases op with
  | get u => rfl
  | exists_ u => rfl
  | put v uri uuid d =>
    show (put c s v uri uuid d).1.fs.isSome = _
    unfold put
    cases uri with
    | none => rfl
    | some u =>
      simp only
      cases hp : partition u with
      | none => 
        simp only
        split
        · rfl
        · exact backendPut_fsSome ..
      | some r =>
        simp only
        cases hq : parseUri s u with
        | error e => rfl
        | ok r => exact backendPut_fsSome ..
  | delete u =>
    show (delete c s u).1.fs.isSome = _
    unfold delete
    cases hq : parseUri s u with
    | error e => rfl
    | ok r =>
      obtain ⟨b, k⟩ := r
      cases b with
      | mem => rfl
      | fs => cases h : s.fs <;> simp [h]

theorem exec_wf {c : Conf} {s : State V} (op : Op V) (h : WF s) : WF (exec c s op) := by
  cases op with
  | get u => exact h
  | exists_ u => exact h
  | put v uri uuid d =>
    show WF (put c s v uri uuid d).1
    unfold put
    cases uri with
    | none => exact ⟨h.1.assign, h.2⟩
    | some u =>
      simp only
      cases hp : partition u with
      | none => 
        simp only
        split
        · exact h
        · exact backendPut_wf _ _ _ _ h
      | some r =>
        simp only
        cases hq : parseUri s u with
        | error e => exact h
        | ok r => exact backendPut_wf _ _ _ _ h
  | delete u =>
    show WF (delete c s u).1
    unfold delete
    cases hq : parseUri s u with
    | error e => exact h
    | ok r =>
      obtain ⟨b, k⟩ := r
      cases b with
      | mem => exact ⟨h.1.remove, h.2⟩
      | fs =>
        cases hf : s.fs with
        | none => simpa using h
        | some fs =>
          refine ⟨h.1, ?_⟩
          intro fs' hfs
          simp only [Option.some.injEq] at hfs
          rw [← hfs]; exact fsDelete_keys (h.2 fs hf)

theorem run_wf {c : Conf} (ops : List (Op V)) {s : State V} (h : WF s) : WF (run c s ops) := by
  induction ops generalizing s with
  | nil => exact h
  | cons op ops ih => exact ih (exec_wf op h)

theorem run_fsSome (c : Conf) (ops : List (Op V)) (s : State V) : (run c s ops).fs.isSome = s.fs.isSome := by
  induction ops generalizing s with
  | nil => rfl
  | cons op ops ih => exact (ih (exec c s op)).trans (exec_fsSome c s op)

theorem valueAt_file (s : State V) (fs : FS V) (h : s.fs = some fs) (p : Path) :
    valueAt s (.file p) = fileVal fs p := by
  unfold valueAt fileVal; rw [h]

/-- The object a backend's key names, without the traversal check. -/
def keyLoc (c : Conf) (k : Str) : Backend → Loc
  | .mem => .mem k
  | .fs => .file (target c k)

theorem replay_nil (m : Loc → Option V) (l : Loc) : replay m [] l = m l := rfl
theorem replay_one (m : Loc → Option V) (e : Loc × Option V) (l : Loc) :
    replay m [e] l = if l = e.1 then e.2 else m l := rfl

/-- `backend.put` in terms of objects. -/
theorem backendPut_effect {c : Conf} {s : State V} (b : Backend) (k : Str) (v : V) (d : Bool)
    (hb : b = .fs → s.fs.isSome = true) :
    (∀ x, valueAt (backendPut c s b k v d).1 x =
      replay (valueAt s) (outcomeEffect (some (keyLoc c k b)) (some v) (backendPut c s b k v d).2).toList x) ∧
    ((backendPut c s b k v d).2 = .ok () ∨ (backendPut c s b k v d).2 = .error .unpicklable →
      b = .fs → ∃ path, resolveKey c k = .ok path) := by
  cases b with
  | mem =>
    refine ⟨fun x => ?_, fun _ h => by simp at h⟩
    simp only [backendPut, outcomeEffect, Option.map_some, Option.toList_some, replay_one, keyLoc]
    cases x with
    | mem k' =>
      by_cases h : k' = k
      · subst h; simp [valueAt, lookup_assign_self]
      · simp [valueAt, lookup_assign_ne h, h]
    | file p => simp [valueAt]
  | fs =>
    obtain ⟨fs, hf⟩ := Option.isSome_iff_exists.1 (hb rfl)
    have e1 : backendPut c s .fs k v d = ({ s with fs := some (fsPut c fs k v d).1 }, (fsPut c fs k v d).2) := by
      unfold backendPut; rw [hf]
    rw [e1]
    constructor
    · intro x
      cases hr : (fsPut c fs k v d).2 with
      | ok u =>
        simp only [outcomeEffect, Option.map_some, Option.toList_some, replay_one, keyLoc]
        cases x with
        | mem k' => simp [valueAt]
        | file p =>
          rw [valueAt_file _ _ rfl, (fsPut_ok hr).2 p, valueAt_file s fs hf]
          simp
      | error e =>
        by_cases he : e = .unpicklable
        · subst he
          simp only [outcomeEffect, if_true, Option.map_some, Option.toList_some, replay_one, keyLoc]
          cases x with
          | mem k' => simp [valueAt]
          | file p =>
            rw [valueAt_file _ _ rfl, (fsPut_unpicklable hr).2 p, valueAt_file s fs hf]
            simp
        · simp only [outcomeEffect, if_neg he, Option.toList_none, replay_nil]
          cases x with
          | mem k' => simp [valueAt]
          | file p => rw [valueAt_file _ _ rfl, fsPut_err hr he p, valueAt_file s fs hf]
    · rintro (h | h) _
      · exact (fsPut_ok h).1
      · exact (fsPut_unpicklable h).1

/-- A `put` is one of: into memory; through a backend; or rejected before any backend is reached. -/
theorem put_cases (c : Conf) (s : State V) (v : V) (uri : Option Str) (uuid : Str) (d : Bool) :
    (∃ b k u, (b = .fs → s.fs.isSome = true) ∧
      put c s v uri uuid d = ((backendPut c s b k v d).1, (backendPut c s b k v d).2.map (fun _ => u)) ∧
      locOf c s.fs.isSome u = (match b with
        | .mem => some (.mem k)
        | .fs => (match resolveKey c k with | .ok _ => some (.file (target c k)) | .error _ => none)) ∧
      putLoc c s uri uuid = locOf c s.fs.isSome u) ∨
    (∃ e, put c s v uri uuid d = (s, .error e) ∧ e ≠ .unpicklable) := by
  cases uri with
  | none => exact Or.inl ⟨.mem, uuid, memScheme ++ sep ++ uuid, by simp, rfl, locOf_mem .., (locOf_mem ..).symm⟩
  | some u =>
    cases hp : partition u with
    | none =>
      by_cases hn : s.fs.isNone = true
      · exact Or.inr ⟨.noPersistent, by unfold put; simp only [hp, hn, if_true], by simp⟩
      · have hs : s.fs.isSome = true := by cases h : s.fs <;> simp_all
        refine Or.inl ⟨.fs, u, fsScheme ++ sep ++ u, fun _ => hs, by unfold put; simp only [hp, if_neg hn], ?_, ?_⟩
        · rw [hs]; exact locOf_fs c u
        · simp only [putLoc, resolveUri, hp, if_neg hn]
    | some r =>
      cases hq : parseUri s u with
      | error e =>
        refine Or.inr ⟨e, by unfold put; simp only [hp, hq], ?_⟩
        rintro rfl
        unfold parseUri at hq
        rw [hp] at hq
        simp only at hq
        split at hq
        · simp at hq
        · split at hq <;> simp at hq
      | ok bk =>
        obtain ⟨b, key⟩ := bk
        refine Or.inl ⟨b, key, u, fun hb => by subst hb; exact (parse_fs hq c).1,
          by unfold put; simp only [hp, hq], ?_, by simp only [putLoc, resolveUri, hp]⟩
        cases b with
        | mem => exact parse_mem hq c
        | fs => exact (parse_fs hq c).2

theorem exec_effect {c : Conf} {s : State V} (hw : WF s) (op : Op V) (l : Loc) :
    valueAt (exec c s op) l = replay (valueAt s) (effect c s op).toList l := by
  cases op with
  | get u => rfl
  | exists_ u => rfl
  | put v uri uuid d =>
    show valueAt (put c s v uri uuid d).1 l = replay (valueAt s)
      (outcomeEffect (putLoc c s uri uuid) (some v) (put c s v uri uuid d).2).toList l
    rcases put_cases c s v uri uuid d with ⟨b, k, u, hb, e1, hloc, hpl⟩ | ⟨e, e1, he⟩
    · rw [e1, hpl, hloc]
      obtain ⟨h1, h2⟩ := backendPut_effect (c := c) b k v d hb
      rw [h1 l]
      cases b with
      | mem => rfl
      | fs =>
        cases hr : (backendPut c s .fs k v d).2 with
        | ok x =>
          obtain ⟨path, hpath⟩ := h2 (Or.inl (by rw [hr])) rfl
          simp [Except.map, hpath, outcomeEffect, keyLoc]
        | error e =>
          by_cases he : e = .unpicklable
          · subst he
            obtain ⟨path, hpath⟩ := h2 (Or.inr (by rw [hr])) rfl
            simp [Except.map, hpath, outcomeEffect, keyLoc]
          · simp [Except.map, outcomeEffect, he]
    · rw [e1]; simp [outcomeEffect, he, replay_nil]
  | delete u =>
    show valueAt (delete c s u).1 l = replay (valueAt s)
      (outcomeEffect (locOf c s.fs.isSome u) none (delete c s u).2).toList l
    unfold delete
    cases hq : parseUri s u with
    | error e =>
      simp only [parse_err hq c, outcomeEffect]
      split <;> simp [replay_nil]
    | ok bk =>
      obtain ⟨b, key⟩ := bk
      cases b with
      | mem =>
        simp only [parse_mem hq c, outcomeEffect, Option.map_some, Option.toList_some, replay_one]
        cases l with
        | mem k' =>
          by_cases h : k' = key
          · subst h; simp [valueAt, lookup_remove_self hw.1]
          · simp [valueAt, lookup_remove_ne h, h]
        | file p => simp [valueAt]
      | fs =>
        obtain ⟨hs, hloc⟩ := parse_fs hq c
        obtain ⟨fs, hf⟩ := Option.isSome_iff_exists.1 hs
        rw [hloc]
        simp only [hf]
        cases hr : (fsDelete c fs key).2 with
        | ok x =>
          obtain ⟨⟨path, hpath⟩, h2, _⟩ := fsDelete_ok (hw.2 fs hf) hr
          simp only [hpath, outcomeEffect, Option.map_some, Option.toList_some, replay_one]
          cases l with
          | mem k' => simp [valueAt]
          | file p =>
            rw [valueAt_file _ _ rfl, h2 p, valueAt_file s fs hf]
            simp
        | error e =>
          have he : e ≠ .unpicklable := by
            rintro rfl
            unfold fsDelete at hr
            cases hk : resolveKey c key with
            | error e =>
              rw [hk] at hr; simp only [Except.error.injEq] at hr
              rw [resolve_eq] at hk
              split at hk
              · simp at hk
              · simp [hr] at hk
            | ok path =>
              rw [hk] at hr
              simp only at hr
              cases hl : look fs (comps path) with
              | none => rw [hl] at hr; simp at hr
              | some n => cases n <;> (rw [hl] at hr; simp at hr)
          rw [fsDelete_err hr]
          simp only [outcomeEffect, if_neg he, Option.toList_none, replay_nil]
          cases l with
          | mem k' => rfl
          | file p => rw [valueAt_file _ _ rfl, valueAt_file s fs hf]

/-! ## C28 -/

/-- **C28.** For every history of calls on a store, starting from any state, what each object holds is what a plain map
holds after the history's effects in order: each `put` that returned writes its own object, each `delete` that returned
clears its own object, and no call touches any other object, of the same or the other backend. -/
theorem history (c : Conf) (s : State V) (hw : WF s) (ops : List (Op V)) (l : Loc) :
    valueAt (run c s ops) l = replay (valueAt s) (effects c s ops) l := by
  induction ops generalizing s with
  | nil => rfl
  | cons op ops ih =>
    show valueAt (run c (exec c s op) ops) l = _
    rw [ih (exec c s op) (exec_wf op hw)]
    simp only [effects, replay, List.foldl_append]
    have : valueAt (exec c s op) = replay (valueAt s) (effect c s op).toList := funext (exec_effect hw op)
    rw [this]; rfl

/-- Reading a URI gives the value of the object it names, and fails exactly when there is none. -/
theorem get_iff (c : Conf) (s : State V) (uri : Str) (v : V) :
    get c s uri = .ok v ↔ ∃ l, locOf c s.fs.isSome uri = some l ∧ valueAt s l = some v := by
  unfold get
  cases hq : parseUri s uri with
  | error e => simp [parse_err hq c]
  | ok bk =>
    obtain ⟨b, key⟩ := bk
    cases b with
    | mem =>
      simp only [parse_mem hq c, Option.some.injEq, exists_eq_left', valueAt]
      cases hl : lookup key s.mem <;> simp
    | fs =>
      obtain ⟨hs, hloc⟩ := parse_fs hq c
      obtain ⟨fs, hf⟩ := Option.isSome_iff_exists.1 hs
      rw [hloc]
      simp only [hf]
      unfold fsGet
      cases hr : resolveKey c key with
      | error e => simp
      | ok path =>
        simp only [Option.some.injEq, exists_eq_left', resolve_comps hr, valueAt_file s fs hf, fileVal]
        cases hl : look fs (target c key) with
        | none => simp
        | some n => cases n with
          | dir => simp
          | file x => cases x <;> simp

theorem put_loc {c : Conf} {s : State V} {v : V} {uri : Option Str} {uuid : Str} {d : Bool} {u : Str}
    (h : (put c s v uri uuid d).2 = .ok u) :
    ∃ l, locOf c s.fs.isSome u = some l ∧ putLoc c s uri uuid = some l := by
  rcases put_cases c s v uri uuid d with ⟨b, k, w, hb, e1, hloc, hpl⟩ | ⟨e, e1, he⟩
  · rw [e1] at h
    obtain ⟨h1, h2⟩ := backendPut_effect (c := c) b k v d hb
    cases hr : (backendPut c s b k v d).2 with
    | error e => rw [hr] at h; simp [Except.map] at h
    | ok x =>
      rw [hr] at h
      simp only [Except.map, Except.ok.injEq] at h
      subst h
      rw [hpl, hloc]
      cases b with
      | mem => exact ⟨_, rfl, rfl⟩
      | fs =>
        obtain ⟨path, hpath⟩ := h2 (Or.inl (by rw [hr])) rfl
        rw [hpath]; exact ⟨_, rfl, rfl⟩
  · rw [e1] at h; simp at h

/-- **C28.** A value put is read back from the URI that `put` returned — immediately, and after any further calls none
of which has an effect on that object. -/
theorem get_put (c : Conf) (s : State V) (hw : WF s) (v : V) (uri : Option Str) (uuid : Str) (d : Bool) (u : Str)
    (h : (put c s v uri uuid d).2 = .ok u) (ops : List (Op V))
    (hops : ∀ e ∈ effects c (exec c s (.put v uri uuid d)) ops, some e.1 ≠ locOf c s.fs.isSome u) :
    get c (run c (exec c s (.put v uri uuid d)) ops) u = .ok v := by
  obtain ⟨l, hl, hl'⟩ := put_loc h
  rw [get_iff]
  refine ⟨l, ?_, ?_⟩
  · rw [run_fsSome, exec_fsSome]; exact hl
  · rw [history c _ (exec_wf _ hw)]
    have h0 : valueAt (exec c s (.put v uri uuid d)) l = some v := by
      rw [exec_effect hw]
      simp [effect, outcomeEffect, h, hl', replay]
    have hfold : ∀ (es : List (Loc × Option V)) (m : Loc → Option V), (∀ e ∈ es, e.1 ≠ l) →
        replay m es l = m l := by
      intro es
      induction es with
      | nil => intros; rfl
      | cons e es ih =>
        intro m he
        show replay _ es l = _
        rw [ih _ (fun e' h' => he e' (by simp [h']))]
        simp [Ne.symm (he e (by simp))]
    rw [hfold _ _ (fun e he hel => hops e he (by rw [hl, hel])), h0]

/-- **C28.** After a `delete` that returned, the object is gone: reading it raises and `exists` is false. -/
theorem get_delete (c : Conf) (s : State V) (hw : WF s) (uri : Str) (h : (delete c s uri).2 = .ok ()) :
    get c (delete c s uri).1 uri = .error .keyError ∧ exists' c (delete c s uri).1 uri = .ok false := by
  unfold delete at h ⊢
  cases hq : parseUri s uri with
  | error e => rw [hq] at h; simp at h
  | ok bk =>
    obtain ⟨b, key⟩ := bk
    rw [hq] at h
    have hpp : ∀ s' : State V, s'.fs.isSome = s.fs.isSome → parseUri s' uri = parseUri s uri := by
      intro s' hs'; unfold parseUri; rw [hs']
    cases b with
    | mem =>
      simp only
      have := hpp { s with mem := remove key s.mem } rfl
      unfold get exists'
      rw [this, hq]
      simp [lookup_remove_self hw.1]
    | fs =>
      obtain ⟨fs, hf⟩ := Option.isSome_iff_exists.1 (parse_fs hq c).1
      simp only [hf] at h ⊢
      have := hpp { s with fs := some (fsDelete c fs key).1 } (by simp [hf])
      unfold get exists'
      rw [this, hq]
      obtain ⟨⟨path, hpath⟩, _, h3⟩ := fsDelete_ok (hw.2 fs hf) h
      simp [fsGet, fsExists, hpath, resolve_comps hpath, h3]

/-- `store.load` reads what `store.save` saved under the same name. -/
theorem load_save (c : Conf) (s : State V) (hw : WF s) (v w : V) (u : Str) (d : Bool)
    (h : (save c s v u d).2 = .ok w) : w = v ∧ load c (save c s v u d).1 u = .ok v := by
  unfold save at h ⊢
  cases hr : (put c s v (some u) [] d).2 with
  | error e => rw [hr] at h; simp [Except.map] at h
  | ok x =>
    rw [hr] at h
    simp only [Except.map, Except.ok.injEq] at h
    refine ⟨h.symm, ?_⟩
    have hg := get_put c s hw v (some u) [] d x hr [] (by simp [effects])
    have hsome := exec_fsSome c s (.put v (some u) [] d)
    simp only [exec] at hsome
    simp only [load, resolveUri]
    simp only [run, List.foldl_nil, exec] at hg
    cases hp : partition u with
    | some r =>
      have : x = u := by
        unfold put at hr
        simp only [hp] at hr
        cases hq : parseUri s u with
        | error e => rw [hq] at hr; simp at hr
        | ok bk =>
          rw [hq] at hr
          simp only at hr
          cases hb : (backendPut c s bk.1 bk.2 v d).2 with
          | error e => rw [hb] at hr; simp [Except.map] at hr
          | ok y => rw [hb] at hr; simp only [Except.map, Except.ok.injEq] at hr; exact hr.symm
      simp only; rw [this] at hg; exact hg
    | none =>
      by_cases hn : s.fs.isNone = true
      · unfold put at hr; simp [hp, hn] at hr
      · have hn' : ¬ (put c s v (some u) [] d).1.fs.isNone = true := by
          intro hc
          cases h1 : (put c s v (some u) [] d).1.fs with
          | none => rw [h1] at hsome; cases h2 : s.fs <;> simp_all
          | some z => rw [h1] at hc; simp at hc
        have : x = fsScheme ++ sep ++ u := by
          unfold put at hr
          simp only [hp, if_neg hn] at hr
          cases hb : (backendPut c s .fs u v d).2 with
          | error e => rw [hb] at hr; simp [Except.map] at hr
          | ok y => rw [hb] at hr; simp only [Except.map, Except.ok.injEq] at hr; exact hr.symm
        simp only [if_neg hn']
        rw [← this]; exact hg

/-! ### A concrete store -/

deriving instance DecidableEq for Except

def conf : Conf := { cwd := "/home/u".toList, rootPath := "d/node1".toList }
def empty : State Nat := { mem := [], fs := some [] }
theorem empty_wf : WF empty := ⟨by simp [Keys, empty], by simp [Keys, empty]⟩

/-- Several puts, an overwrite, a delete and reads, over both backends. -/
example : let ops : List (Op Nat) := [.put 1 (some "fs://a/b".toList) [] true, .put 2 (some "mem://a/b".toList) [] true,
      .put 3 (some "a/b".toList) [] true, .put 4 (some "fs://a/c".toList) [] true, .delete "fs://a/c".toList,
      .put 5 none "u1".toList true]
    get conf (run conf empty ops) "fs://a/b".toList = .ok 3 ∧ get conf (run conf empty ops) "mem://a/b".toList = .ok 2 ∧
    get conf (run conf empty ops) "fs://a/c".toList = .error .keyError ∧
    get conf (run conf empty ops) "mem://u1".toList = .ok 5 := by
  intro ops; decide

/-- **C28, violated** (object_store.py:189-191): a `put` that raises while pickling destroys the value stored before. -/
theorem failed_put_keeps_old_value_violated :
    get conf (run conf empty [.put 1 (some "fs://a".toList) [] true]) "fs://a".toList = .ok 1 ∧
    get conf (run conf empty [.put 1 (some "fs://a".toList) [] true, .put 2 (some "fs://a".toList) [] false])
      "fs://a".toList = .error .corrupt := by decide

/-- **C28, violated**: two different URIs can name one object, so a `put` under one changes the other. -/
theorem distinct_uris_independent_violated :
    get conf (run conf empty [.put 1 (some "fs://a/b".toList) [] true, .put 2 (some "fs://a//b".toList) [] true])
      "fs://a/b".toList = .ok 2 := by decide

/-- **C28, violated**: after storing `a/b`, `exists` reports that `a` exists although it was never stored and cannot be
read. -/
theorem exists_iff_stored_violated :
    exists' conf (run conf empty [.put 1 (some "fs://a/b".toList) [] true]) "fs://a".toList = .ok true ∧
    get conf (run conf empty [.put 1 (some "fs://a/b".toList) [] true]) "fs://a".toList = .error .isDirectory := by
  decide

/-- In the memory backend `exists` is exactly "can be read". -/
theorem exists_mem (c : Conf) (s : State V) (key : Str) :
    exists' c s (memScheme ++ sep ++ key) = .ok true ↔ ∃ v, get c s (memScheme ++ sep ++ key) = .ok v := by
  have : parseUri s (memScheme ++ sep ++ key) = .ok (.mem, key) := by
    unfold parseUri; rw [partition_mem]; simp
  unfold exists' get
  rw [this]
  cases h : lookup key s.mem <;> simp [h]

/-- `put` into the memory backend never fails. -/
theorem put_mem_ok (c : Conf) (s : State V) (v : V) (key uuid : Str) (d : Bool) :
    (put c s v (some (memScheme ++ sep ++ key)) uuid d).2 = .ok (memScheme ++ sep ++ key) := by
  have : parseUri s (memScheme ++ sep ++ key) = .ok (.mem, key) := by
    unfold parseUri; rw [partition_mem]; simp
  unfold put
  simp only [partition_mem, this]
  rfl

/-! ### `list_keys` -/

/-- Every path in the file system is written with proper components. -/
def FSProper (fs : FS V) : Prop := ∀ e ∈ fs, ∀ x ∈ e.1, Proper x

theorem mem_assign {K A : Type} [DecidableEq K] {k : K} {v : A} {l : List (K × A)} {e : K × A}
    (h : e ∈ assign k v l) : e.1 = k ∨ e ∈ l := by
  induction l with
  | nil => simp [assign] at h; simp [h]
  | cons a l ih =>
    obtain ⟨a, w⟩ := a
    by_cases h1 : a = k
    · simp only [assign, h1, if_true, List.mem_cons] at h
      rcases h with h | h
      · simp [h]
      · exact Or.inr (by simp [h])
    · simp only [assign, h1, if_false, List.mem_cons] at h
      rcases h with h | h
      · exact Or.inr (by simp [h])
      · rcases ih h with h | h
        · exact Or.inl h
        · exact Or.inr (by simp [h])

theorem mem_of_mem_remove {K A : Type} [DecidableEq K] {k : K} {l : List (K × A)} {e : K × A}
    (h : e ∈ remove k l) : e ∈ l := by
  induction l with
  | nil => exact h
  | cons a l ih =>
    obtain ⟨a, w⟩ := a
    by_cases h1 : a = k
    · simp only [remove, h1, if_true] at h; exact List.mem_cons_of_mem _ h
    · simp only [remove, h1, if_false, List.mem_cons] at h
      exact List.mem_cons.2 (h.imp id ih)

theorem mkdirs_proper (qs : List Path) (fs : FS V) (hq : ∀ q ∈ qs, ∀ x ∈ q, Proper x) (h : FSProper fs) :
    FSProper (mkdirs fs qs).1 := by
  induction qs generalizing fs with
  | nil => exact h
  | cons q qs ih =>
    unfold mkdirs
    have hqs : ∀ q ∈ qs, ∀ x ∈ q, Proper x := fun q hm => hq q (by simp [hm])
    cases hl : look fs q with
    | none =>
      refine ih _ hqs ?_
      intro e he
      rcases mem_assign he with h1 | h1
      · rw [h1]; exact hq q (by simp)
      · exact h e h1
    | some n => cases n with
      | dir => exact ih _ hqs h
      | file c => exact h

theorem fsPut_proper {c : Conf} {fs : FS V} {key : Str} {v : V} {d : Bool} (h : FSProper fs) :
    FSProper (fsPut c fs key v d).1 := by
  unfold fsPut
  cases hr : resolveKey c key with
  | error e => exact h
  | ok path =>
    simp only [resolve_comps hr]
    have := mkdirs_proper (ancestors (target c key)) fs (fun q hq x hx => by
      obtain ⟨i, _, rfl⟩ := List.mem_map.1 hq
      exact target_proper c key x (List.mem_of_mem_take hx)) h
    rcases hk : mkdirs fs (ancestors (target c key)) with ⟨fs', b⟩
    rw [hk] at this
    have ha : ∀ n, FSProper (assign (target c key) n fs') := by
      intro n e he
      rcases mem_assign he with h1 | h1
      · rw [h1]; exact target_proper c key
      · exact this e h1
    cases b with
    | false => exact this
    | true =>
      simp only
      cases hl : look fs' (target c key) with
      | none => exact ha _
      | some n => cases n with
        | dir => exact this
        | file x => exact ha _

/-- All paths of the store's file system are proper. -/
def Proper' (s : State V) : Prop := ∀ fs, s.fs = some fs → FSProper fs

theorem exec_proper {c : Conf} {s : State V} (op : Op V) (h : Proper' s) : Proper' (exec c s op) := by
  cases op with
  | get u => exact h
  | exists_ u => exact h
  | put v uri uuid d =>
    show Proper' (put c s v uri uuid d).1
    rcases put_cases c s v uri uuid d with ⟨b, k, u, hb, e1, _, _⟩ | ⟨e, e1, he⟩
    · rw [e1]
      cases b with
      | mem => exact h
      | fs =>
        obtain ⟨fs, hf⟩ := Option.isSome_iff_exists.1 (hb rfl)
        have e2 : backendPut c s .fs k v d = ({ s with fs := some (fsPut c fs k v d).1 }, (fsPut c fs k v d).2) := by
          unfold backendPut; rw [hf]
        rw [e2]
        intro fs' hfs
        simp only [Option.some.injEq] at hfs
        rw [← hfs]; exact fsPut_proper (h fs hf)
    · rw [e1]; exact h
  | delete u =>
    show Proper' (delete c s u).1
    unfold delete
    cases hq : parseUri s u with
    | error e => exact h
    | ok r =>
      obtain ⟨b, k⟩ := r
      cases b with
      | mem => exact h
      | fs =>
        cases hf : s.fs with
        | none => simpa using h
        | some fs =>
          intro fs' hfs
          simp only [Option.some.injEq] at hfs
          rw [← hfs]
          unfold fsDelete
          cases hr : resolveKey c k with
          | error e => exact h fs hf
          | ok path =>
            simp only
            cases hl : look fs (comps path) with
            | none => exact h fs hf
            | some n => cases n with
              | dir => exact h fs hf
              | file x => exact fun e he => h fs hf e (mem_of_mem_remove he)

theorem run_proper {c : Conf} (ops : List (Op V)) {s : State V} (h : Proper' s) : Proper' (run c s ops) := by
  induction ops generalizing s with
  | nil => exact h
  | cons op ops ih => exact ih (exec_proper op h)

theorem splitSlash_joinComps {cs : Path} (h : ∀ x ∈ cs, Proper x) (hne : cs ≠ []) : splitSlash (joinComps cs) = cs := by
  match cs, h, hne with
  | [c], h, _ => simp only [joinComps]; exact splitSlash_noslash (h c (by simp)).2.2.2
  | c :: d :: cs, h, _ =>
    simp only [joinComps]
    rw [splitSlash_append, splitSlash_noslash (h c (by simp)).2.2.2,
      splitSlash_joinComps (fun x hx => h x (by simp_all)) (by simp)]
    rfl

theorem target_joinComps (c : Conf) {cs : Path} (h : ∀ x ∈ cs, Proper x) (hne : cs ≠ []) :
    target c (joinComps cs) = rootComps c ++ cs := by
  unfold target; rw [splitSlash_joinComps h hne, foldl_of_proper h]

theorem resolve_below (c : Conf) {key : Str} {rest : Path} (ht : target c key = rootComps c ++ rest) :
    ∃ path, resolveKey c key = .ok path := by
  refine ⟨render (target c key), ?_⟩
  rw [resolve_eq, if_pos]
  unfold startsWith
  rw [List.isPrefixOf_iff_prefix, ht]
  cases hc : rootComps c with
  | nil => cases rest <;> simp [render]
  | cons x xs => exact ⟨rest.flatMap (fun c => '/' :: c), by simp [render]⟩

/-- **C28.** `list_keys` lists URIs that exist: after any history from an empty store, every URI it returns satisfies
`exists`, and every object that can be read — any memory object, and any file below the root — is named by a listed
URI. -/
theorem listKeys_spec (c : Conf) (s : State V) (hw : WF s) (hp : Proper' s) (ops : List (Op V)) :
    (∀ u ∈ listKeys c (run c s ops), exists' c (run c s ops) u = .ok true) ∧
    (∀ l v, valueAt (run c s ops) l = some v → (∀ p, l = .file p → ∃ rest, rest ≠ [] ∧ p = rootComps c ++ rest) →
      ∃ u ∈ listKeys c (run c s ops), locOf c s.fs.isSome u = some l) := by
  have hw' := run_wf (c := c) ops hw
  have hp' := run_proper (c := c) ops hp
  have hs := run_fsSome c ops s
  rw [← hs]
  generalize run c s ops = t at hw' hp'
  constructor
  · intro u hu
    rcases List.mem_append.1 hu with hu | hu
    · obtain ⟨⟨k, v⟩, he, rfl⟩ := List.mem_map.1 hu
      have hq : parseUri t (memScheme ++ sep ++ k) = .ok (.mem, k) := by
        unfold parseUri; rw [partition_mem]; simp
      unfold exists'
      rw [hq]
      simp [mem_lookup hw'.1 he]
    · cases hf : t.fs with
      | none => rw [hf] at hu; simp at hu
      | some fs =>
        rw [hf] at hu
        obtain ⟨k, hk, rfl⟩ := List.mem_map.1 hu
        obtain ⟨⟨p, n⟩, he, hkey⟩ := List.mem_filterMap.1 hk
        cases n with
        | dir => simp [keyOf] at hkey
        | file x =>
          simp only [keyOf] at hkey
          split at hkey
          · rename_i hcond
            simp only [Option.some.injEq] at hkey
            obtain ⟨rest, hrest⟩ := List.isPrefixOf_iff_prefix.1 hcond.1
            have hroot : comps (abspath c.cwd c.rootPath) = rootComps c := rfl
            rw [hroot] at hkey hrest hcond
            have hdrop : p.drop (rootComps c).length = rest := by rw [← hrest]; simp
            rw [hdrop] at hkey
            have hne : rest ≠ [] := by rintro rfl; exact hcond.2 (by simpa using hrest.symm)
            have hpr : ∀ y ∈ rest, Proper y := fun y hy => hp' fs hf _ he y (by
              show y ∈ p
              rw [← hrest]; simp [hy])
            have ht := target_joinComps c hpr hne
            rw [hkey, hrest] at ht
            obtain ⟨path, hpath⟩ := resolve_below c (key := k) (rest := rest) (by rw [ht, hrest])
            have hq : parseUri t (fsScheme ++ sep ++ k) = .ok (.fs, k) := by
              unfold parseUri; rw [partition_fs]; simp [show fsScheme ≠ memScheme by decide, hf]
            unfold exists'
            rw [hq]
            simp only [hf, fsExists, hpath, resolve_comps hpath, ht]
            have : p ≠ [] := by rw [← hrest]; simp [hne]
            simp [look, this, mem_lookup (hw'.2 fs hf) he]
          · simp at hkey
  · intro l v hv hin
    cases l with
    | mem k =>
      refine ⟨memScheme ++ sep ++ k, ?_, locOf_mem ..⟩
      exact List.mem_append.2 (Or.inl (List.mem_map.2 ⟨(k, v), lookup_mem hv, rfl⟩))
    | file p =>
      cases hf : t.fs with
      | none => simp [valueAt, hf] at hv
      | some fs =>
        rw [valueAt_file t fs hf] at hv
        obtain ⟨rest, hne, hrest⟩ := hin p rfl
        have hpne : p ≠ [] := by rw [hrest]; simp [hne]
        have hlk : lookup p fs = some (.file (some v)) := by
          unfold fileVal at hv
          simp only [look, hpne, if_false] at hv
          cases hl : lookup p fs with
          | none => rw [hl] at hv; simp at hv
          | some n => cases n with
            | dir => rw [hl] at hv; simp at hv
            | file x => cases x with
              | none => rw [hl] at hv; simp at hv
              | some w => rw [hl] at hv; simp at hv; rw [hv]
        have he := lookup_mem hlk
        have hpr : ∀ y ∈ rest, Proper y := fun y hy => hp' fs hf _ he y (by
          show y ∈ p
          rw [hrest]; simp [hy])
        have ht := target_joinComps c hpr hne
        obtain ⟨path, hpath⟩ := resolve_below c ht
        refine ⟨fsScheme ++ sep ++ joinComps rest, ?_, ?_⟩
        · refine List.mem_append.2 (Or.inr ?_)
          rw [hf]
          refine List.mem_map.2 ⟨_, List.mem_filterMap.2 ⟨_, he, ?_⟩, rfl⟩
          have hroot : comps (abspath c.cwd c.rootPath) = rootComps c := rfl
          simp only [keyOf, hroot]
          rw [if_pos ⟨List.isPrefixOf_iff_prefix.2 ⟨rest, hrest.symm⟩, by rw [hrest]; simp [hne]⟩, hrest]
          simp
        · rw [show (some fs).isSome = true from rfl, locOf_fs, hpath, ht, hrest]

example : listKeys conf (run conf empty [.put 1 (some "fs://a/b".toList) [] true, .put 2 (some "mem://k".toList) [] true,
    .put 3 (some "c".toList) [] true]) = ["mem://k".toList, "fs://a/b".toList, "fs://c".toList] := by decide

/-! ## C29 -/

/-- `uri` splits into `scheme` and `key` at its first `://`. -/
def SplitsAt (uri scheme key : Str) : Prop :=
  uri = scheme ++ "://".toList ++ key ∧
  ∀ a b, uri = a ++ "://".toList ++ b → scheme.length ≤ a.length

theorem splitsAt_iff (uri a b : Str) : SplitsAt uri a b ↔ partition uri = some (a, b) := by
  constructor
  · rintro ⟨h1, h2⟩
    cases hp : partition uri with
    | none => exact absurd ⟨a, b, h1⟩ (partition_none.1 hp)
    | some r =>
      obtain ⟨x, y⟩ := r
      have h3 := partition_sound hp
      have h4 := partition_first hp h1
      have h5 := h2 x y h3
      have hlen : x.length = a.length := by omega
      have h6 : x ++ (sep ++ y) = a ++ ("://".toList ++ b) := by
        rw [← List.append_assoc, ← List.append_assoc, ← h3, ← h1]
      obtain ⟨h7, h8⟩ := List.append_inj h6 hlen
      rw [h7]
      have : y = b := by simpa [sep] using h8
      rw [this]
  · intro h
    exact ⟨partition_sound h, fun x y hxy => partition_first h hxy⟩

/-- **C29.** For every URI string: reading, deleting and testing it is routed by the text before its first `://`; a
string without `://` and a scheme without backend are rejected, and neither leaves a trace. -/
theorem routing (c : Conf) (s : State V) (uri : Str) :
    (∀ key, SplitsAt uri "mem".toList key → get c s uri = (match lookup key s.mem with
        | none => .error .keyError
        | some v => .ok v)) ∧
    (∀ key fs, SplitsAt uri "fs".toList key → s.fs = some fs → get c s uri = fsGet c fs key) ∧
    (∀ scheme key, SplitsAt uri scheme key → scheme ≠ "mem".toList → (scheme ≠ "fs".toList ∨ s.fs = none) →
      get c s uri = .error .unknownScheme ∧ delete c s uri = (s, .error .unknownScheme) ∧
      exists' c s uri = .error .unknownScheme ∧ ∀ v uuid d, put c s v (some uri) uuid d = (s, .error .unknownScheme)) ∧
    ((¬ ∃ a b, uri = a ++ "://".toList ++ b) →
      get c s uri = .error .invalidUri ∧ delete c s uri = (s, .error .invalidUri) ∧
      exists' c s uri = .error .invalidUri) := by
  refine ⟨fun key h => ?_, fun key fs h hf => ?_, fun scheme key h h1 h2 => ?_, fun h => ?_⟩
  · rw [splitsAt_iff] at h
    have : parseUri s uri = .ok (.mem, key) := by
      unfold parseUri; rw [h]; simp [memScheme]
    unfold get; rw [this]; rfl
  · rw [splitsAt_iff] at h
    have : parseUri s uri = .ok (.fs, key) := by
      unfold parseUri; rw [h]; simp [memScheme, fsScheme, hf]
    unfold get; rw [this]; simp [hf]
  · rw [splitsAt_iff] at h
    have : parseUri s uri = .error .unknownScheme := by
      unfold parseUri; rw [h]
      have h3 : ¬ (scheme = fsScheme ∧ s.fs.isSome = true) := by
        rintro ⟨h4, h5⟩
        rcases h2 with h2 | h2
        · exact h2 h4
        · simp [h2] at h5
      simp only
      rw [if_neg (show ¬ scheme = memScheme from h1), if_neg h3]
    refine ⟨?_, ?_, ?_, fun v uuid d => ?_⟩
    · unfold get; rw [this]
    · unfold delete; rw [this]
    · unfold exists'; rw [this]
    · unfold put; simp only [h, this]
  · have hn := partition_none.2 h
    have : parseUri s uri = .error .invalidUri := by unfold parseUri; rw [hn]
    refine ⟨?_, ?_, ?_⟩
    · unfold get; rw [this]
    · unfold delete; rw [this]
    · unfold exists'; rw [this]

/-- **C29.** `put` with a name without scheme is `put` with the persistent backend's scheme in front, and that URI is
what it returns; without a persistent backend it is refused. `put` with a full URI returns the same URI. -/
theorem put_routing (c : Conf) (s : State V) (v : V) (name uuid : Str) (d : Bool)
    (h : ¬ ∃ a b, name = a ++ "://".toList ++ b) :
    (s.fs = none → put c s v (some name) uuid d = (s, .error .noPersistent)) ∧
    (s.fs ≠ none → put c s v (some name) uuid d = put c s v (some ("fs://".toList ++ name)) uuid d ∧
      ∀ u, (put c s v (some name) uuid d).2 = .ok u → u = "fs://".toList ++ name) := by
  have hn := partition_none.2 h
  constructor
  · intro h1; unfold put; simp [hn, h1]
  · intro h1
    have hs : s.fs.isSome = true := by cases h2 : s.fs <;> simp_all
    have hnn : ¬ s.fs.isNone = true := by cases h2 : s.fs <;> simp_all
    have e1 : put c s v (some name) uuid d = ((backendPut c s .fs name v d).1,
        (backendPut c s .fs name v d).2.map (fun _ => fsScheme ++ sep ++ name)) := by
      unfold put; simp only [hn, if_neg hnn]
    have e2 : put c s v (some (fsScheme ++ sep ++ name)) uuid d = ((backendPut c s .fs name v d).1,
        (backendPut c s .fs name v d).2.map (fun _ => fsScheme ++ sep ++ name)) := by
      have hp : parseUri s (fsScheme ++ sep ++ name) = .ok (.fs, name) := by
        unfold parseUri; rw [partition_fs]; simp [show fsScheme ≠ memScheme by decide, hs]
      unfold put; simp only [partition_fs, hp]
    have e3 : "fs://".toList ++ name = fsScheme ++ sep ++ name := rfl
    rw [e3, e1, e2]
    refine ⟨rfl, fun u hu => ?_⟩
    simp only at hu
    cases hr : (backendPut c s .fs name v d).2 with
    | error e => rw [hr] at hu; simp [Except.map] at hu
    | ok x => rw [hr] at hu; simp only [Except.map, Except.ok.injEq] at hu; exact hu.symm

/-- **C29.** `put` without URI stores in memory under `mem://<uuid>`; when the generated key is new, no object that
existed before is changed. -/
theorem put_none (c : Conf) (s : State V) (hw : WF s) (v : V) (uuid : Str) (d : Bool) (hfresh : lookup uuid s.mem = none) :
    (put c s v none uuid d).2 = .ok ("mem://".toList ++ uuid) ∧
    get c (put c s v none uuid d).1 ("mem://".toList ++ uuid) = .ok v ∧
    ∀ u w, get c s u = .ok w → get c (put c s v none uuid d).1 u = .ok w := by
  have h1 : (put c s v none uuid d).2 = .ok (memScheme ++ sep ++ uuid) := rfl
  refine ⟨rfl, ?_, fun u w hu => ?_⟩
  · exact get_put c s hw v none uuid d _ h1 [] (by simp [effects])
  · obtain ⟨l, hl, hv⟩ := (get_iff c s u w).1 hu
    refine (get_iff c _ u w).2 ⟨l, hl, ?_⟩
    cases l with
    | mem k =>
      have : k ≠ uuid := by rintro rfl; simp [valueAt, hfresh] at hv
      simpa [put, valueAt, lookup_assign_ne this] using hv
    | file p => exact hv

/-- A URI with several separators: the key keeps the later ones. -/
example : SplitsAt "mem://a://b".toList "mem".toList "a://b".toList := by
  rw [splitsAt_iff]; decide
example : get conf (run conf empty [.put 7 (some "mem://x://y".toList) [] true]) "mem://x://y".toList = .ok 7 ∧
    (put conf empty 7 (some "x".toList) [] true).2 = .ok "fs://x".toList := by decide
example : ¬ ∃ a b, ("ckpt/s100".toList : Str) = a ++ "://".toList ++ b := by
  rw [show "://".toList = sep from rfl, ← partition_none]; decide

/-! ## C30 -/

/-- A path is inside a directory when it starts with the directory's components. -/
def Inside (root p : Path) : Prop := ∃ rest, p = root ++ rest

/-- **C30, violated** (object_store.py:183): the prefix test compares strings without the separator. With the root
directory `/home/u/d/node1`, the key `../node10/x` is accepted and read from and written to the sibling directory
`node10`. -/
theorem inside_root_violated :
    rootComps conf = ["home".toList, "u".toList, "d".toList, "node1".toList] ∧
    resolveKey conf "../node10/x".toList = .ok "/home/u/d/node10/x".toList ∧
    ¬ Inside (rootComps conf) (comps "/home/u/d/node10/x".toList) ∧
    get conf (run conf empty [.put 1 (some "fs://../node10/x".toList) [] true]) "fs://../node10/x".toList = .ok 1 := by
  refine ⟨by decide, by decide, ?_, by decide⟩
  rintro ⟨rest, h⟩
  have h1 : rootComps conf = ["home".toList, "u".toList, "d".toList, "node1".toList] := by decide
  have h2 : comps "/home/u/d/node10/x".toList = ["home".toList, "u".toList, "d".toList, "node10".toList, "x".toList] := by
    decide
  rw [h1, h2] at h
  simp at h

theorem foldl_nodots {l : List Str} (h : ['.', '.'] ∉ l) (acc : Path) : ∃ rest, l.foldl normStep acc = acc ++ rest := by
  induction l generalizing acc with
  | nil => exact ⟨[], by simp⟩
  | cons c l ih =>
    simp only [List.mem_cons, not_or] at h
    obtain ⟨r, hr⟩ := ih h.2 (normStep acc c)
    rw [List.foldl_cons, hr]
    unfold normStep
    split
    · exact ⟨r, rfl⟩
    · rw [if_neg (Ne.symm h.1)]; exact ⟨c :: r, by simp⟩

/-- **C30, partial.** A key none of whose components is `..` is accepted and resolved inside the root directory, however
many slashes or `.` it has, whatever the root is. -/
theorem inside_root_partial (c : Conf) (key : Str) (h : "..".toList ∉ splitSlash key) :
    ∃ path, resolveKey c key = .ok path ∧ Inside (rootComps c) (comps path) := by
  obtain ⟨rest, hr⟩ := foldl_nodots (l := splitSlash key) h (rootComps c)
  have ht : target c key = rootComps c ++ rest := hr
  refine ⟨render (target c key), ?_, ?_⟩
  · rw [resolve_eq, if_pos]
    unfold startsWith
    rw [List.isPrefixOf_iff_prefix, ht]
    cases hc : rootComps c with
    | nil => cases rest <;> simp [render]
    | cons x xs => exact ⟨rest.flatMap (fun c => '/' :: c), by simp [render]⟩
  · rw [comps_render (target_proper c key)]; exact ⟨rest, ht⟩

theorem render_prefix {r p : Path} (hr : ∀ x ∈ r, Proper x) (hp : ∀ x ∈ p, Proper x)
    (h : r.flatMap (fun c => '/' :: c) <+: p.flatMap (fun c => '/' :: c)) :
    (∃ rest, p = r ++ rest) ∨
    ∃ ini last ext rest, r = ini ++ [last] ∧ p = ini ++ (last ++ ext) :: rest ∧ ext ≠ [] := by
  induction r generalizing p with
  | nil => exact Or.inl ⟨p, rfl⟩
  | cons a r ih =>
    cases p with
    | nil => simp at h
    | cons b p =>
      simp only [List.flatMap_cons, List.cons_append, List.cons_prefix_cons, true_and] at h
      have ha := (hr a (by simp)).2.2.2
      have hb := (hp b (by simp)).2.2.2
      -- compare a ++ R with b ++ P where R, P are empty or begin with '/'
      have key : ∀ (a b R P : Str), '/' ∉ a → '/' ∉ b → (R = [] ∨ R.head? = some '/') →
          (P = [] ∨ P.head? = some '/') → a ++ R <+: b ++ P →
          (a = b ∧ R <+: P) ∨ (R = [] ∧ ∃ ext, b = a ++ ext ∧ ext ≠ []) := by
        intro a
        induction a with
        | nil =>
          intro b R P _ hb hR hP h
          cases b with
          | nil => exact Or.inl ⟨rfl, h⟩
          | cons y ys =>
            rcases hR with rfl | hR
            · exact Or.inr ⟨rfl, y :: ys, rfl, by simp⟩
            · cases R with
              | nil => simp at hR
              | cons z zs =>
                simp only [List.head?_cons, Option.some.injEq] at hR
                simp only [List.nil_append, List.cons_append, List.cons_prefix_cons] at h
                exact absurd (by simp [← h.1, hR]) hb
        | cons x xs ih =>
          intro b R P ha hb hR hP h
          cases b with
          | nil =>
            rcases hP with rfl | hP
            · simp at h
            · cases P with
              | nil => simp at hP
              | cons z zs =>
                simp only [List.head?_cons, Option.some.injEq] at hP
                simp only [List.nil_append, List.cons_append, List.cons_prefix_cons] at h
                exact absurd (by simp [h.1, hP]) ha
          | cons y ys =>
            simp only [List.cons_append, List.cons_prefix_cons] at h
            simp only [List.mem_cons, not_or] at ha hb
            obtain ⟨hxy, h⟩ := h
            subst hxy
            rcases ih ys R P ha.2 hb.2 hR hP h with ⟨h1, h2⟩ | ⟨h1, ext, h2, h3⟩
            · exact Or.inl ⟨by rw [h1], h2⟩
            · exact Or.inr ⟨h1, ext, by rw [h2]; rfl, h3⟩
      have hh : ∀ q : Path, (q.flatMap (fun c => '/' :: c)) = [] ∨ (q.flatMap (fun c => '/' :: c)).head? = some '/' := by
        intro q; cases q <;> simp
      rcases key a b _ _ ha hb (hh r) (hh p) h with ⟨h1, h2⟩ | ⟨h1, ext, h2, h3⟩
      · rcases ih (fun x hx => hr x (by simp [hx])) (fun x hx => hp x (by simp [hx])) h2 with
          ⟨rest, h4⟩ | ⟨ini, last, ext, rest, h4, h5, h6⟩
        · exact Or.inl ⟨rest, by rw [h1, h4]; rfl⟩
        · exact Or.inr ⟨a :: ini, last, ext, rest, by rw [h4]; rfl, by rw [h5, h1]; rfl, h6⟩
      · have hr0 : r = [] := by cases r <;> simp at h1 <;> rfl
        exact Or.inr ⟨[], a, ext, p, by simp [hr0], by simp [h2], h3⟩

/-- **C30, partial.** Whatever the key and the root directory: an accepted key is resolved inside the root, or inside a
sibling directory whose name extends the root's own name (the only escape); everything else raises. -/
theorem resolved_partial (c : Conf) (key path : Str) (h : resolveKey c key = .ok path) :
    Inside (rootComps c) (comps path) ∨
    ∃ ini last ext rest, rootComps c = ini ++ [last] ∧ comps path = ini ++ (last ++ ext) :: rest ∧ ext ≠ [] := by
  rw [resolve_comps h]
  rw [resolve_eq] at h
  split at h
  · rename_i hp
    unfold startsWith at hp
    rw [List.isPrefixOf_iff_prefix] at hp
    cases hc : rootComps c with
    | nil => exact Or.inl ⟨_, rfl⟩
    | cons x xs =>
      cases ht : target c key with
      | nil =>
        rw [hc, ht] at hp
        obtain ⟨t, ht⟩ := hp
        have hx := (comps_proper (abspath c.cwd c.rootPath) x (by
          show x ∈ rootComps c
          rw [hc]; simp)).1
        simp [render] at ht
        exact absurd ht.1 hx
      | cons y ys =>
        rw [hc, ht] at hp
        exact render_prefix (fun z hz => comps_proper _ z (by show z ∈ rootComps c; rw [hc]; exact hz))
          (fun z hz => target_proper c key z (by rw [ht]; exact hz)) hp
  · simp at h

/-- When the accepted key fails the component-wise test, the string test was the only thing that let it through; a root
whose parent has no other directory extending its name keeps everything inside. -/
theorem no_such_sibling (c : Conf) (key path : Str) (h : resolveKey c key = .ok path)
    (hsib : ∀ ini last ext rest, rootComps c = ini ++ [last] → comps path = ini ++ (last ++ ext) :: rest → ext = []) :
    Inside (rootComps c) (comps path) := by
  rcases resolved_partial c key path h with h1 | ⟨ini, last, ext, rest, h1, h2, h3⟩
  · exact h1
  · exact absurd (hsib ini last ext rest h1 h2) h3

example : resolveKey conf "../../etc/passwd".toList = .error .traversal ∧
    resolveKey conf "//a/./b".toList = .ok "/home/u/d/node1/a/b".toList ∧
    resolveKey conf "a/../b".toList = .ok "/home/u/d/node1/b".toList := by decide
example : "..".toList ∉ splitSlash "//a/./b".toList := by decide

end Verif.Store
