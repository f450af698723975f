import Verif.Arrow.TableProps

/-
C85: `table2tensor` and `tensor2table`: their type rules against what they do at run time, and their
round trips. Models mplang/dialects/table.py:71-136, 157-180 and mplang/backends/table_impl.py:711-775.

Simplifications:
* `D` is the set of scalar types of the language, which numpy dtypes represent one to one (C62);
  `promote` stands for numpy's choice of the dtype of a matrix joined from columns of the given dtypes.
* column types that are neither scalar nor vector are `other`.
* `blank` is `name.strip() == ""`.
-/
namespace Verif.Arrow

/-- The type of a column in a table's schema (typing.py:506, 570): a scalar, a vector of scalars, or
something else. -/
inductive ColTy (D : Type)
  | scalar (d : D)
  | vector (d : D) (size : Nat)
  | other
  deriving DecidableEq, Repr

/-- `TableType` (typing.py:570-600): named columns in order, and `-1` or the number of rows. -/
structure TableTy (D : Type) where
  schema : List (String × ColTy D)
  nrows : Int := -1
  deriving DecidableEq, Repr

/-- `TensorType` (typing.py): element type and shape. -/
structure TensorTy (D : Type) where
  elem : D
  shape : List Int
  deriving DecidableEq, Repr

/-- The loop of `_table2tensor_ae` (table.py:84-101). -/
def aeLoop {D : Type} [DecidableEq D] : List (String × ColTy D) → Nat → Option D → Except Err (Nat × Option D)
  | [], w, f => .ok (w, f)
  | (_, .vector d n) :: rest, w, f =>
    match f with
    | none => aeLoop rest (w + n) (some d)
    | some d0 => if d ≠ d0 then .error .typeError else aeLoop rest (w + n) (some d0)
  | (_, .scalar d) :: rest, w, f =>
    match f with
    | none => aeLoop rest (w + 1) (some d)
    | some d0 => if d ≠ d0 then .error .typeError else aeLoop rest (w + 1) (some d0)
  | (_, .other) :: _, _, _ => .error .typeError

/-- `_table2tensor_ae` (table.py:71-104). -/
def table2tensorAe {D : Type} [DecidableEq D] (t : TableTy D) (numberRows : Int) : Except Err (TensorTy D) :=
  if numberRows < -1 then .error .valueError
  else if numberRows = 0 then .error .valueError
  else if t.schema.isEmpty then .error .valueError
  else match aeLoop t.schema 0 none with
    | .error e => .error e
    | .ok (w, some d) => .ok ⟨d, [numberRows, w]⟩
    | .ok (_, none) => .error .typeError

/-- `table2tensor` (table.py:157-173): without an explicit number of rows the declared one is used, if
any. -/
def table2tensorRows {D : Type} (t : TableTy D) (numberRows : Option Int) : Int :=
  match numberRows with
  | some n => n
  | none => if t.nrows > 0 then t.nrows else -1

/-- The loop of `_tensor2table_ae` (table.py:122-135). -/
def namesLoop {D : Type} (blank : String → Bool) (d : D) :
    List String → List (String × ColTy D) → Except Err (List (String × ColTy D))
  | [], acc => .ok acc
  | n :: rest, acc =>
    if blank n then .error .valueError
    else if n ∈ acc.map Prod.fst then .error .valueError
    else namesLoop blank d rest (acc ++ [(n, .scalar d)])

/-- `_tensor2table_ae` (table.py:107-136). -/
def tensor2tableAe {D : Type} (blank : String → Bool) (t : TensorTy D) (names : List String) :
    Except Err (TableTy D) :=
  match t.shape with
  | [_, c] =>
    if names.isEmpty then .error .valueError
    else if (names.length : Int) ≠ c then .error .valueError
    else (namesLoop blank t.elem names []).map fun s => { schema := s }
  | _ => .error .typeError

/-- A table at run time: its number of rows, and named columns with their dtype. -/
structure RTable (V D : Type) where
  nrows : Nat
  cols : List (String × D × Col V)

variable {V D : Type} [Zero V] [One V] [DecidableEq D]

/-- `table2tensor_impl` (table_impl.py:711-746): the row check, the conversion, the dtype check. -/
def table2tensorImpl (promote : List D → D) (numberRows : Int) (declared : D) (t : RTable V D) :
    Except Err (List (List V)) :=
  if numberRows ≥ 0 ∧ (t.nrows : Int) ≠ numberRows then .error .valueError
  else match tableToNumpy (t.cols.map fun c => c.2.2) with
    | .error e => .error e
    | .ok arr => if promote (t.cols.map fun c => c.2.1) ≠ declared then .error .typeError else .ok arr

/-- `data[name] = ...` on a Python dictionary: a repeated key keeps its place and takes the new value. -/
def put {A : Type} (k : String) (v : A) : List (String × A) → List (String × A)
  | [] => [(k, v)]
  | (k', v') :: rest => if k' = k then (k, v) :: rest else (k', v') :: put k v rest

/-- `tensor2table_impl` (table_impl.py:749-774) on a matrix of shape `n × width`. -/
def tensor2tableImpl (d : D) (n width : Nat) (arr : List (List V)) (names : List String) :
    Except Err (RTable V D) :=
  if width ≠ names.length then .error .valueError
  else .ok ⟨n, (names.zipIdx).foldl (fun acc p => put p.1 (d, Col.plain (arr.map fun r => r.getD p.2 0)) acc) []⟩

/-! ## Specification -/

/-- The matrix columns a schema entry stands for. -/
def ColTy.width : ColTy D → Nat
  | .scalar _ => 1
  | .vector _ n => n
  | .other => 0

/-- The scalar type of a schema entry. -/
def ColTy.elem? : ColTy D → Option D
  | .scalar d => some d
  | .vector d _ => some d
  | .other => none

/-- The run-time column is what its schema entry declares. -/
inductive Conforms : String × ColTy D → String × D × Col V → Prop
  | scalar (n : String) (d : D) (vs : List V) : Conforms (n, .scalar d) (n, d, .plain vs)
  | dense (n : String) (d : D) (k : Nat) (rows : List (Option (List V))) :
      Conforms (n, .vector d k) (n, d, .dense k rows)
  | sparse (n : String) (d : D) (k : Nat) (rows : List (SparseRow V)) :
      Conforms (n, .vector d k) (n, d, .sparse k rows)
  | oneHot (n : String) (d : D) (k : Nat) (rows : List (Option Int)) :
      Conforms (n, .vector d k) (n, d, .oneHot k rows)

/-! ## The type rule -/

theorem aeLoop_some (d : D) : ∀ (s : List (String × ColTy D)) (w w' : Nat) (f : Option D),
    aeLoop s w (some d) = .ok (w', f) ↔
      f = some d ∧ w' = w + (s.map fun c => c.2.width).sum ∧ ∀ c ∈ s, c.2.elem? = some d
  | [], w, w', f => by
      simp only [aeLoop, Except.ok.injEq, Prod.mk.injEq, List.map_nil, List.sum_nil, List.not_mem_nil]
      constructor
      · rintro ⟨rfl, rfl⟩; exact ⟨rfl, rfl, fun _ h => h.elim⟩
      · rintro ⟨rfl, rfl, _⟩; exact ⟨rfl, rfl⟩
  | (n, .scalar d') :: s, w, w', f => by
      rw [aeLoop]
      by_cases h : d' = d
      · subst h
        simp only [ne_eq, not_true_eq_false, if_false, aeLoop_some]
        simp [ColTy.width, ColTy.elem?, Nat.add_assoc]
      · simp [h, ColTy.elem?]
  | (n, .vector d' k) :: s, w, w', f => by
      rw [aeLoop]
      by_cases h : d' = d
      · subst h
        simp only [ne_eq, not_true_eq_false, if_false, aeLoop_some]
        simp [ColTy.width, ColTy.elem?, Nat.add_assoc]
      · simp [h, ColTy.elem?]
  | (n, .other) :: s, w, w', f => by simp [aeLoop, ColTy.elem?]

theorem aeLoop_start (s : List (String × ColTy D)) (hne : s ≠ []) (w' : Nat) (d : D) :
    aeLoop s 0 none = .ok (w', some d) ↔
      w' = (s.map fun c => c.2.width).sum ∧ ∀ c ∈ s, c.2.elem? = some d := by
  cases s with
  | nil => exact absurd rfl hne
  | cons c s =>
    obtain ⟨n, ty⟩ := c
    cases ty with
    | scalar d' =>
      rw [aeLoop]
      simp only [aeLoop_some, Option.some.injEq, List.map_cons, List.sum_cons, List.mem_cons, forall_eq_or_imp,
        ColTy.width, ColTy.elem?, Nat.zero_add]
      constructor
      · rintro ⟨rfl, h1, h2⟩; exact ⟨h1, rfl, h2⟩
      · rintro ⟨h1, rfl, h2⟩; exact ⟨rfl, h1, h2⟩
    | vector d' k =>
      rw [aeLoop]
      simp only [aeLoop_some, Option.some.injEq, List.map_cons, List.sum_cons, List.mem_cons, forall_eq_or_imp,
        ColTy.width, ColTy.elem?, Nat.zero_add]
      constructor
      · rintro ⟨rfl, h1, h2⟩; exact ⟨h1, rfl, h2⟩
      · rintro ⟨h1, rfl, h2⟩; exact ⟨rfl, h1, h2⟩
    | other => simp [aeLoop, ColTy.elem?]

theorem aeLoop_some_ne_none (d : D) (s : List (String × ColTy D)) (w w' : Nat) :
    aeLoop s w (some d) ≠ .ok (w', none) := by
  intro h
  exact absurd ((aeLoop_some d s w w' none).1 h).1 (by simp)

/-- **C85, type rule.** `table2tensor` is accepted exactly when the number of rows is positive or `-1`, the
table has a column and all its columns are scalars or vectors over one and the same scalar type; the tensor
then has that element type, the given number of rows, and one column per scalar and `size` columns per
vector. -/
theorem table2tensor_rule (t : TableTy D) (k : Int) (r : TensorTy D) :
    table2tensorAe t k = .ok r ↔
      (k = -1 ∨ 0 < k) ∧ t.schema ≠ [] ∧ (∀ c ∈ t.schema, c.2.elem? = some r.elem) ∧
        r.shape = [k, ((t.schema.map fun c => c.2.width).sum : Nat)] := by
  unfold table2tensorAe
  by_cases h1 : k < -1
  · rw [if_pos h1]
    constructor
    · intro h; cases h
    · intro h; omega
  rw [if_neg h1]
  by_cases h2 : k = 0
  · rw [if_pos h2]
    constructor
    · intro h; cases h
    · intro h; omega
  rw [if_neg h2]
  by_cases h3 : t.schema = []
  · rw [h3]
    simp
  have h3' : t.schema.isEmpty = false := by simpa using h3
  rw [h3']
  simp only [Bool.false_eq_true, if_false]
  cases h4 : aeLoop t.schema 0 none with
  | error e =>
    constructor
    · intro h; cases h
    · rintro ⟨_, _, h5, _⟩
      have := (aeLoop_start t.schema h3 _ r.elem).2 ⟨rfl, h5⟩
      rw [h4] at this
      cases this
  | ok p =>
    obtain ⟨w, f⟩ := p
    cases f with
    | none =>
      exfalso
      cases hs : t.schema with
      | nil => exact h3 hs
      | cons c s =>
        rw [hs] at h4
        obtain ⟨n, ty⟩ := c
        cases ty with
        | scalar d => rw [aeLoop] at h4; exact aeLoop_some_ne_none d _ _ _ h4
        | vector d k => rw [aeLoop] at h4; exact aeLoop_some_ne_none d _ _ _ h4
        | other => simp [aeLoop] at h4
    | some d =>
      obtain ⟨e1, e2⟩ := (aeLoop_start t.schema h3 w d).1 h4
      obtain ⟨re, rs⟩ := r
      simp only [Except.ok.injEq, TensorTy.mk.injEq]
      constructor
      · rintro ⟨rfl, rfl⟩
        exact ⟨by omega, h3, e2, by rw [e1]⟩
      · rintro ⟨_, _, h5, h6⟩
        have := (aeLoop_start t.schema h3 w re).2 ⟨e1, h5⟩
        rw [h4] at this
        simp only [Except.ok.injEq, Prod.mk.injEq, Option.some.injEq, true_and] at this
        exact ⟨this, by rw [h6, e1]⟩

example : table2tensorAe (D := Nat) { schema := [("a", .scalar 7), ("v", .vector 7 3)] } (-1) =
    .ok ⟨7, [-1, 4]⟩ := by decide

/-- **C85, `table2tensor` as users call it.** Without a number of rows the call is accepted for every table of columns over one scalar type, and
the tensor has the declared number of rows, or a dynamic one when none (or zero) is declared; a number given is used as it is, whatever the table
declares. -/
theorem table2tensor_rows (t : TableTy D) (r : TensorTy D) :
    (table2tensorAe t (table2tensorRows t none) = .ok r ↔
      t.schema ≠ [] ∧ (∀ c ∈ t.schema, c.2.elem? = some r.elem) ∧
        ((0 < t.nrows ∧ r.shape = [t.nrows, ((t.schema.map fun c => c.2.width).sum : Nat)]) ∨
          (t.nrows ≤ 0 ∧ r.shape = [(-1 : Int), ((t.schema.map fun c => c.2.width).sum : Nat)]))) ∧
    ∀ k, table2tensorAe t (table2tensorRows t (some k)) = table2tensorAe t k := by
  refine ⟨?_, fun _ => rfl⟩
  rw [table2tensor_rule]
  unfold table2tensorRows
  by_cases h : t.nrows > 0
  · simp only [h, if_true, true_and, or_true, show ¬ t.nrows ≤ 0 by omega, false_and, or_false]
  · simp only [h, if_false, show ¬ 0 < t.nrows by omega, false_and, false_or, true_or, true_and, show t.nrows ≤ 0 by omega]

example : table2tensorAe (⟨[("a", .scalar 7), ("b", .vector 7 3)], 5⟩ : TableTy Nat) (table2tensorRows ⟨[("a", .scalar 7), ("b", .vector 7 3)], 5⟩ none) =
    .ok ⟨7, [5, 4]⟩ := ((table2tensor_rows _ _).1).2 ⟨by simp, by simp [ColTy.elem?], .inl ⟨by decide, by simp [ColTy.width]⟩⟩

theorem namesLoop_iff (blank : String → Bool) (d : D) : ∀ (names : List String) (acc out : List (String × ColTy D)),
    (acc.map Prod.fst).Nodup →
    (namesLoop blank d names acc = .ok out ↔
      (∀ n ∈ names, blank n = false) ∧ (acc.map Prod.fst ++ names).Nodup ∧
        out = acc ++ names.map fun n => (n, .scalar d))
  | [], acc, out, h => by
      simp only [namesLoop, Except.ok.injEq, List.not_mem_nil, List.append_nil, List.map_nil]
      constructor
      · rintro rfl; exact ⟨fun _ h => h.elim, h, rfl⟩
      · rintro ⟨_, _, rfl⟩; rfl
  | n :: names, acc, out, h => by
      rw [namesLoop]
      by_cases h1 : blank n = true
      · rw [if_pos h1]
        constructor
        · intro hh; cases hh
        · rintro ⟨hh, _⟩
          rw [hh n List.mem_cons_self] at h1
          cases h1
      rw [if_neg h1]
      by_cases h2 : n ∈ acc.map Prod.fst
      · rw [if_pos h2]
        constructor
        · intro hh; cases hh
        · rintro ⟨_, hh, _⟩
          rw [List.nodup_append] at hh
          exact absurd rfl (hh.2.2 n h2 n List.mem_cons_self)
      rw [if_neg h2]
      have hn : ((acc ++ [(n, ColTy.scalar d)]).map Prod.fst).Nodup := by
        rw [List.map_append, List.nodup_append]
        exact ⟨h, by simp, by
          intro a ha b hb
          simp at hb
          subst hb
          rintro rfl
          exact h2 ha⟩
      rw [namesLoop_iff blank d names _ out hn]
      simp only [List.map_append, List.map_cons, List.map_nil, List.append_assoc, List.cons_append,
        List.nil_append, List.mem_cons, forall_eq_or_imp]
      constructor
      · rintro ⟨a, b, c⟩
        exact ⟨⟨by simpa using h1, a⟩, b, c⟩
      · rintro ⟨⟨_, a⟩, b, c⟩
        exact ⟨a, b, c⟩

/-- **C85, type rule.** `tensor2table` is accepted exactly for a rank-2 tensor with one name per column, at
least one, no name blank and no name twice; every column has the tensor's element type, in the order of the
names. -/
theorem tensor2table_rule (blank : String → Bool) (t : TensorTy D) (names : List String) (out : TableTy D) :
    tensor2tableAe blank t names = .ok out ↔
      (∃ r, t.shape = [r, (names.length : Int)]) ∧ names ≠ [] ∧ (∀ n ∈ names, blank n = false) ∧ names.Nodup ∧
        out = { schema := names.map fun n => (n, .scalar t.elem), nrows := -1 } := by
  unfold tensor2tableAe
  split
  · rename_i r c hs
    rw [hs]
    by_cases h1 : names = []
    · subst h1; simp
    have h1' : names.isEmpty = false := by simpa using h1
    rw [h1']
    simp only [Bool.false_eq_true, if_false]
    by_cases h2 : (names.length : Int) = c
    · rw [if_neg (by simpa using h2)]
      cases h3 : namesLoop blank t.elem names [] with
      | error e =>
        simp only [Except.map]
        constructor
        · intro h; cases h
        · rintro ⟨_, _, h4, h5, _⟩
          have := (namesLoop_iff blank t.elem names [] (names.map fun n => (n, .scalar t.elem)) (by simp)).2
            ⟨h4, by simpa using h5, by simp⟩
          rw [h3] at this
          cases this
      | ok s =>
        obtain ⟨e1, e2, e3⟩ := (namesLoop_iff blank t.elem names [] s (by simp)).1 h3
        simp only [Except.map, Except.ok.injEq]
        simp at e2 e3
        subst e3
        constructor
        · rintro rfl
          exact ⟨⟨r, by rw [h2]⟩, h1, e1, e2, rfl⟩
        · rintro ⟨_, _, _, _, rfl⟩; rfl
    · rw [if_pos h2]
      constructor
      · intro h; cases h
      · rintro ⟨⟨r', h⟩, _⟩
        simp at h
        exact absurd h.2.symm h2
  · rename_i hs
    constructor
    · intro h; cases h
    · rintro ⟨⟨r, h⟩, _⟩
      exact absurd h (hs _ _)

example : tensor2tableAe (D := Nat) (fun s => s == " ") ⟨7, [5, 2]⟩ ["a", "b"] =
    .ok { schema := [("a", .scalar 7), ("b", .scalar 7)] } ∧
    tensor2tableAe (D := Nat) (fun s => s == " ") ⟨7, [5, 2]⟩ ["a", "a"] = .error .valueError := by decide

/-! ## Run time -/

theorem conforms_width (c : String × ColTy D) (r : String × D × Col V) (h : Conforms c r) :
    r.2.2.width = c.2.width ∧ c.2.elem? = some r.2.1 := by
  cases h <;> simp [Col.width, ColTy.width, ColTy.elem?]

/-- **C85, the declared type is what the value has.** If `table2tensor` was accepted for a table type and
the run-time table conforms to it column by column (with Arrow-sound columns without null dense rows), and
has the declared number of rows if one was declared, then the conversion succeeds and yields a matrix with
the table's rows and exactly the declared number of columns. `promote` needs only to leave a single dtype
alone. -/
theorem table2tensor_typed_partial (promote : List D → D) (hp : ∀ (d : D) (l : List D), l ≠ [] → (∀ x ∈ l, x = d) → promote l = d)
    (t : TableTy D) (k : Int) (r : TensorTy D) (hr : table2tensorAe t k = .ok r) (v : RTable V D)
    (hc : List.Forall₂ Conforms t.schema v.cols) (hn : ∀ c ∈ v.cols, c.2.2.rows = v.nrows)
    (hs : ∀ c ∈ v.cols, c.2.2.Sound) (hz : ∀ c ∈ v.cols, c.2.2.lost = 0)
    (hk : k = -1 ∨ (v.nrows : Int) = k) :
    ∃ m, table2tensorImpl promote k r.elem v = .ok m ∧ m.length = v.nrows ∧
      ∃ w : Nat, r.shape = [k, (w : Int)] ∧ ∀ row ∈ m, row.length = w := by
  obtain ⟨hk', hne, hel, hsh⟩ := (table2tensor_rule t k r).1 hr
  have hw : (v.cols.map fun c => c.2.2).map Col.width = t.schema.map fun c => c.2.width := by
    clear hn hs hz hr hne hel hsh
    generalize t.schema = sch at hc ⊢
    generalize v.cols = vc at hc ⊢
    induction hc with
    | nil => rfl
    | cons h _ ih => simp [(conforms_width _ _ h).1, ih]
  have hd : ∀ d ∈ v.cols.map (fun c => c.2.1), d = r.elem := by
    clear hn hs hz hr hne hsh hw
    generalize t.schema = sch at hc hel
    generalize v.cols = vc at hc ⊢
    induction hc with
    | nil => simp
    | @cons c x s l h _ ih =>
      intro d hd
      rcases List.mem_cons.1 hd with rfl | hd
      · have h1 := (conforms_width _ _ h).2
        have h2 := hel c List.mem_cons_self
        rw [h1] at h2
        exact Option.some.inj h2
      · exact ih (fun c hc => hel c (List.mem_cons_of_mem _ hc)) d hd
  have hne' : (v.cols.map fun c => c.2.2) ≠ [] := by
    intro e
    rw [e] at hw
    simp at hw
    exact hne hw
  obtain ⟨m, e1, e2, e3, _⟩ := table_matrix_partial (v.cols.map fun c => c.2.2) v.nrows hne'
    (List.forall_mem_map.2 hn) (List.forall_mem_map.2 hs) (List.forall_mem_map.2 hz)
  refine ⟨m, ?_, e2, (t.schema.map fun c => c.2.width).sum, hsh, ?_⟩
  · unfold table2tensorImpl
    rw [if_neg (by omega), e1]
    simp only
    rw [hp r.elem _ (by simpa using hne') hd]
    simp
  · intro row h
    rw [e3 row h, hw]

/-- The numpy dtype rule for the examples: the first dtype if they all agree. -/
def toyPromote (l : List Nat) : Nat := if l.all (· == l.headD 0) then l.headD 0 else 99

example : ∀ (d : Nat) (l : List Nat), l ≠ [] → (∀ x ∈ l, x = d) → toyPromote l = d := by
  intro d l hne h
  cases l with
  | nil => exact absurd rfl hne
  | cons a l =>
    have ha := h a List.mem_cons_self
    subst ha
    unfold toyPromote
    rw [if_pos]
    · rfl
    · simp only [List.all_eq_true, List.headD_cons]
      intro x hx
      simpa using h x hx

example : List.Forall₂ (Conforms (V := Int) (D := Nat)) [("a", .scalar 7), ("v", .vector 7 2)]
    [("a", 7, .plain [1]), ("v", 7, .oneHot (2 : Nat) [some 1])] :=
  .cons (.scalar ..) (.cons (.oneHot ..) .nil)

/-- **C85**: the declared number of rows is enforced: with a number of rows declared, the conversion
succeeds only on a table that has exactly that many, and refuses any other with a ValueError. -/
theorem table2tensor_rows_checked (promote : List D → D) (k : Int) (d : D) (v : RTable V D) (hk : 0 ≤ k)
    (h : (v.nrows : Int) ≠ k) : table2tensorImpl promote k d v = .error .valueError := by
  unfold table2tensorImpl
  rw [if_pos ⟨hk, h⟩]

example : ((⟨3, []⟩ : RTable Int Nat).nrows : Int) ≠ 2 := by decide

/-- **C85**: a tensor whose width is not the number of column names given is refused at run time, never cut
or padded (table_impl.py:763-767). -/
theorem tensor2table_width_checked (d : D) (n width : Nat) (arr : List (List V)) (names : List String)
    (h : width ≠ names.length) : tensor2tableImpl d n width arr names = .error .valueError := by
  unfold tensor2tableImpl
  rw [if_pos h]

example : tensor2tableImpl (7 : Nat) 1 2 [[(1 : Int), 2]] ["a"] = .error .valueError :=
  tensor2table_width_checked _ _ _ _ _ (by decide)

/-- **C85 does not hold for a run-time table that does not conform**: the number of columns is never
compared with the declared type (table_impl.py:722-744 checks rows and dtype only), so a one-hot column
that lost its extension type on the way (C84) yields a tensor of another width than declared, without an
error. -/
theorem table2tensor_width_violated :
    ∃ (t : TableTy Nat) (r : TensorTy Nat) (v : RTable Int Nat) (m : List (List Int)),
      table2tensorAe t 1 = .ok r ∧ r.shape = [1, 3] ∧ v.cols.map Prod.fst = t.schema.map Prod.fst ∧
      table2tensorImpl toyPromote 1 r.elem v = .ok m ∧ m = [[1]] :=
  ⟨{ schema := [("v", .vector 7 3)] }, ⟨7, [1, 3]⟩, ⟨1, [("v", 7, .plain [1])]⟩, [[1]],
    by decide, rfl, rfl, by decide, rfl⟩

/-! ## Round trips -/

theorem put_new {A : Type} (k : String) (v : A) : ∀ (l : List (String × A)), k ∉ l.map Prod.fst →
    put k v l = l ++ [(k, v)]
  | [], _ => rfl
  | (k', v') :: l, h => by
      simp at h
      rw [put, if_neg (fun e => h.1 e.symm), put_new k v l (by simpa using h.2)]
      rfl

theorem put_fold {A : Type} (f : Nat → A) : ∀ (names : List String) (i : Nat) (acc : List (String × A)),
    (acc.map Prod.fst ++ names).Nodup →
    (names.zipIdx i).foldl (fun acc p => put p.1 (f p.2) acc) acc =
      acc ++ (names.zipIdx i).map fun p => (p.1, f p.2)
  | [], i, acc, _ => by simp
  | n :: names, i, acc, h => by
      rw [List.zipIdx_cons, List.foldl_cons, put_new]
      · rw [put_fold f names (i + 1)]
        · simp
        · simpa using h
      · rw [List.nodup_append] at h
        exact fun hm => h.2.2 n hm n List.mem_cons_self rfl

theorem tensor2table_cols (d : D) (n : Nat) (arr : List (List V)) (names : List String) (hn : names.Nodup) :
    tensor2tableImpl d n names.length arr names =
      .ok ⟨n, (names.zipIdx).map fun p => (p.1, d, Col.plain (arr.map fun r => r.getD p.2 0))⟩ := by
  unfold tensor2tableImpl
  rw [if_neg (by simp), put_fold (fun i => (d, Col.plain (arr.map fun r => r.getD i 0))) names 0 [] (by simpa using hn)]
  simp

/-- **C85, round trip.** A matrix turned into a table and back is the same matrix, for any distinct column
names (at least one), any number of rows, none included. -/
theorem tensor_table_tensor (promote : List D → D)
    (hp : ∀ (d : D) (l : List D), l ≠ [] → (∀ x ∈ l, x = d) → promote l = d) (d : D) (arr : List (List V))
    (names : List String) (hne : names ≠ []) (hn : names.Nodup) (hw : ∀ row ∈ arr, row.length = names.length) :
    ∃ t, tensor2tableImpl d arr.length names.length arr names = .ok t ∧ t.cols.map Prod.fst = names ∧
      table2tensorImpl promote (-1) d t = .ok arr := by
  refine ⟨_, tensor2table_cols d arr.length arr names hn, ?_, ?_⟩
  · simp [List.map_map, Function.comp_def]
  · unfold table2tensorImpl
    rw [if_neg (by omega)]
    simp only [List.map_map, Function.comp_def]
    have hlen : (names.zipIdx.map fun p => Col.plain (arr.map fun r => r.getD p.2 0)).length = names.length := by simp
    obtain ⟨m, e1, e2, e3, e4⟩ := table_matrix_partial
      (names.zipIdx.map fun p => Col.plain (arr.map fun r => r.getD p.2 0)) arr.length
      (by intro e; apply hne; simpa using e)
      (by intro c hc; simp at hc; obtain ⟨a, b, _, rfl⟩ := hc; simp [Col.rows])
      (by intro c hc; simp at hc; obtain ⟨a, b, _, rfl⟩ := hc; trivial)
      (by intro c hc; simp at hc; obtain ⟨a, b, _, rfl⟩ := hc; rfl)
    have hws : ((names.zipIdx.map fun p => (Col.plain (arr.map fun r => r.getD p.2 0) : Col V)).map Col.width) =
        List.replicate names.length 1 := by
      rw [List.eq_replicate_iff]
      refine ⟨by simp, ?_⟩
      intro b hb
      simp only [List.map_map, List.mem_map, Function.comp_apply] at hb
      obtain ⟨_, _, rfl⟩ := hb
      rfl
    rw [hws] at e3 e4
    have hm : m = arr := by
      apply List.ext_getElem? 
      intro r
      by_cases hr : r < arr.length
      · have hr' : r < m.length := by omega
        rw [List.getElem?_eq_getElem hr, List.getElem?_eq_getElem hr']
        congr 1
        apply List.ext_getElem?
        intro c
        by_cases hc : c < names.length
        · have hcell : CellMeans (Col.plain (arr.map fun r => r.getD c 0)) r 0 (arr[r].getD c 0) :=
            .plain _ _ _ (by simp [hr])
          obtain ⟨row, g1, g2⟩ := e4 c r 0 (.plain (arr.map fun r => r.getD c 0)) _ (by simp [hc])
            (Nat.lt_succ_self 0) hcell
          rw [List.getElem?_eq_getElem hr'] at g1
          cases g1
          have hs : ((List.replicate names.length 1).take c).sum = c := by simp; omega
          rw [hs, Nat.add_zero] at g2
          rw [g2]
          have hl := hw arr[r] (List.getElem_mem hr)
          rw [List.getElem?_eq_getElem (by omega), List.getD_eq_getElem?_getD, List.getElem?_eq_getElem (by omega)]
          rfl
        · have h1 := hw arr[r] (List.getElem_mem hr)
          have h2 := e3 m[r] (List.getElem_mem hr')
          simp at h2
          rw [List.getElem?_eq_none (by omega), List.getElem?_eq_none (by omega)]
      · rw [List.getElem?_eq_none (by omega), List.getElem?_eq_none (by omega)]
    rw [e1, hm]
    simp only
    rw [hp d]
    · simp
    · intro e; apply hne; simpa using e
    · intro x hx; simp at hx; exact hx.2

example : (["a", "b"] : List String).Nodup ∧
    (tensor2tableImpl (7 : Nat) 2 2 [[1, 2], [3, (4 : Int)]] ["a", "b"]).toOption.map
      (fun t => table2tensorImpl toyPromote (-1) 7 t) = some (.ok [[1, 2], [3, 4]]) := by
  refine ⟨by decide, by decide⟩

/-- **C85, round trip.** A table of scalar columns of one dtype, with distinct names, turned into a matrix
and back with its own column names, is the same table. -/
theorem table_tensor_table (promote : List D → D)
    (hp : ∀ (d : D) (l : List D), l ≠ [] → (∀ x ∈ l, x = d) → promote l = d) (d : D)
    (cols : List (String × List V)) (n : Nat) (hne : cols ≠ []) (hn : (cols.map Prod.fst).Nodup)
    (hl : ∀ c ∈ cols, c.2.length = n) :
    ∃ m, table2tensorImpl promote (-1) d ⟨n, cols.map fun c => (c.1, d, .plain c.2)⟩ = .ok m ∧
      tensor2tableImpl d n cols.length m (cols.map Prod.fst) = .ok ⟨n, cols.map fun c => (c.1, d, .plain c.2)⟩ := by
  obtain ⟨m, e1, e2, e3, e4⟩ := table_matrix_partial (cols.map fun c => (Col.plain c.2 : Col V)) n
    (by simpa using hne)
    (by intro c hc; simp only [List.mem_map] at hc; obtain ⟨a, ha, rfl⟩ := hc; exact hl a ha)
    (by intro c hc; simp only [List.mem_map] at hc; obtain ⟨a, ha, rfl⟩ := hc; trivial)
    (by intro c hc; simp only [List.mem_map] at hc; obtain ⟨a, ha, rfl⟩ := hc; rfl)
  have hws : (cols.map fun c => (Col.plain c.2 : Col V)).map Col.width = List.replicate cols.length 1 := by
    rw [List.eq_replicate_iff]
    refine ⟨by simp, ?_⟩
    intro b hb
    simp only [List.map_map, List.mem_map, Function.comp_apply] at hb
    obtain ⟨_, _, rfl⟩ := hb
    rfl
  rw [hws] at e4
  refine ⟨m, ?_, ?_⟩
  · unfold table2tensorImpl
    rw [if_neg (by omega)]
    simp only [List.map_map, Function.comp_def]
    rw [e1]
    simp only
    rw [hp d]
    · simp
    · simpa using hne
    · intro x hx; simp at hx; exact hx.2
  · have hlen : cols.length = (cols.map Prod.fst).length := by simp
    rw [hlen, tensor2table_cols d n m _ hn]
    congr 2
    apply List.ext_getElem?
    intro c
    by_cases hc : c < cols.length
    · simp only [List.getElem?_map, List.getElem?_zipIdx, List.getElem?_eq_getElem hc, Option.map_some, Nat.zero_add]
      congr 4
      apply List.ext_getElem?
      intro r
      have hcl := hl cols[c] (List.getElem_mem hc)
      by_cases hr : r < n
      · have hr' : r < m.length := by omega
        obtain ⟨row, g1, g2⟩ := e4 c r 0 (.plain cols[c].2) (cols[c].2[r]'(by omega)) (by simp [hc])
          (Nat.lt_succ_self 0) (.plain _ _ _ (List.getElem?_eq_getElem (by omega)))
        have hs : ((List.replicate cols.length 1).take c).sum = c := by simp; omega
        rw [hs, Nat.add_zero] at g2
        rw [List.getElem?_map, g1, List.getElem?_eq_getElem (by omega)]
        simp [List.getD_eq_getElem?_getD, g2]
      · rw [List.getElem?_eq_none (by simp; omega), List.getElem?_eq_none (by omega)]
    · rw [List.getElem?_eq_none (by simpa using hc), List.getElem?_eq_none (by simpa using hc)]

example : ([("a", [1, 2]), ("b", [3, (4 : Int)])] : List (String × List Int)).map Prod.fst |>.Nodup := by decide

end Verif.Arrow
