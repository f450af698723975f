import Verif.Arrow.Vector
import Mathlib.Data.List.GetD
import Mathlib.Data.List.Nodup

/-
C83: vector columns expand to the vectors they stand for.
-/
namespace Verif.Arrow

variable {V : Type} [Zero V] [One V]

/-! ## Specification -/

/-- A sparse row is sound: as many indices as values, and no index twice. -/
def SparseSound (row : SparseRow V) : Prop :=
  ∀ is vs, row = some (is, vs) → is.length = vs.length ∧ is.Nodup

/-- The vector a sparse row stands for: component `j` is `x`. A pair `(j, x)` puts `x` at `j`; a component
that no pair mentions is zero; a null row is the zero vector. -/
inductive SparseMeans (row : SparseRow V) (j : Nat) : V → Prop
  | stored (is : List Int) (vs : List V) (k : Nat) (x : V) :
      row = some (is, vs) → is[k]? = some (j : Int) → vs[k]? = some x → SparseMeans row j x
  | absent (is : List Int) (vs : List V) : row = some (is, vs) → (j : Int) ∉ is → SparseMeans row j 0
  | null : row = none → SparseMeans row j 0

/-- The vector a one-hot row stands for. -/
inductive OneHotMeans (row : Option Int) (j : Nat) : V → Prop
  | active : row = some (j : Int) → OneHotMeans row j 1
  | other : row ≠ some (j : Int) → OneHotMeans row j 0

/-! ## Sparse -/

omit [One V] in
theorem sparseFill_length (size : Int) : ∀ (is : List Int) (vs acc out : List V),
    sparseFill size acc is vs = .ok out → out.length = acc.length
  | [], [], acc, out, h => by simp [sparseFill] at h; rw [h]
  | [], _ :: _, _, _, h => by simp [sparseFill] at h
  | _ :: _, [], _, _, h => by simp [sparseFill] at h
  | i :: is, v :: vs, acc, out, h => by
      rw [sparseFill] at h
      rw [sparseFill_length size is vs _ _ h]
      split <;> simp

omit [One V] in
theorem sparseFill_total (size : Int) : ∀ (is : List Int) (vs acc : List V), is.length = vs.length →
    ∃ out, sparseFill size acc is vs = .ok out
  | [], [], acc, _ => ⟨acc, rfl⟩
  | [], _ :: _, _, h => by simp at h
  | _ :: _, [], _, h => by simp at h
  | _ :: is, _ :: vs, _, h => by
      rw [sparseFill]
      exact sparseFill_total size is vs _ (by simpa using h)

omit [One V] in
theorem sparseFill_other (size : Int) (j : Nat) : ∀ (is : List Int) (vs acc out : List V),
    sparseFill size acc is vs = .ok out → (j : Int) ∉ is → out[j]? = acc[j]?
  | [], [], acc, out, h, _ => by simp [sparseFill] at h; rw [h]
  | [], _ :: _, _, _, h, _ => by simp [sparseFill] at h
  | _ :: _, [], _, _, h, _ => by simp [sparseFill] at h
  | i :: is, v :: vs, acc, out, h, hj => by
      rw [sparseFill] at h
      simp only [List.mem_cons, not_or] at hj
      rw [sparseFill_other size j is vs _ _ h hj.2]
      split
      · rename_i hi
        rw [List.getElem?_set_ne]
        omega
      · rfl

omit [One V] in
theorem sparseFill_hit (size : Int) (j : Nat) (x : V) : ∀ (is : List Int) (vs acc out : List V) (k : Nat),
    sparseFill size acc is vs = .ok out → is.Nodup → is[k]? = some (j : Int) → vs[k]? = some x →
    (j : Int) < size → j < acc.length → out[j]? = some x
  | [], _, _, _, k, _, _, hk, _, _, _ => by simp at hk
  | _ :: _, [], _, _, _, h, _, _, _, _, _ => by simp [sparseFill] at h
  | i :: is, v :: vs, acc, out, k, h, hn, hk, hv, hs, ha => by
      rw [sparseFill] at h
      rw [List.nodup_cons] at hn
      cases k with
      | zero =>
        simp at hk hv
        subst hk hv
        rw [sparseFill_other size j is vs _ _ h hn.1]
        rw [if_pos ⟨by omega, hs⟩]
        simp [ha]
      | succ k =>
        simp at hk hv
        refine sparseFill_hit size j x is vs _ out k h hn.2 hk hv hs ?_
        split <;> simpa using ha

omit [One V] in
theorem sparseFind_hit (j : Int) (x : V) : ∀ (is : List Int) (vs : List V) (k : Nat),
    is.Nodup → is[k]? = some j → vs[k]? = some x → is.length = vs.length → sparseFind j is vs = .ok x
  | [], _, k, _, hk, _, _ => by simp at hk
  | _ :: _, [], _, _, _, _, h => by simp at h
  | i :: is, v :: vs, k, hn, hk, hv, hl => by
      rw [List.nodup_cons] at hn
      cases k with
      | zero => simp at hk hv; subst hk hv; simp [sparseFind]
      | succ k =>
        simp at hk hv
        have : i ≠ j := fun e => hn.1 (e ▸ List.mem_of_getElem? hk)
        rw [sparseFind, if_neg this]
        exact sparseFind_hit j x is vs k hn.2 hk hv (by simpa using hl)

omit [One V] in
theorem sparseFind_absent (j : Int) : ∀ (is : List Int) (vs : List V),
    j ∉ is → is.length = vs.length → sparseFind j is vs = .ok 0
  | [], [], _, _ => rfl
  | [], _ :: _, _, h => by simp at h
  | _ :: _, [], _, h => by simp at h
  | i :: is, v :: vs, hj, hl => by
      simp only [List.mem_cons, not_or] at hj
      rw [sparseFind, if_neg (fun e => hj.1 e.symm)]
      exact sparseFind_absent j is vs hj.2 (by simpa using hl)

omit [One V] in
/-- Every component has a meaning. -/
theorem sparseMeans_exists (row : SparseRow V) (j : Nat) (h : SparseSound row) : ∃ x, SparseMeans row j x := by
  cases row with
  | none => exact ⟨0, .null rfl⟩
  | some p =>
    obtain ⟨is, vs⟩ := p
    have hl := (h is vs rfl).1
    by_cases hm : (j : Int) ∈ is
    · obtain ⟨k, hk, e⟩ := List.getElem_of_mem hm
      exact ⟨vs[k]'(hl ▸ hk), .stored is vs k _ rfl (by rw [List.getElem?_eq_getElem hk, e])
        (List.getElem?_eq_getElem _)⟩
    · exact ⟨0, .absent is vs rfl hm⟩

omit [One V] in
/-- **C83, sparse columns, one vector.** For a row whose two lists have the same length and whose indices
are distinct, indexing the item and listing it agree with the vector the row stands for at every position,
the list has exactly `size` components, and any other position raises IndexError. -/
theorem sparse_item_agrees_partial (size : Int) (row : SparseRow V) (hs : SparseSound row) :
    ∃ l, sparseAsPy size row = .ok l ∧ l.length = size.toNat ∧
      (∀ j : Nat, (j : Int) < size → ∀ x, SparseMeans row j x →
        l[j]? = some x ∧ sparseGet size row j = .ok x) ∧
      (∀ j : Int, j < 0 ∨ j ≥ size → sparseGet size row j = .error .indexError) := by
  have out : ∀ j : Int, j < 0 ∨ j ≥ size → sparseGet size row j = .error .indexError := by
    intro j h
    unfold sparseGet
    rw [if_pos h]
  cases row with
  | none =>
    refine ⟨_, rfl, by simp, ?_, out⟩
    intro j hj x hx
    have : x = 0 := by
      cases hx with
      | stored is vs k x h1 => simp at h1
      | absent is vs h1 => simp at h1
      | null => rfl
    subst this
    refine ⟨?_, ?_⟩
    · rw [List.getElem?_replicate, if_pos (by omega)]
    · rw [sparseGet, if_neg (by omega)]
  | some p =>
    obtain ⟨is, vs⟩ := p
    obtain ⟨hl, hn⟩ := hs is vs rfl
    obtain ⟨l, hf⟩ := sparseFill_total size is vs (List.replicate size.toNat 0) hl
    have hlen := sparseFill_length size is vs _ _ hf
    rw [List.length_replicate] at hlen
    refine ⟨l, hf, hlen, ?_, out⟩
    intro j hj x hx
    have hin : ¬ ((j : Int) < 0 ∨ (j : Int) ≥ size) := by omega
    have hg : sparseGet size (some (is, vs)) j = sparseFind j is vs := by
      unfold sparseGet
      rw [if_neg hin]
    rw [hg]
    cases hx with
    | stored is' vs' k x h1 h2 h3 =>
      simp only [Option.some.injEq, Prod.mk.injEq] at h1
      obtain ⟨rfl, rfl⟩ := h1
      exact ⟨sparseFill_hit size j x is vs _ l k hf hn h2 h3 hj (by simp; omega),
        sparseFind_hit j x is vs k hn h2 h3 hl⟩
    | absent is' vs' h1 h2 =>
      simp only [Option.some.injEq, Prod.mk.injEq] at h1
      obtain ⟨rfl, rfl⟩ := h1
      refine ⟨?_, sparseFind_absent j is vs h2 hl⟩
      rw [sparseFill_other size j is vs _ _ hf h2, List.getElem?_replicate, if_pos (by omega)]
    | null h1 => simp at h1

/-- The hypotheses of `sparse_item_agrees_partial` are met by a row with two stored entries, one of them
outside the vector. -/
example : SparseSound (V := Int) (some ([2, 9, 0], [5, 6, 7])) ∧
    SparseMeans (V := Int) (some ([2, 9, 0], [5, 6, 7])) 2 5 ∧
    sparseAsPy 3 (some ([2, 9, 0], [5, 6, 7])) = .ok [(7 : Int), 0, 5] :=
  ⟨fun is vs h => by simp at h; obtain ⟨rfl, rfl⟩ := h; simp, .stored _ _ 0 _ rfl rfl rfl, by decide⟩

/-- **C83 does not hold for a sparse row that names an index twice**: indexing returns the first value,
listing the last one (vector.py:96-98 against 113-116). Nothing in `SparseVectorType` or in the array
rejects such a row. -/
theorem sparse_duplicate_violated :
    ∃ (row : SparseRow Int) (l : List Int), sparseAsPy 2 row = .ok l ∧
      ∃ x, sparseGet 2 row 1 = .ok x ∧ l[1]? ≠ some x :=
  ⟨some ([1, 1], [5, 6]), [0, 6], by decide, 5, by decide, by decide⟩

omit [One V] in
theorem mapM_except {A B : Type} {f : A → Except Err B} : ∀ {l : List A} {out : List B},
    l.mapM f = .ok out ↔ List.Forall₂ (fun a b => f a = .ok b) l out
  | [], out => by
      simp only [List.mapM_nil]
      constructor
      · intro h; cases h; exact .nil
      · intro h; cases h; rfl
  | a :: l, out => by
      rw [List.mapM_cons]
      constructor
      · intro h
        cases hf : f a with
        | error e => rw [hf] at h; simp [bind, Except.bind] at h
        | ok b =>
          rw [hf] at h
          cases hr : l.mapM f with
          | error e => rw [hr] at h; simp [bind, Except.bind] at h
          | ok bs =>
            rw [hr] at h
            simp only [bind, Except.bind, pure, Except.pure, Except.ok.injEq] at h
            subst h
            exact .cons hf (mapM_except.1 hr)
      · intro h
        cases h with
        | cons h1 h2 =>
          rw [h1, mapM_except.2 h2]
          rfl

omit [One V] in
theorem sparseMatrix_shape (size : Int) (rows : List (SparseRow V)) (hs : ∀ r ∈ rows, SparseSound r) :
    ∃ m, sparseMatrix size rows = .ok m ∧ m.length = rows.length ∧
      ∀ (r : Nat) (row : SparseRow V), rows[r]? = some row →
        ∃ l, m[r]? = some l ∧ sparseAsPy size row = .ok l ∧ l.length = size.toNat := by
  induction rows with
  | nil => exact ⟨[], rfl, rfl, fun r row h => by simp at h⟩
  | cons a rows ih =>
    obtain ⟨m, hm, hl, hr⟩ := ih fun r h => hs r (List.mem_cons_of_mem _ h)
    obtain ⟨l, h1, h2, _⟩ := sparse_item_agrees_partial size a (hs a List.mem_cons_self)
    refine ⟨l :: m, mapM_except.2 (.cons h1 (mapM_except.1 hm)), by simp [hl], ?_⟩
    intro r row h
    cases r with
    | zero => simp at h; subst h; exact ⟨l, rfl, h1, h2⟩
    | succ r => simp at h; simpa using hr r row h

/-! ## One-hot -/

theorem oneHotAsPy_length (size : Int) (row : Option Int) : (oneHotAsPy size row : List V).length = size.toNat := by
  unfold oneHotAsPy
  cases row with
  | none => simp
  | some a => simp only []; split <;> simp

/-- **C83, one-hot columns, one vector.** Indexing the item and listing it agree with the vector the row
stands for at every position, the list has exactly `size` components and any other position raises
IndexError. No hypothesis: the active index may be null or out of range. -/
theorem one_hot_item_agrees (size : Int) (row : Option Int) :
    (oneHotAsPy size row : List V).length = size.toNat ∧
    (∀ j : Nat, (j : Int) < size → ∀ x : V, OneHotMeans row j x →
      (oneHotAsPy size row)[j]? = some x ∧ oneHotGet size row j = .ok x) ∧
    (∀ j : Int, j < 0 ∨ j ≥ size → (oneHotGet size row j : Except Err V) = .error .indexError) := by
  refine ⟨oneHotAsPy_length size row, ?_, fun j h => by rw [oneHotGet, if_pos h]⟩
  intro j hj x hx
  rw [oneHotGet, if_neg (by omega)]
  cases hx with
  | active h =>
    subst h
    refine ⟨?_, by simp⟩
    rw [oneHotAsPy, if_pos ⟨by omega, hj⟩]
    have e : ((j : Int)).toNat = j := by omega
    rw [e, List.getElem?_set_self]
    rw [List.length_replicate]
    omega
  | other h =>
    rw [if_neg h]
    refine ⟨?_, rfl⟩
    cases row with
    | none => rw [oneHotAsPy, List.getElem?_replicate, if_pos (by omega)]
    | some a =>
      rw [oneHotAsPy]
      split
      · rw [List.getElem?_set_ne, List.getElem?_replicate, if_pos (by omega)]
        intro e; apply h; congr 1; omega
      · rw [List.getElem?_replicate, if_pos (by omega)]

example : OneHotMeans (V := Int) (some 1) 1 1 ∧ OneHotMeans (V := Int) (some 1) 0 0 ∧
    (oneHotAsPy 3 (some 1) : List Int) = [0, 1, 0] := ⟨.active rfl, .other (by decide), by decide⟩

/-- **C83**: exactly one component of a one-hot vector is set when the active index is in range, none
otherwise. -/
theorem one_hot_single (size : Int) (row : Option Int) (hne : (1 : V) ≠ 0) :
    (∃ a : Int, row = some a ∧ 0 ≤ a ∧ a < size) ↔
      ∃ j : Nat, (oneHotAsPy size row : List V)[j]? = some 1 ∧
        ∀ k : Nat, (oneHotAsPy size row : List V)[k]? = some 1 → k = j := by
  obtain ⟨_, hag, _⟩ := one_hot_item_agrees (V := V) size row
  have key : ∀ k : Nat, (oneHotAsPy size row : List V)[k]? = some 1 → row = some (k : Int) ∧ (k : Int) < size := by
    intro k hk
    have hlt : (k : Int) < size := by
      have := (List.getElem?_eq_some_iff.1 hk).1
      rw [oneHotAsPy_length] at this
      omega
    refine ⟨?_, hlt⟩
    by_contra hc
    have := (hag k hlt 0 (.other hc)).1
    rw [hk] at this
    exact hne (Option.some.inj this)
  constructor
  · rintro ⟨a, rfl, h0, h1⟩
    refine ⟨a.toNat, (hag a.toNat (by omega) 1 (.active (by congr 1; omega))).1, ?_⟩
    intro k hk
    have := (key k hk).1
    simp only [Option.some.injEq] at this
    omega
  · rintro ⟨j, hj, _⟩
    obtain ⟨h1, h2⟩ := key j hj
    exact ⟨j, h1, by omega, h2⟩

example : (1 : Int) ≠ 0 := by decide

/-- The store of `to_numpy`, when the pairs come in row order and each row is still zero. -/
theorem setCells_append (size : Int) : ∀ (rows : List (Option Int)) (done : List (List V)),
    setCells (done ++ List.replicate rows.length (List.replicate size.toNat 0))
      (oneHotHits size done.length rows) = done ++ rows.map (oneHotAsPy size)
  | [], done => by simp [oneHotHits, setCells]
  | none :: rest, done => by
      have := setCells_append size rest (done ++ [List.replicate size.toNat 0])
      simp only [List.length_append, List.length_cons, List.length_nil, List.append_assoc] at this
      rw [oneHotHits]
      simpa [List.replicate_succ, oneHotAsPy] using this
  | some a :: rest, done => by
      rw [oneHotHits]
      split
      · rename_i h
        have := setCells_append size rest (done ++ [(List.replicate size.toNat 0).set a.toNat 1])
        simp only [List.length_append, List.length_cons, List.length_nil, List.append_assoc] at this
        rw [setCells]
        have e1 : (done ++ List.replicate (some a :: rest).length (List.replicate size.toNat (0 : V))).getD
            done.length [] = List.replicate size.toNat 0 := by
          simp [List.getD, List.replicate_succ]
        rw [e1]
        have e2 : (done ++ List.replicate (some a :: rest).length (List.replicate size.toNat (0 : V))).set
            done.length ((List.replicate size.toNat 0).set a.toNat 1) =
            done ++ ([(List.replicate size.toNat 0).set a.toNat 1] ++
              List.replicate rest.length (List.replicate size.toNat 0)) := by
          rw [List.set_append_right _ _ (Nat.le_refl _)]
          simp [List.replicate_succ]
        rw [e2, this]
        simp [oneHotAsPy, h]
      · rename_i h
        have := setCells_append size rest (done ++ [List.replicate size.toNat 0])
        simp only [List.length_append, List.length_cons, List.length_nil, List.append_assoc] at this
        simpa [List.replicate_succ, oneHotAsPy, h] using this

/-- **C83**: the vectorised conversion of a one-hot column to numpy gives exactly the lists of `to_pylist`. -/
theorem one_hot_numpy_pylist (size : Int) (rows : List (Option Int)) :
    (oneHotNumpy size rows : List (List V)) = oneHotPyList size rows := by
  have := setCells_append (V := V) size rows []
  simpa [oneHotNumpy, oneHotPyList] using this

example : (oneHotNumpy 3 [some 2, none, some 7, some 0] : List (List Int)) =
    [[0, 0, 1], [0, 0, 0], [0, 0, 0], [1, 0, 0]] := by decide

/-! ## Dense -/

omit [Zero V] [One V] in
theorem cut_flatten (size : Nat) : ∀ (ls : List (List V)), (∀ l ∈ ls, l.length = size) →
    cut size ls.length ls.flatten = ls
  | [], _ => rfl
  | l :: ls, h => by
      have hl := h l List.mem_cons_self
      simp only [List.length_cons, List.flatten_cons, cut]
      rw [List.take_left' hl, List.drop_left' hl,
        cut_flatten size ls fun x hx => h x (List.mem_cons_of_mem _ hx)]

omit [Zero V] [One V] in
theorem flatten_len (size : Nat) : ∀ (ls : List (List V)), (∀ l ∈ ls, l.length = size) →
    ls.flatten.length = size * ls.length
  | [], _ => by simp
  | l :: ls, h => by
      simp only [List.flatten_cons, List.length_append, List.length_cons, Nat.mul_succ]
      rw [h l List.mem_cons_self, flatten_len size ls fun x hx => h x (List.mem_cons_of_mem _ hx)]
      omega

omit [Zero V] [One V] in
/-- What a dense column becomes: its non-null rows, whatever they were interleaved with. -/
theorem denseNumpy_eq (size : Int) (hs : 0 < size) (rows : List (Option (List V)))
    (hw : ∀ l, some l ∈ rows → (l.length : Int) = size) :
    denseNumpy size rows = .ok (rows.filterMap id) := by
  have hw' : ∀ l ∈ rows.filterMap id, l.length = size.toNat := by
    intro l hl
    rw [List.mem_filterMap] at hl
    obtain ⟨a, ha, e⟩ := hl
    simp at e
    subst e
    have := hw l ha
    omega
  have hlen := flatten_len _ _ hw'
  have hpos : 0 < size.toNat := by omega
  unfold denseNumpy denseFlatten
  simp only [hlen, Nat.mul_mod_right, Nat.mul_div_cancel_left _ hpos]
  rw [if_neg (by omega), cut_flatten _ _ hw']

omit [Zero V] [One V] in
/-- **C83, dense columns.** A dense column without null rows converts to the matrix whose row `r` is the
stored vector `r`. -/
theorem dense_rows_partial (size : Int) (hs : 0 < size) (ls : List (List V))
    (hw : ∀ l ∈ ls, (l.length : Int) = size) : denseNumpy size (ls.map some) = .ok ls := by
  rw [denseNumpy_eq size hs]
  · congr 1
    induction ls with
    | nil => rfl
    | cons a ls ih => simpa using ih fun l hl => hw l (List.mem_cons_of_mem _ hl)
  · intro l hl
    simp at hl
    exact hw l hl

example : ∀ l ∈ ([[1, 2], [3, 4]] : List (List Nat)), (l.length : Int) = 2 := by decide

/-- **C83 does not hold for a dense column with a null row**: the row disappears, and every later row moves
up (`storage.flatten()` skips the slots of null rows, vector.py:58). -/
theorem dense_null_violated :
    ∃ rows : List (Option (List Int)), rows.length = 3 ∧ denseNumpy 2 rows = .ok [[1, 2], [3, 4]] ∧
      rows[2]? = some (some [3, 4]) :=
  ⟨[some [1, 2], none, some [3, 4]], rfl, by decide, rfl⟩

end Verif.Arrow
