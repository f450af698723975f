import Mathlib.Algebra.Group.Defs

/-
Vector columns of Arrow tables: how dense, sparse and one-hot columns are read, one element at a time,
as Python lists and as numpy matrices, and how a table with such columns becomes a matrix.
Models mplang/extend/arrow/vector.py:40-205, 237-355, 618-657.

Simplifications, used throughout this directory:
* `V` is the type of the numbers stored, with a zero and a one; numpy element conversions (the `dtype` of
  the array) are the identity on it.
* a storage row is `none` when Arrow's validity bit is clear (a null row); list children hold no nulls.
* a table is a list of columns; `combine_chunks` has been applied (a column is one list of rows).
-/
namespace Verif.Arrow

/-- The exceptions the modelled code raises (vector.py:85-88, 96, 374-381; numpy's ValueError of
`concatenate` and `reshape`). -/
inductive Err
  | indexError
  | valueError
  | typeError
  | keyError
  deriving DecidableEq, Repr

deriving instance DecidableEq for Except

variable {V : Type} [Zero V] [One V]

/-- One stored row of a sparse column: null, or the two lists of the struct
(vector.py:464-467: `struct<indices: list, values: list>`). -/
abbrev SparseRow (V : Type) := Option (List Int × List V)

/-- The loop of `SparseVectorItem.__getitem__` (vector.py:96-100): the first pair whose index matches wins;
`zip(strict=True)` raises ValueError when one list ends before the other. -/
def sparseFind (j : Int) : List Int → List V → Except Err V
  | i :: is, v :: vs => if i = j then .ok v else sparseFind j is vs
  | [], [] => .ok 0
  | _, _ => .error .valueError

/-- `SparseVectorItem.__getitem__` (vector.py:73-100). -/
def sparseGet (size : Int) (row : SparseRow V) (j : Int) : Except Err V :=
  if j < 0 ∨ j ≥ size then .error .indexError
  else match row with
    | none => .ok 0
    | some (is, vs) => sparseFind j is vs

/-- The filling loop shared by `SparseVectorItem.as_py` (vector.py:113-116),
`SparseVectorArray.to_pylist` (vector.py:164-167) and `to_numpy` (vector.py:201-204):
assign each pair whose index is in range, skip the others, strict zip. -/
def sparseFill (size : Int) : List V → List Int → List V → Except Err (List V)
  | acc, i :: is, v :: vs =>
    sparseFill size (if 0 ≤ i ∧ i < size then acc.set i.toNat v else acc) is vs
  | acc, [], [] => .ok acc
  | _, _, _ => .error .valueError

/-- `SparseVectorItem.as_py` (vector.py:102-117). -/
def sparseAsPy (size : Int) (row : SparseRow V) : Except Err (List V) :=
  match row with
  | none => .ok (List.replicate size.toNat 0)
  | some (is, vs) => sparseFill size (List.replicate size.toNat 0) is vs

/-- `SparseVectorArray.to_pylist` (vector.py:142-171) and `to_numpy` (vector.py:173-206): row by row. -/
def sparseMatrix (size : Int) (rows : List (SparseRow V)) : Except Err (List (List V)) :=
  rows.mapM (sparseAsPy size)

/-- `OneHotVectorItem.__getitem__` (vector.py:248-266): `active_index == index`; a null is equal to no
index. -/
def oneHotGet (size : Int) (row : Option Int) (j : Int) : Except Err V :=
  if j < 0 ∨ j ≥ size then .error .indexError
  else .ok (if row = some j then 1 else 0)

/-- `OneHotVectorItem.as_py` (vector.py:268-278) and the loop body of `OneHotVectorArray.to_pylist`
(vector.py:348-354). -/
def oneHotAsPy (size : Int) (row : Option Int) : List V :=
  match row with
  | none => List.replicate size.toNat 0
  | some a => if 0 ≤ a ∧ a < size then (List.replicate size.toNat 0).set a.toNat 1
              else List.replicate size.toNat 0

/-- `OneHotVectorArray.to_pylist` (vector.py:342-355). -/
def oneHotPyList (size : Int) (rows : List (Option Int)) : List (List V) :=
  rows.map (oneHotAsPy size)

/-- The `(row, index)` pairs that survive the two masks in `OneHotVectorArray.to_numpy`
(vector.py:331-337), in row order, starting at row `r`. -/
def oneHotHits (size : Int) : Nat → List (Option Int) → List (Nat × Nat)
  | _, [] => []
  | r, none :: rest => oneHotHits size (r + 1) rest
  | r, some a :: rest =>
    if 0 ≤ a ∧ a < size then (r, a.toNat) :: oneHotHits size (r + 1) rest
    else oneHotHits size (r + 1) rest

/-- The advanced-indexing store `result[rows, indices] = one` (vector.py:339). -/
def setCells (m : List (List V)) : List (Nat × Nat) → List (List V)
  | [] => m
  | (r, c) :: rest => setCells (m.set r ((m.getD r []).set c 1)) rest

/-- `OneHotVectorArray.to_numpy` (vector.py:303-340). -/
def oneHotNumpy (size : Int) (rows : List (Option Int)) : List (List V) :=
  setCells (List.replicate rows.length (List.replicate size.toNat 0)) (oneHotHits size 0 rows)

/-- `storage.flatten()` of a fixed-size list array (vector.py:58): the values of the valid rows only;
Arrow discards the slots of null rows. -/
def denseFlatten (rows : List (Option (List V))) : List V := (rows.filterMap id).flatten

/-- `a.reshape(-1, size)` of a flat array (vector.py:59), by fuel on the number of rows left: numpy
raises ValueError when the length is no multiple of `size`. -/
def cut (size : Nat) : Nat → List V → List (List V)
  | 0, _ => []
  | n + 1, l => l.take size :: cut size n (l.drop size)

/-- `DenseVectorArray.to_numpy` (vector.py:41-59). -/
def denseNumpy (size : Int) (rows : List (Option (List V))) : Except Err (List (List V)) :=
  let flat := denseFlatten rows
  if size ≤ 0 ∨ flat.length % size.toNat ≠ 0 then .error .valueError
  else .ok (cut size.toNat (flat.length / size.toNat) flat)

/-- A column of a table, as `table_to_numpy` distinguishes them (vector.py:642-654): a plain numeric
column, or an extension array with its declared `size`. -/
inductive Col (V : Type)
  | plain (vals : List V)
  | dense (size : Int) (rows : List (Option (List V)))
  | sparse (size : Int) (rows : List (SparseRow V))
  | oneHot (size : Int) (rows : List (Option Int))

/-- `len(column)`: the number of rows Arrow stores. -/
def Col.rows : Col V → Nat
  | .plain vs => vs.length
  | .dense _ rs => rs.length
  | .sparse _ rs => rs.length
  | .oneHot _ rs => rs.length

/-- `isinstance(col.type, VectorType)` (vector.py:634, 643). -/
def Col.isVector : Col V → Bool
  | .plain _ => false
  | _ => true

/-- One element of `result_parts` (vector.py:642-654): the 2-D array of a column. -/
def Col.part : Col V → Except Err (List (List V))
  | .plain vs => .ok (vs.map fun v => [v])
  | .dense s rs => denseNumpy s rs
  | .sparse s rs => sparseMatrix s rs
  | .oneHot s rs => .ok (oneHotNumpy s rs)

/-- `np.concatenate(parts, axis=1)` (vector.py:657): all parts must have the same number of rows (numpy
raises ValueError otherwise), and row `r` of the result is row `r` of each part one after the other. An
empty list of parts is an error of numpy too. -/
def hcat : List (List (List V)) → Except Err (List (List V))
  | [] => .error .valueError
  | [p] => .ok p
  | p :: q :: rest =>
    match hcat (q :: rest) with
    | .error e => .error e
    | .ok m => if p.length = m.length then .ok (List.zipWith (· ++ ·) p m) else .error .valueError

/-- `table_to_numpy` (vector.py:618-657). The fast path for a table without vector columns goes through
pandas (`table.to_pandas().to_numpy()`), which lines the columns up side by side as well; it gives an
`n × 0` matrix when the table has no column, here the empty matrix. -/
def tableToNumpy (t : List (Col V)) : Except Err (List (List V)) :=
  if t.any Col.isVector then
    match t.mapM Col.part with
    | .error e => .error e
    | .ok parts => hcat parts
  else if t.isEmpty then .ok []
  else
    match t.mapM Col.part with
    | .error e => .error e
    | .ok parts => hcat parts

end Verif.Arrow
