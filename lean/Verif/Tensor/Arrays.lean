import Verif.Tensor.Rules
import Mathlib.Data.List.Forall2
import Mathlib.Tactic.Ring
import Mathlib.Tactic.Linarith
/-!
Run-time arrays and the numpy calls the tensor backend makes (backends/tensor_impl.py:278-373, 764-814).

An array is a shape and its elements in row-major order.  numpy itself is a library: `npTranspose`, `npReshape`,
`npConcatenate`, `npTake` and `pySliceIx` state its documented behaviour.
-/

namespace Verif.Tensor

/-- A numpy array: shape and row-major elements. -/
structure Arr (α : Type) where
  shape : List Nat
  data : List α
  deriving DecidableEq, Repr

/-- Number of elements. -/
def size : List Nat → Nat
  | [] => 1
  | d :: r => d * size r

/-- `np.ndindex(shape)`: every index, in row-major order. -/
def ndindex : List Nat → List (List Nat)
  | [] => [[]]
  | d :: r => (List.range d).flatMap fun i => (ndindex r).map (i :: ·)

/-- Position of an index in row-major order. -/
def ravel : List Nat → List Nat → Nat
  | _ :: r, i :: ir => i * size r + ravel r ir
  | _, _ => 0

/-- An index is inside a shape. -/
def InB (idx shape : List Nat) : Prop := List.Forall₂ (fun i d => i < d) idx shape

/-- Decidable version. -/
def inB : List Nat → List Nat → Bool
  | [], [] => true
  | i :: ir, d :: dr => decide (i < d) && inB ir dr
  | _, _ => false

/-- `arr[index]` with a full, non-negative index: `IndexError` when it is out of bounds. -/
def Arr.get {α : Type} (a : Arr α) (idx : List Nat) : Except Err α :=
  if inB idx a.shape then
    match a.data[ravel a.shape idx]? with
    | some x => .ok x
    | none => .error .indexError
  else .error .indexError

/-- Sequential map that stops at the first exception. -/
def mapE {α β : Type} (f : α → Except Err β) : List α → Except Err (List β)
  | [] => .ok []
  | x :: r => do
    let y ← f x
    let ys ← mapE f r
    pure (y :: ys)

/-- Build an array from a function of the index. -/
def build {α : Type} (sh : List Nat) (f : List Nat → Except Err α) : Except Err (Arr α) := do
  let d ← mapE f (ndindex sh)
  pure ⟨sh, d⟩

/-- `np.transpose(a, axes=perm)` as called by `transpose_impl` (backends/tensor_impl.py:809-814): `axes` must have
one entry per dimension, in range (negative entries count from the end) and without repeats;
`out[i_0, …] = a[j_0, …]` where `j_{perm k} = i_k`. -/
def npTranspose {α : Type} (a : Arr α) (perm : List Int) : Except Err (Arr α) :=
  let n := a.shape.length
  if perm.length ≠ n then .error .valueError
  else if perm.any (fun p => decide (p < -(n : Int)) || decide (p ≥ n)) then .error .valueError
  else
    let q := perm.map fun p : Int => (if p < 0 then p + (n : Int) else p).toNat
    if ¬ q.Nodup then .error .valueError
    else build (q.map fun p => a.shape.getD p 0)
      (fun idx => a.get ((List.range n).map fun p => idx.getD (q.idxOf p) 0))

/-- `transpose_impl` (backends/tensor_impl.py:809-814). -/
def transposeImpl {α : Type} (a : Arr α) (perm : List Int) : Except Err (Arr α) := npTranspose a perm

/-- `ndarray.reshape(new_shape)`: one negative entry is inferred, two are an error; the element count must match. -/
def npReshape {α : Type} (a : Arr α) (newShape : List Int) : Except Err (Arr α) :=
  let n : Int := size a.shape
  let neg := newShape.countP (fun d => decide (d < 0))
  if neg > 1 then .error .valueError
  else if neg = 0 then
    if n ≠ prodI newShape then .error .valueError
    else .ok ⟨newShape.map Int.toNat, a.data⟩
  else
    let known := prodI (newShape.filter fun d => decide (¬ d < 0))
    if known = 0 then .error .valueError
    else if n.fmod known ≠ 0 then .error .valueError
    else .ok ⟨newShape.map (fun d => if d < 0 then (n.fdiv known).toNat else d.toNat), a.data⟩

/-- `reshape_impl` (backends/tensor_impl.py:801-806). -/
def reshapeImpl {α : Type} (a : Arr α) (newShape : List Int) : Except Err (Arr α) := npReshape a newShape

/-- numpy's axis normalisation. -/
def npAxis (axis : Int) (n : Nat) : Except Err Nat :=
  if axis < -(n : Int) ∨ axis ≥ n then .error .valueError
  else .ok (if axis < 0 then axis + (n : Int) else axis).toNat

/-- Which part an index along the concatenation axis falls into, and the index inside that part. -/
def locate : List Nat → Nat → Option (Nat × Nat)
  | [], _ => none
  | d :: r, i => if i < d then some (0, i) else (locate r (i - d)).map fun p => (p.1 + 1, p.2)

/-- `np.concatenate(arrays, axis)`: all arrays have the same rank and the same dims outside the axis. -/
def npConcatenate {α : Type} (as : List (Arr α)) (axis : Int) : Except Err (Arr α) :=
  match as with
  | [] => .error .valueError
  | a :: r => do
    let ax ← npAxis axis a.shape.length
    if r.any (fun b => decide (b.shape.length ≠ a.shape.length) || decide (b.shape.set ax 0 ≠ a.shape.set ax 0)) then
      .error .valueError
    else
      let lens := (a :: r).map fun b => b.shape.getD ax 0
      build (a.shape.set ax lens.sum) fun idx =>
        match locate lens (idx.getD ax 0) with
        | none => .error .indexError
        | some (k, j) =>
          match (a :: r)[k]? with
          | none => .error .indexError
          | some b => b.get (idx.set ax j)

/-- `concat_impl` (backends/tensor_impl.py:278-284). -/
def concatImpl {α : Type} (as : List (Arr α)) (axis : Int) : Except Err (Arr α) := npConcatenate as axis

/-- `np.take(a, ix, axis)`: negative indices count from the end, out of range ones are an `IndexError`. -/
def npTake {α : Type} (a : Arr α) (ix : Arr Int) (axis : Int) : Except Err (Arr α) := do
  let ax ← npAxis axis a.shape.length
  let n := a.shape.getD ax 0
  if ix.data.any (fun i => decide (i < -(n : Int)) || decide (i ≥ n)) then .error .indexError
  else build (a.shape.take ax ++ ix.shape ++ a.shape.drop (ax + 1)) fun idx => do
    let k ← ix.get ((idx.drop ax).take ix.shape.length)
    a.get (idx.take ax ++ [(if k < 0 then k + (n : Int) else k).toNat] ++ idx.drop (ax + ix.shape.length))

/-- `gather_impl` (backends/tensor_impl.py:764-774). -/
def gatherImpl {α : Type} (a : Arr α) (ix : Arr Int) (axis : Int) : Except Err (Arr α) := npTake a ix axis

/-- The positions selected by the python slice `start:stop:step` on a dimension of `n` elements
(`slice.indices(n)` followed by `range`); a zero step is a `ValueError`. -/
def pySliceIx (n : Nat) (start stop step : Int) : Except Err (List Nat) :=
  if step = 0 then .error .valueError
  else
    let lo : Int := if step < 0 then -1 else 0
    let hi : Int := if step < 0 then (n : Int) - 1 else n
    let clampIx := fun x : Int => if x < 0 then max lo (x + n) else min hi x
    let s := clampIx start
    let e := clampIx stop
    let len : Int := if step > 0 then (if s < e then (e - s - 1) / step + 1 else 0)
      else (if e < s then (s - e - 1) / (-step) + 1 else 0)
    .ok ((List.range len.toNat).map fun k : Nat => (s + k * step).toNat)

/-- The slice objects built by `slice_impl` (backends/tensor_impl.py:782-788): `strides[i] if strides else 1`. -/
def sliceStrides (rank : Nat) (strides : Option (List Int)) : List Int :=
  match strides with
  | none => List.replicate rank 1
  | some [] => List.replicate rank 1
  | some st => st

/-- Selected positions per dimension; dimensions without a slice are kept whole (the `Ellipsis`). -/
def slicePos : List Nat → List Int → List Int → List Int → Except Err (List (List Nat))
  | [], _, _, _ => .ok []
  | d :: dr, a :: ar, b :: br, c :: cr => do
    let p ← pySliceIx d a b c
    let r ← slicePos dr ar br cr
    pure (p :: r)
  | d :: dr, _, _, _ => do
    let r ← slicePos dr [] [] []
    pure (List.range d :: r)

/-- `slice_impl` (backends/tensor_impl.py:777-798). -/
def sliceImpl {α : Type} (a : Arr α) (starts ends : List Int) (strides : Option (List Int)) : Except Err (Arr α) := do
  let pos ← slicePos a.shape starts ends (sliceStrides starts.length strides)
  build (pos.map List.length) fun idx =>
    a.get (List.zipWith (fun (p : List Nat) i => p.getD i 0) pos idx)

/-- A run-time operand of an elementwise op together with the declared shape of its type (`none`: not a tensor). -/
structure Operand (α : Type) where
  decl : Option (List Int)
  val : α ⊕ Arr α

/-- `isinstance(type, TensorType) and type.shape != ()`. -/
def iterated (d : Option (List Int)) : Bool :=
  match d with
  | some (_ :: _) => true
  | _ => false

/-- Shape of the first iterated operand (backends/tensor_impl.py:300-310). -/
def runShape {α : Type} : List (Operand α) → List Nat
  | [] => []
  | o :: r => if iterated o.decl then (match o.val with | .inr a => a.shape | .inl _ => []) else runShape r

/-- The element of one operand for one index (backends/tensor_impl.py:335-358): iterated operands are indexed, the
others are passed as they are.  Simplification: a rank-0 array operand that is not iterated is passed as its single
element. -/
def pick {α : Type} (o : Operand α) (idx : List Nat) : Except Err α :=
  match o.val with
  | .inl x => if iterated o.decl then .error .typeError else .ok x
  | .inr a => if iterated o.decl then a.get idx else a.get []

/-- `val` number `i` of the list returned by the element function (backends/tensor_impl.py:360-366). -/
def rowGet {α : Type} (i : Nat) (row : List α) : Except Err α :=
  match row[i]? with
  | some x => .ok x
  | none => .error .indexError

/-- `elementwise_impl` (backends/tensor_impl.py:287-373), result arrays in output order; `f` is
`interpreter.evaluate_graph` on the region and `nOut` is `len(op.outputs)`.  Simplification: element dtype
(`.item()`) is not modelled. -/
def elementwiseImpl {α : Type} (nOut : Nat) (f : List α → Except Err (List α)) (ops : List (Operand α)) :
    Except Err (List (Arr α)) := do
  let sh := runShape ops
  let rows ← mapE (fun idx => do
    let xs ← mapE (fun o => pick o idx) ops
    f xs) (ndindex sh)
  let cols ← mapE (fun i => mapE (rowGet i) rows) (List.range nOut)
  pure (cols.map fun c => ⟨sh, c⟩)

end Verif.Tensor
