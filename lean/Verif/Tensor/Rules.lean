/-!
Shape rules of the tensor dialect: what the tracer computes from the declared types
(dialects/tensor.py:329-376 and 541-830, edsl/typing.py:380-480).
-/

namespace Verif.Tensor

/-- Exceptions of the rules and of numpy. -/
inductive Err where
  | typeError | valueError | indexError
  deriving DecidableEq, Repr

/-- Element types, as far as the rules look at them: `_gather_ae` looks at integer bitwidths
(dialects/tensor.py:737-747), `_concat_ae` and `_scatter_ae` compare element types for equality.
Simplification: every non-integer element type is one opaque name. -/
inductive Elem where
  | int (bits : Nat) (signed : Bool)
  | other (name : String)
  deriving DecidableEq, Repr

/-- `TensorType` (edsl/typing.py:380-480).  Simplification: the rules are modelled on tensor operands; a non-tensor
operand is a `TypeError` in the first line of each of them. -/
structure TTy where
  elem : Elem
  shape : List Int
  deriving DecidableEq, Repr

/-- Constructor of `TensorType` (edsl/typing.py:398-420): dims below −1 and dim 0 are rejected. -/
def mkTensor (e : Elem) (sh : List Int) : Except Err TTy :=
  if sh.any (fun d => decide (d < -1) || decide (d = 0)) then .error .valueError else .ok ⟨e, sh⟩

/-- `is_fully_static` (edsl/typing.py:465-468). -/
def isStatic (sh : List Int) : Bool := sh.all (fun d => decide (d > 0))

/-- `math.prod`. -/
def prodI : List Int → Int
  | [] => 1
  | d :: r => d * prodI r

/-- `_transpose_ae` (dialects/tensor.py:541-571). -/
def transposeAe (t : TTy) (perm : List Int) : Except Err TTy :=
  let rank := t.shape.length
  if perm.length ≠ rank then .error .valueError
  else if !(perm.all (fun p => decide (0 ≤ p) && decide (p < rank))
      && (List.range rank).all (fun i => decide ((i : Int) ∈ perm))) then .error .valueError
  else mkTensor t.elem (perm.map fun p => t.shape.getD p.toNat 0)

/-- `_reshape_ae` (dialects/tensor.py:574-630). -/
def reshapeAe (t : TTy) (newShape : List Int) : Except Err TTy :=
  let neg := newShape.countP (fun d => decide (d = -1))
  if neg > 1 then .error .valueError
  else if isStatic t.shape then
    let inputSize := prodI t.shape
    if neg = 0 then
      if inputSize ≠ prodI newShape then .error .valueError
      else mkTensor t.elem newShape
    else
      let known := prodI (newShape.filter fun d => decide (d ≠ -1))
      if known = 0 then .error .valueError
      else if inputSize.fmod known ≠ 0 then .error .valueError
      else mkTensor t.elem (newShape.map fun d => if d = -1 then inputSize.fdiv known else d)
  else mkTensor t.elem newShape

/-- `axis if axis >= 0 else rank + axis` and the bounds test (dialects/tensor.py:673-676, 751-753). -/
def normAxis (axis : Int) (rank : Nat) : Except Err Nat :=
  let a := if axis ≥ 0 then axis else rank + axis
  if a < 0 ∨ a ≥ rank then .error .valueError else .ok a.toNat

/-- One round of the loop over `tensor_types[1:]` (dialects/tensor.py:682-711): `cur` is `result_shape` with
`concat_dim_size` in place of the axis entry. -/
def concatStep (ax : Nat) : Nat → List Int → List Int → Except Err (List Int)
  | _, [], [] => .ok []
  | k, c :: cr, d :: dr =>
    if k = ax then do
      let rest ← concatStep ax (k + 1) cr dr
      pure ((if c = -1 ∨ d = -1 then -1 else c + d) :: rest)
    else if c ≠ -1 ∧ d ≠ -1 ∧ c ≠ d then .error .valueError
    else do
      let rest ← concatStep ax (k + 1) cr dr
      pure ((if d = -1 then -1 else c) :: rest)
  | _, _, _ => .error .valueError

/-- The loop over the remaining inputs. -/
def concatLoop (ax : Nat) : List Int → List TTy → Except Err (List Int)
  | cur, [] => .ok cur
  | cur, t :: r => do
    let cur' ← concatStep ax 0 cur t.shape
    concatLoop ax cur' r

/-- `_concat_ae` (dialects/tensor.py:633-715). -/
def concatAe (ts : List TTy) (axis : Int) : Except Err TTy :=
  match ts with
  | [] => .error .valueError
  | t :: r =>
    if r.any (fun u => decide (u.elem ≠ t.elem)) then .error .typeError
    else do
      let ax ← normAxis axis t.shape.length
      let sh ← concatLoop ax t.shape r
      mkTensor t.elem sh

/-- `_gather_ae` (dialects/tensor.py:718-760). -/
def gatherAe (t ix : TTy) (axis : Int) : Except Err TTy :=
  match ix.elem with
  | .other _ => .error .typeError
  | .int bits _ =>
    if bits ≠ 32 ∧ bits ≠ 64 then .error .typeError
    else do
      let ax ← normAxis axis t.shape.length
      mkTensor t.elem (t.shape.take ax ++ ix.shape ++ t.shape.drop (ax + 1))

/-- `_scatter_ae` (dialects/tensor.py:763-800); no backend implementation is registered for it. -/
def scatterAe (t upd : TTy) : Except Err TTy :=
  if upd.elem ≠ t.elem then .error .typeError else .ok t

/-- One dimension of `_slice_ae` (dialects/tensor.py:838-868). -/
def sliceDim (d start stop stride : Int) : Except Err Int :=
  if d = -1 then .ok (-1)
  else if stride ≤ 0 then .error .valueError
  else
    let s := if start < 0 then max 0 (d + start) else start
    let e := if stop < 0 then max 0 (d + stop) else stop
    let s := max 0 (min s d)
    let e := max 0 (min e d)
    .ok (if e ≤ s then 0 else (e - s + stride - 1).fdiv stride)

/-- The loop of `_slice_ae` over the dimensions. -/
def sliceDims : List Int → List Int → List Int → List Int → Except Err (List Int)
  | d :: dr, a :: ar, b :: br, c :: cr => do
    let x ← sliceDim d a b c
    let r ← sliceDims dr ar br cr
    pure (x :: r)
  | _, _, _, _ => .ok []

/-- `_slice_ae` (dialects/tensor.py:803-870). -/
def sliceAe (t : TTy) (starts ends : List Int) (strides : Option (List Int)) : Except Err TTy :=
  let rank := t.shape.length
  if starts.length ≠ rank ∨ ends.length ≠ rank then .error .valueError
  else match strides with
    | none => do
      let sh ← sliceDims t.shape starts ends (List.replicate rank 1)
      mkTensor t.elem sh
    | some st =>
      if st.length ≠ rank then .error .valueError
      else do
        let sh ← sliceDims t.shape starts ends st
        mkTensor t.elem sh

/-- `_ElementwiseTracer._lift_type` folded over the inputs (dialects/tensor.py:344-376): `none` for an input that is
not a tensor; the state is `_tensor_shape`. -/
def liftShapes : Option (List Int) → List (Option (List Int)) → Except Err (Option (List Int))
  | cur, [] => .ok cur
  | cur, none :: r => liftShapes cur r
  | none, some sh :: r => liftShapes (some sh) r
  | some c, some sh :: r =>
    if c = sh then liftShapes (some c) r
    else if c = [] then liftShapes (some sh) r
    else if sh = [] then liftShapes (some c) r
    else .error .valueError

/-- Result shape of an elementwise op (dialects/tensor.py:408-426). -/
def elementwiseAe (ins : List (Option (List Int))) : Except Err (List Int) := do
  let s ← liftShapes none ins
  pure (s.getD [])

end Verif.Tensor
