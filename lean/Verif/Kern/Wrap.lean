/-
The Python wrappers that hand NumPy arrays to the native kernels
(/repo/mplang/backends/field_impl.py) and the declared types of the `field` operations
(/repo/mplang/dialects/field.py).

Simplifications: the native library is loaded (the Python fallbacks are modelled in
`Verif.Kern.Okvs`); arrays have unsigned integer elements, on which the conversion
`np.ascontiguousarray(x, dtype=np.uint64)` keeps the values; `m` and `length` are not negative.
-/
import Verif.Kern.NativeSafe

namespace Verif.Kern.Wrap

open Verif.Kern Verif.Kern.Native

/-- Element types. /repo/mplang/dialects/field.py:56 -/
inductive Ek where
  | u8 | u32 | u64
  deriving DecidableEq, Repr

/-- A tensor type. /repo/mplang/dialects/field.py:55-61 -/
structure Ty where
  elem : Ek
  shape : List Nat
  deriving DecidableEq, Repr

/-- A NumPy array: element type, shape and the elements in C order.
/repo/mplang/backends/field_impl.py:115-117 -/
structure Arr where
  elem : Ek
  shape : List Nat
  data : List Nat
  deriving DecidableEq, Repr

/-- Number of elements of a shape (`a.size`). /repo/mplang/backends/field_impl.py:123 -/
def size : List Nat → Nat
  | [] => 1
  | d :: s => d * size s

/-- An array whose buffer is as long as its shape says. /repo/mplang/backends/field_impl.py:115 -/
def Arr.WF (a : Arr) : Prop := a.data.length = size a.shape

/-- What a wrapper can end with besides a result: a Python exception (`IndexError`,
`ValueError`), or a fault inside the native kernel, which kills the process or reads foreign
memory.  /repo/mplang/backends/field_impl.py:129, 338 -/
inductive Err where
  | index | value | fault (f : Fault)
  deriving DecidableEq, Repr

/-- Run a native kernel. /repo/mplang/backends/field_impl.py:129 -/
def native {α : Type} : Except Fault α → Except Err α
  | .ok v => .ok v
  | .error f => .error (.fault f)

/-- `x.shape[0]`. /repo/mplang/backends/field_impl.py:240 -/
def dim0 : List Nat → Except Err Nat
  | [] => .error .index
  | d :: _ => .ok d

/-- The words of a list of blocks. /repo/mplang/backends/field_impl.py:244 -/
def wordsOf : List Blk → List Nat
  | [] => []
  | b :: bs => b.1 :: b.2 :: wordsOf bs

/-- `seed[0], seed[1]` of the flattened seed. /repo/mplang/backends/field_impl.py:231-233 -/
def seedPair (seed : Arr) : Except Err (Nat × Nat) :=
  match seed.data with
  | s0 :: s1 :: _ => .ok (s0, s1)
  | _ => .error .index

/-- The keyed hash of the native kernels, by seed. /repo/mplang/kernels/okvs.cpp:34-41 -/
abbrev Words := Nat × Nat → Nat → Nat × Nat

/-- `_okvs_solve_impl` with the native library. /repo/mplang/backends/field_impl.py:225-254 -/
def solveW (W : Words) (keys values : Arr) (m : Nat) (seed : Arr) : Except Err Arr := do
  let s ← seedPair seed
  let n ← dim0 keys.shape
  let out ← native (solve (W s) keys.data values.data n m)
  pure ⟨.u64, [m, 2], wordsOf out⟩

/-- `_decode_okvs_impl` and `_okvs_decode_impl` with the native library: `m` is the storage's
first dimension.  /repo/mplang/backends/field_impl.py:257-286, 411-422 -/
def decodeW (W : Words) (keys storage seed : Arr) : Except Err Arr := do
  let m ← dim0 storage.shape
  let s ← seedPair seed
  let n ← dim0 keys.shape
  let out ← native (decode (W s) keys.data storage.data m 0 n)
  pure ⟨.u64, [n, 2], wordsOf out⟩

/-- `_gf128_mul_impl` with the native library: `out = np.zeros_like(a)`, `a.size // 2` products.
/repo/mplang/backends/field_impl.py:105-131 -/
def mulW (mul : Blk → Blk → Blk) (a b : Arr) : Except Err Arr := do
  let r ← native (mulBatch mul a.data b.data 0 (size a.shape / 2))
  pure ⟨.u64, a.shape, wordsOf r ++ List.replicate (size a.shape % 2) 0⟩

/-- Eight bytes, least significant first, as one word (`view(np.uint64)`).
/repo/mplang/backends/field_impl.py:344-345 -/
def wordOfBytes (l : List Nat) : Nat := l.foldr (fun b acc => b + 256 * acc) 0

/-- The bytes of an array grouped by eight. /repo/mplang/backends/field_impl.py:344-345 -/
def viewWords : Nat → List Nat → List Nat
  | 0, _ => []
  | k + 1, l => wordOfBytes (l.take 8) :: viewWords k (l.drop 8)

/-- The byte-seed case: `uint8` with a last axis of 16 is viewed as two `uint64`.
/repo/mplang/backends/field_impl.py:343-345 -/
def viewSeeds (a : Arr) : Arr :=
  if a.elem = .u8 ∧ a.shape.getLast? = some 16 then
    ⟨.u64, a.shape.dropLast ++ [2], viewWords (a.data.length / 8) a.data⟩
  else a

/-- `seeds.reshape(-1, 2)` unless the last axis is already 2.
/repo/mplang/backends/field_impl.py:347-348 -/
def pairSeeds (a : Arr) : Except Err Arr :=
  match a.shape.getLast? with
  | none => .error .index
  | some d =>
    if d = 2 then .ok a
    else if a.data.length % 2 = 0 then .ok { a with shape := [a.data.length / 2, 2] }
    else .error .value

/-- `_aes_expand_impl_prim` with the native library.
/repo/mplang/backends/field_impl.py:333-381 -/
def expandW (block : Blk → Nat → Blk) (seeds : Arr) (length : Nat) : Except Err Arr := do
  if seeds.elem = .u8 ∧ seeds.shape = [] then .error .index
  else do
    let s ← pairSeeds (viewSeeds seeds)
    let n ← dim0 s.shape
    let out ← native (expand block s.data length 0 n)
    pure ⟨.u64, [n, length, 2], wordsOf out.flatten⟩

/-- `ldpc_encode_impl` with the native library. /repo/mplang/backends/field_impl.py:289-322 -/
def ldpcW (message idx indptr : Arr) (m : Nat) : Except Err Arr := do
  let _ ← dim0 message.shape
  let out ← native (ldpc message.data idx.data indptr.data 0 m)
  pure ⟨.u64, [m, 2], wordsOf out⟩

/-- A call of a field operation with the operands it takes.
/repo/mplang/dialects/field.py:38-48 -/
inductive Call (α : Type) where
  | solve (keys values seed : α) (m : Nat)
  | decode (keys storage seed : α)
  | mul (a b : α)
  | expand (seeds : α) (length : Nat)
  | ldpc (message idx indptr : α) (m n : Nat)

/-- The operands' types. /repo/mplang/dialects/field.py:55 -/
def Call.map {α β : Type} (f : α → β) : Call α → Call β
  | .solve k v s m => .solve (f k) (f v) (f s) m
  | .decode k t s => .decode (f k) (f t) (f s)
  | .mul a b => .mul (f a) (f b)
  | .expand s l => .expand (f s) l
  | .ldpc x i p m n => .ldpc (f x) (f i) (f p) m n

/-- The type rules (the abstract evaluations). /repo/mplang/dialects/field.py:54-131 -/
def declared : Call Ty → Except Err Ty
  | .solve _ v _ m => .ok ⟨v.elem, [m, 2]⟩
  | .decode k t _ => do
    let n ← dim0 k.shape
    pure ⟨t.elem, [n, 2]⟩
  | .mul a _ => .ok a
  | .expand s l => do
    let n ← dim0 s.shape
    pure ⟨.u64, [n, l, 2]⟩
  | .ldpc x _ _ m _ => .ok ⟨x.elem, [m, 2]⟩

/-- The run time. /repo/mplang/backends/field_impl.py:325-456 -/
def exec (W : Words) (mul : Blk → Blk → Blk) (block : Blk → Nat → Blk) : Call Arr → Except Err Arr
  | .solve k v s m => solveW W k v m s
  | .decode k t s => decodeW W k t s
  | .mul a b => mulW mul a b
  | .expand s l => expandW block s l
  | .ldpc x i p m _ => ldpcW x i p m

/-- The type of an array. /repo/mplang/edsl/typing.py:200 -/
def Arr.ty (a : Arr) : Ty := ⟨a.elem, a.shape⟩

end Verif.Kern.Wrap
