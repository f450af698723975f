import Verif.Tensor.Dtypes
import Mathlib.Data.List.Forall2
import Mathlib.Logic.Function.Basic
/-!
# `tensor.run_jax` (dialects/_jax_utils.py, dialects/tensor.py:68-178, backends/util.py, backends/tensor_impl.py:574-760)

jax, XLA and `stablehlo-opt` are libraries: `JaxLib` names the calls the code makes, `JaxLib.Ok` is their contract.
The IREE branch (`attrs["backend"] == "iree"`, which no tracer writes) and the profiling events are not modelled.
-/
namespace Verif.Jax
open Verif.Serde Verif.Tensor

/-- One dimension of a placeholder: a number or a symbol.  A symbol is its name: `symbol_map` gives one symbolic dimension
per name (_jax_utils.py:88-96).  Names are assumed to be identifiers (jax would parse `"2*n"` as an expression). -/
inductive PDim where
  | lit (n : Nat)
  | sym (s : String)
  deriving DecidableEq, Repr

/-- `jax.ShapeDtypeStruct` -/
structure PH where
  dtype : String
  dims : List PDim
  deriving DecidableEq, Repr

/-- `_get_symbolic_name` (_jax_utils.py:61-78) -/
def symbolicName (names : Option (List (List (Option String)))) (i k : Nat) : Except DtErr String :=
  match names with
  | none => .ok "n_rows"
  | some l =>
    match l[i]? with
    | none => .ok "n_rows"
    | some row =>
      match row[k]? with
      | none => .ok "n_rows"
      | some none => .error .value
      | some (some s) => .ok s

/-- one dimension of the type, `idx` its position (_jax_utils.py:116-129) -/
def placeDim (names : Option (List (List (Option String)))) (i : Nat) (idx : Nat) (d : Int) : Except DtErr PDim :=
  if d < -1 then .error .value
  else if d = -1 then (symbolicName names i idx).map .sym
  else .ok (.lit d.toNat)

/-- the loop over the dimensions from position `idx` on -/
def placeDims (names : Option (List (List (Option String)))) (i : Nat) : Nat → List Int → Except DtErr (List PDim)
  | _, [] => .ok []
  | idx, d :: r => do
    let x ← placeDim names i idx d
    let xs ← placeDims names i (idx + 1) r
    pure (x :: xs)

/-- `obj.type.pt_type if isinstance(obj.type, SSType) else obj.type` (_jax_utils.py:100) -/
def plainTy : Ty → Ty
  | .ss pt _ => pt
  | t => t

/-- the placeholder of argument `i` (_jax_utils.py:98-131) -/
def placeholder (names : Option (List (List (Option String)))) (i : Nat) (t : Ty) : Except DtErr PH :=
  match plainTy t with
  | .tensor elem shape =>
    if elem.isScalar then do
      let dims ← placeDims names i 0 shape
      let d ← toJax elem
      pure ⟨d, dims⟩
    else .error .type
  | t => if t.isScalar then (toJax t).map (⟨·, []⟩) else .error .type

/-- `_make_placeholders` from argument `i` on (_jax_utils.py:81-133) -/
def placeholders (names : Option (List (List (Option String)))) : Nat → List Ty → Except DtErr (List PH)
  | _, [] => .ok []
  | i, t :: r => do
    let p ← placeholder names i t
    let ps ← placeholders names (i + 1) r
    pure (p :: ps)

/-- `has_dynamic_shape` (_jax_utils.py:164-169) -/
def hasSym (phs : List PH) : Bool := phs.any fun p => p.dims.any fun d => match d with | .lit _ => false | .sym _ => true

/-- A run-time array: dtype name (`"object"` for object arrays), shape, contents. -/
structure Arr (D : Type) where
  dtype : String
  shape : List Nat
  data : D

/-- dtype after jax's canonicalisation: 64-bit types are halved unless `jax_enable_x64` is set -/
def canon (x64 : Bool) (d : String) : String :=
  if x64 then d
  else if d = "float64" then "float32"
  else if d = "int64" then "int32"
  else if d = "uint64" then "uint32"
  else if d = "complex128" then "complex64"
  else d

/-- size of a dimension under an assignment of the symbols -/
def PDim.eval (σ : String → Nat) : PDim → Nat
  | .lit n => n
  | .sym s => σ s

/-- an array has the dtype and the shape of a placeholder -/
def Fits {D : Type} (x64 : Bool) (σ : String → Nat) (p : PH) (a : Arr D) : Prop :=
  a.dtype = canon x64 p.dtype ∧ a.shape = p.dims.map (PDim.eval σ)

/-- arguments have the dtypes and shapes of the placeholders, for some positive sizes of the symbols -/
def Admits {D : Type} (x64 : Bool) (phs : List PH) (args : List (Arr D)) : Prop :=
  ∃ σ : String → Nat, (∀ s, 0 < σ s) ∧ List.Forall₂ (Fits x64 σ) phs args

/-- the element type in MLIR's own notation (the specification; `none` when it has none) -/
def mlirElem (d : String) : Option (List Char) :=
  if d = "float16" then some "f16".toList
  else if d = "float32" then some "f32".toList
  else if d = "float64" then some "f64".toList
  else if d = "int8" then some "i8".toList
  else if d = "int16" then some "i16".toList
  else if d = "int32" then some "i32".toList
  else if d = "int64" then some "i64".toList
  else if d = "uint8" then some "ui8".toList
  else if d = "uint16" then some "ui16".toList
  else if d = "uint32" then some "ui32".toList
  else if d = "uint64" then some "ui64".toList
  else if d = "bool" then some "i1".toList
  else if d = "int2" then some "i2".toList
  else if d = "int4" then some "i4".toList
  else if d = "uint2" then some "ui2".toList
  else if d = "uint4" then some "ui4".toList
  else if d = "complex64" then some "complex<f32>".toList
  else if d = "complex128" then some "complex<f64>".toList
  else none

/-- `2x3xf32` -/
def shapeStr (elem : List Char) : List Nat → List Char
  | [] => elem
  | d :: r => d.repr.toList ++ 'x' :: shapeStr elem r

/-- an array's type in MLIR's notation (specification) -/
def mlirType {D : Type} (a : Arr D) : Option (List Char) :=
  (mlirElem a.dtype).map fun e => "tensor<".toList ++ shapeStr e a.shape ++ ['>']

/-- `str.replace(old, new)`: `skip` characters of a match are still to be dropped -/
def replaceGo (old new : List Char) : Nat → List Char → List Char
  | _, [] => []
  | 0, c :: r => if old.isPrefixOf (c :: r) then new ++ replaceGo old new (old.length - 1) r else c :: replaceGo old new 0 r
  | k + 1, _ :: r => replaceGo old new k r

/-- `str.replace` for a non-empty `old` -/
def replace (old new : String) (s : List Char) : List Char := replaceGo old.toList new.toList 0 s

/-- `dtype_map` (util.py:30-43) -/
def dtypeMap : List (String × String) :=
  [("float16", "f16"), ("float32", "f32"), ("float64", "f64"), ("int8", "i8"), ("int16", "i16"), ("int32", "i32"),
   ("int64", "i64"), ("uint8", "ui8"), ("uint16", "ui16"), ("uint32", "ui32"), ("uint64", "ui64"), ("bool", "i1")]

/-- lookup in a literal dictionary -/
def findIn (d : String) : List (String × String) → Option String
  | [] => none
  | (k, v) :: r => if d = k then some v else findIn d r

/-- the element part of `_make_tensor_type` (util.py:30-56) -/
def elemStr (d : String) : List Char :=
  match findIn d dtypeMap with
  | some s => s.toList
  | none => replace "bool" "i1" (replace "uint" "ui" (replace "int" "i" (replace "float" "f" d.toList)))

/-- `_make_tensor_type` (util.py:29-65) -/
def makeTensorType {D : Type} (a : Arr D) : List Char := "tensor<".toList ++ shapeStr (elemStr a.dtype) a.shape ++ ['>']

/-- `jax.export.Exported` as far as it is used: the module, the kept arguments, the output types (dimension `none`: symbolic) -/
structure Export (Code : Type) where
  code : Code
  kept : List Nat
  outs : List (String × List (Option Nat))

/-- The library calls.  A user function maps arrays to arrays, `none` when it raises. -/
structure JaxLib (D Code Exe H B : Type) where
  /-- `jax_enable_x64` -/
  x64 : Bool
  /-- `astype`: from dtype, to dtype -/
  conv : String → String → D → D
  /-- `np.array(obj.tolist())` of an object array when that is numeric -/
  num : Arr D → Option (Arr D)
  /-- `jax.export.export(jax.jit(f))(*placeholders)` -/
  exportFn : (List (Arr D) → Option (List (Arr D))) → List PH → Option (Export Code)
  /-- `stablehlo-opt --stablehlo-refine-arguments=types=…` on the given types -/
  refine : Code → List (List Char) → Option Code
  /-- `client.compile_and_load` -/
  compile : Code → Option Exe
  /-- `compiled.execute_sharded` -/
  run : Exe → List (Arr D) → Option (List (Arr D))
  /-- `client.serialize_executable` -/
  ser : Exe → List B
  /-- `client.deserialize_executable` -/
  de : List B → Option Exe
  /-- hex digest of SHA-256 of the module text -/
  hash : Code → H

/-- positions `ks` of a list; `none` when one is out of range -/
def pick {α : Type} (ks : List Nat) (l : List α) : Option (List α) := ks.mapM fun k => l[k]?

variable {D Code Exe H B : Type}

/-- Contract of jax and its tools. -/
structure JaxLib.Ok (L : JaxLib D Code Exe H B) : Prop where
  /-- converting to the same dtype changes nothing -/
  conv_self : ∀ d x, L.conv d d x = x
  /-- kept arguments are arguments; a function exported with symbolic dimensions keeps all its arguments
  (jax keeps them to read the sizes) -/
  kept_lt : ∀ f phs e, L.exportFn f phs = some e → ∀ k ∈ e.kept, k < phs.length
  kept_len : ∀ f phs e, L.exportFn f phs = some e → e.kept.length ≤ phs.length
  kept_all : ∀ f phs e, L.exportFn f phs = some e → e.kept.length = phs.length → e.kept = List.range phs.length
  kept_sym : ∀ f phs e, L.exportFn f phs = some e → hasSym phs = true → e.kept = List.range phs.length
  /-- the text of a module tells whether it has symbolic dimensions -/
  text : ∀ f phs e f' phs' e', L.exportFn f phs = some e → L.exportFn f' phs' = some e' → e.code = e'.code →
    hasSym phs = hasSym phs'
  /-- a module without symbols compiles, computes the function on arguments that fit, and refuses others -/
  static : ∀ f phs e, L.exportFn f phs = some e → hasSym phs = false → ∃ x, L.compile e.code = some x ∧
    (∀ args ys, Admits L.x64 phs args → pick e.kept args = some ys → L.run x ys = f args) ∧
    (∀ ps ys, pick e.kept phs = some ps → ¬ Admits L.x64 ps ys → L.run x ys = none)
  /-- refinement accepts exactly the types of admitted arguments, and the refined module computes the function on
  arguments of these types and refuses others -/
  refines : ∀ f phs e, L.exportFn f phs = some e → hasSym phs = true → ∀ ts,
    (∃ c, L.refine e.code ts = some c) ↔ ∃ args : List (Arr D), Admits L.x64 phs args ∧ args.map mlirType = ts.map some
  refined : ∀ f phs e, L.exportFn f phs = some e → hasSym phs = true → ∀ ts c, L.refine e.code ts = some c →
    ∃ x, L.compile c = some x ∧
      (∀ args, Admits L.x64 phs args → args.map mlirType = ts.map some → L.run x args = f args) ∧
      (∀ args : List (Arr D), args.map mlirType ≠ ts.map some → L.run x args = none)
  /-- a stored executable reads back, and a beginning of one reads back as nothing else -/
  de_ser : ∀ x, L.de (L.ser x) = some x
  de_prefix : ∀ x n y, L.de ((L.ser x).take n) = some y → y = x
  /-- output types: those of the function's results -/
  outs : ∀ f phs e, L.exportFn f phs = some e → ∀ args r, Admits L.x64 phs args → f args = some r →
    List.Forall₂ (fun (o : String × List (Option Nat)) (a : Arr D) => a.dtype = o.1 ∧
      List.Forall₂ (fun (d : Option Nat) n => ∀ m, d = some m → n = m) o.2 a.shape) e.outs r

/-- the operation written by `_run_jax_trace` (tensor.py:137-149): attributes and types of the inputs -/
structure Op (Code : Type) where
  code : Code
  keep : Option (List Nat)
  dyn : Bool
  textRef : String
  inputs : List Ty
  outputs : List Ty

/-- `dim if isinstance(dim, int) else -1` (_jax_utils.py:57) -/
def outDim : Option Nat → Int
  | some n => n
  | none => -1

/-- `_out_info_to_edsl` (_jax_utils.py:55-58), with the constructor check of `TensorType` (typing.py:404-414) -/
def outTy (o : String × List (Option Nat)) : Except DtErr Ty := do
  let t ← fromDtype o.1
  let shape := o.2.map outDim
  if shape.all dimOk then pure (.tensor t shape) else .error .value

/-- all output types, in order -/
def outTys : List (String × List (Option Nat)) → Except DtErr (List Ty)
  | [] => .ok []
  | o :: r => do
    let t ← outTy o
    let ts ← outTys r
    pure (t :: ts)

/-- `_register_compilation` (tensor.py:82-85): the id of the `n`-th compilation of this process -/
def compilationId (n : Nat) : String := "tensor.run_jax::" ++ n.repr

/-- `_run_jax_trace` and `compile_jax` (tensor.py:101-149, _jax_utils.py:136-210) on the variables of the call; `n` is the
value of the id counter.  Separation of arguments into variables and constants is C06.  `none` is an exception. -/
def traceRun (L : JaxLib D Code Exe H B) (n : Nat) (names : Option (List (List (Option String))))
    (f : List (Arr D) → Option (List (Arr D))) (tys : List Ty) : Option (Op Code × Nat) :=
  match placeholders names 0 tys with
  | .error _ => none
  | .ok phs =>
    match L.exportFn f phs with
    | none => none
    | some e =>
      match outTys e.outs with
      | .error _ => none
      | .ok outs =>
        some (⟨e.code, if e.kept.length < phs.length then some e.kept else none, hasSym phs, compilationId n, tys, outs⟩, n + 1)

/-- `astype(dtype)` on a jax array, with canonicalisation -/
def astype (L : JaxLib D Code Exe H B) (d : String) (a : Arr D) : Arr D :=
  ⟨canon L.x64 d, a.shape, L.conv a.dtype (canon L.x64 d) a.data⟩

/-- `TensorValue.as_jax` (tensor_impl.py:110-130); an object array that is not numeric makes jax raise -/
def asJax (L : JaxLib D Code Exe H B) (a : Arr D) : Option (Arr D) :=
  if a.dtype = "object" then (L.num a).map fun b => astype L b.dtype b
  else some (astype L a.dtype a)

/-- the boundary type guard for one argument (tensor_impl.py:652-680) -/
def castArg (L : JaxLib D Code Exe H B) (t : Ty) (a : Arr D) : Option (Arr D) :=
  match t with
  | .tensor elem _ =>
    match toJax elem with
    | .error _ => none
    | .ok d => (asJax L a).map fun v => if v.dtype ≠ d then astype L d v else v
  | _ => asJax L a

/-- the guard for all arguments; the interpreter passes one value per input -/
def castArgs (L : JaxLib D Code Exe H B) : List Ty → List (Arr D) → Option (List (Arr D))
  | t :: ts, a :: as => do
    let b ← castArg L t a
    let bs ← castArgs L ts as
    pure (b :: bs)
  | [], as => as.mapM (asJax L)
  | _ :: _, [] => some []

/-- Caches: `_XLA_CACHE` of every process, and `<root>/cache/jax/<hash>.pjrt` of every root directory. -/
structure Caches (Exe H B : Type) where
  mem : Nat → H → Option Exe
  disk : Nat → H → Option (List B)

/-- empty caches -/
def Caches.empty : Caches Exe H B := ⟨fun _ _ => none, fun _ _ => none⟩

/-- compile, for these arguments (tensor_impl.py:632-638) -/
def compileFor (L : JaxLib D Code Exe H B) (op : Op Code) (args : List (Arr D)) : Option Exe :=
  if op.dyn then
    match L.refine op.code (args.map makeTensorType) with
    | none => none
    | some c => L.compile c
  else L.compile op.code

/-- the disk lookup (tensor_impl.py:620-630) -/
def fromDisk (L : JaxLib D Code Exe H B) (c : Caches Exe H B) (root : Nat) (op : Op Code) : Option Exe :=
  if op.dyn then none
  else match c.disk root (L.hash op.code) with
    | none => none
    | some b => L.de b

open Classical in
/-- `disk[root][h] := b` -/
noncomputable def Caches.write (c : Caches Exe H B) (root : Nat) (h : H) (b : List B) : Caches Exe H B :=
  ⟨c.mem, fun r k => if r = root ∧ k = h then some b else c.disk r k⟩

open Classical in
/-- `_XLA_CACHE[h] := x` in process `p` -/
noncomputable def Caches.remember (c : Caches Exe H B) (p : Nat) (h : H) (x : Exe) : Caches Exe H B :=
  ⟨fun q k => if q = p ∧ k = h then some x else c.mem q k, c.disk⟩

/-- find or make the executable (tensor_impl.py:606-648): the executable and the caches afterwards -/
noncomputable def lookupOrCompile (L : JaxLib D Code Exe H B) (c : Caches Exe H B) (p root : Nat) (op : Op Code) (args : List (Arr D)) :
    Option Exe × Caches Exe H B :=
  match c.mem p (L.hash op.code) with
  | some x => (some x, c)
  | none =>
    match fromDisk L c root op with
    | some x => (some x, if op.dyn then c else c.remember p (L.hash op.code) x)
    | none =>
      match compileFor L op args with
      | none => (none, c)
      | some x =>
        let c1 := c.write root (L.hash op.code) (L.ser x)
        (some x, if op.dyn then c1 else c1.remember p (L.hash op.code) x)

/-- the rest of `_run_jax_with_xla` (tensor_impl.py:650-722) -/
def execute (L : JaxLib D Code Exe H B) (op : Op Code) (x : Exe) (args : List (Arr D)) : Option (List (Arr D)) :=
  match castArgs L op.inputs args with
  | none => none
  | some vs =>
    match op.keep with
    | none => L.run x vs
    | some ks =>
      match pick ks vs with
      | none => none
      | some ys => L.run x ys

/-- `run_jax_impl` (tensor_impl.py:731-760) in process `p` with the root directory `root`: result (`none`: an exception) and caches -/
noncomputable def call (L : JaxLib D Code Exe H B) (c : Caches Exe H B) (p root : Nat) (op : Op Code) (args : List (Arr D)) :
    Option (List (Arr D)) × Caches Exe H B :=
  match lookupOrCompile L c p root op args with
  | (none, c') => (none, c')
  | (some x, c') => (execute L op x args, c')

/-- What can happen to the caches: a call, a process that dies after writing only part of the file it was about to store, a
restart, a file removed. -/
inductive Ev (D Code H : Type) where
  | call (p root : Nat) (op : Op Code) (args : List (Arr D))
  | crash (p root : Nat) (op : Op Code) (args : List (Arr D)) (n : Nat)
  | restart (p : Nat)
  | remove (root : Nat) (h : H)

open Classical in
/-- forget the memory of a process -/
noncomputable def Caches.forget (c : Caches Exe H B) (p : Nat) : Caches Exe H B := ⟨fun q k => if q = p then none else c.mem q k, c.disk⟩

open Classical in
/-- one event -/
noncomputable def Ev.apply (L : JaxLib D Code Exe H B) (c : Caches Exe H B) : Ev D Code H → Caches Exe H B
  | .call p root op args => (Jax.call L c p root op args).2
  | .crash p root op args n =>
    match c.mem p (L.hash op.code), fromDisk L c root op, compileFor L op args with
    | none, none, some x => (c.write root (L.hash op.code) ((L.ser x).take n)).forget p
    | _, _, _ => c.forget p
  | .restart p => c.forget p
  | .remove root h => ⟨c.mem, fun r k => if r = root ∧ k = h then none else c.disk r k⟩

/-- caches after a history -/
noncomputable def after (L : JaxLib D Code Exe H B) : Caches Exe H B → List (Ev D Code H) → Caches Exe H B
  | c, [] => c
  | c, e :: es => after L (e.apply L c) es

/-- the operation of an event -/
def Ev.op? : Ev D Code H → Option (Op Code)
  | .call _ _ op _ => some op
  | .crash _ _ op _ _ => some op
  | .restart _ => none
  | .remove _ _ => none

/-- an operation that tracing wrote -/
def Traced (L : JaxLib D Code Exe H B) (op : Op Code) : Prop :=
  ∃ n names f tys m, traceRun L n names f tys = some (op, m)

end Verif.Jax
