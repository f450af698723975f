import Verif.Trace.TracerProps
import Verif.Trace.Align
/-!
# C88: functions as values (`func.func` / `func.call`)

Model of dialects/func.py and backends/func_impl.py on top of the tracer model.  A function handle is a graph
value whose defining operation carries the traced body as a region and the structure of the result as an
attribute; the objects the body captured from outside are not recorded anywhere.
-/
namespace Verif.Trace
open Verif.Interp

variable {V C : Type}

/-- the operation `func.func` writes (dialects/func.py:52-66): region = graph of the traced body, attribute
`out_morph`; no inputs.  `traced.captured` is dropped. -/
structure FuncOp (V C : Type) where
  region : Graph Nm
  outMorph : Morph (Obj V C)

/-- `func.func(fn, *args)` (dialects/func.py:45-68) while tracing -/
def funcDef (fn : Tree (Option C) → Prog C) (t : Tree (Obj V C)) : Option (FuncOp V C) :=
  (run fn t).map fun tf => ⟨tf.graph, tf.outMorph⟩

/-- A handle as seen by `func.call`: a value of the current graph made by `func.func`, or a value that entered
the current graph as an input (a parameter, a captured value, or, in eager mode, any handle at all:
`bind_primitive` traces every call in a new tracer, interpreter.py), whose `defining_op` is `None`. -/
inductive Handle (V C : Type) where
  | made (op : FuncOp V C)
  | input (op : FuncOp V C)

/-- `_call_trace` (dialects/func.py:72-113): refused without a defining operation; the structure of the result
is that of the handle's `out_morph`.  The answer is the structure with which `func.call` is recorded. -/
def callTrace : Handle V C → Option (FuncOp V C)
  | .made op => some op
  | .input _ => none

/-- `_call_impl` (backends/func_impl.py:91-107) and the reconstruction at the call site
(dialects/func.py:100-103): the region is evaluated on the arguments alone. -/
def callFunc (sem : Sem V) (h : Handle V C) (args : List V) : Option (Tree (Obj V C)) :=
  match callTrace h with
  | none => none
  | some op => match evalSync sem op.region args with
    | none => none
    | some outs => varDemorph (outs.map Obj.val) op.outMorph

/-- the runtime values of a list of leaves -/
def valuesOf (l : List (Obj V C)) : List V := l.filterMap toVal

theorem evalSync_arity (sem : Sem V) (g : Graph Nm) (args : List V) (h : g.inputs.length ≠ args.length) :
    evalSync sem g args = none := by
  simp [evalSync, initEnv, h]

/-- **C88.** A function that captures nothing, defined on example arguments and called, in the trace that
defined it, on the values of other arguments of the same structure and constants, returns what calling the
python function directly returns: same structure, same constants, same values, and one raises iff the other
does.  Missing: functions that capture values (`func_capture_violated`), handles that come from another trace
(`func_handle_input_violated`). -/
theorem call_applies_partial (sem : Sem V) (store : Nat → V) (fn : Tree (Option C) → Prog C) (t t' : Tree (Obj V C))
    (tf : Traced V C) (op : FuncOp V C) (hrun : run fn t = some tf) (hcap : tf.captured = [])
    (hdef : funcDef fn t = some op) (hs : shape t' = shape t)
    (hv : ∀ o ∈ t'.leaves, isObj o = true → ∃ v, o = .val v) :
    callFunc sem (.made op) (valuesOf t'.leaves) = direct sem store fn t' := by
  have hop : op = ⟨tf.graph, tf.outMorph⟩ := by
    rw [funcDef, hrun] at hdef
    simpa using hdef.symm
  rw [← trace_then_evaluate sem store fn t t' tf hrun hs hv]
  subst hop
  have hin : prepareInputs store tf t' = some (valuesOf t'.leaves) := by
    have hm : tf.inMorph = (varMorph t isObj).2 := by
      simp only [run] at hrun
      split at hrun
      · simp at hrun
      · split at hrun
        · simp at hrun
        · split at hrun
          · simp at hrun
          · simp only [Option.some.injEq] at hrun
            subst hrun
            rfl
    obtain ⟨hs1, -⟩ := shape_eq hs
    have hpv : (varMorph t isObj).2.2.1.mapM (fun i => (t'.leaves[i]?).bind toVal) = some (t'.leaves.filterMap toVal) := by
      have h1 : (varMorph t isObj).2.2.1 = (varMorph t' isObj).2.2.1 := by
        simp only [varMorph]; exact listSplit_idx_congr _ _ _ hs1.symm 0
      rw [h1, mapM_pos toVal _ _ _ (morph_positions t' isObj), morph_variables, mapM_toVal _ hv]
    unfold prepareInputs
    rw [hm, hpv, hcap]
    simp [valuesOf]
  simp only [callFunc, callTrace, evaluate, hin]
  split <;> simp_all

/-- **C88.** A call with the wrong number of arguments is refused, for every function. -/
theorem call_arity_checked (sem : Sem V) (fn : Tree (Option C) → Prog C) (t : Tree (Obj V C))
    (tf : Traced V C) (op : FuncOp V C) (hrun : run fn t = some tf) (hdef : funcDef fn t = some op)
    (args : List V) (h : args.length ≠ (t.leaves.filter isObj).length + tf.captured.length) :
    callFunc sem (.made op) args = none := by
  have hop : op = ⟨tf.graph, tf.outMorph⟩ := by
    rw [funcDef, hrun] at hdef
    simpa using hdef.symm
  have hwf := run_traceWF fn t tf hrun
  subst hop
  simp only [callFunc, callTrace]
  rw [evalSync_arity]
  rw [hwf.len]
  omega

/-- **C88 does not hold for functions that capture values**: whatever the function, if its body uses a value
from the enclosing scope, the call with its declared arguments is refused, although calling the python
function works (dialects/func.py:60-66 gives the operation no inputs and drops `traced.captured`). -/
theorem func_capture_violated (sem : Sem V) (fn : Tree (Option C) → Prog C) (t : Tree (Obj V C))
    (tf : Traced V C) (op : FuncOp V C) (hrun : run fn t = some tf) (hcap : tf.captured ≠ [])
    (hdef : funcDef fn t = some op) (args : List V) (h : args.length = (t.leaves.filter isObj).length) :
    callFunc sem (.made op) args = none := by
  apply call_arity_checked sem fn t tf op hrun hdef
  have : 0 < tf.captured.length := List.length_pos_iff.2 hcap
  omega

/-- **C88 does not hold for handles from outside the current trace**: a handle passed to a traced function,
captured by a region, or held in eager mode, can never be called (dialects/func.py:86-88). -/
theorem func_handle_input_violated (sem : Sem V) (op : FuncOp V C) (args : List V) :
    callFunc sem (.input op) args = none := rfl

/-- a function of two parameters and a constant, with a structured result -/
def exFuncBody : Tree (Option String) → Prog String := fun _ =>
  ⟨[⟨[.param 0, .const "z"], 1⟩, ⟨[.res 0 0, .param 1], 1⟩],
    .node "dict:a,b" [.leaf (.res 1 0), .leaf (.const "k")]⟩

/-- example arguments -/
def exFuncArgs (x y : Nat) : Tree (Obj Nat String) := .node "tuple" [.leaf (.val x), .leaf (.val y)]

/-- the same with a captured value -/
def exFuncCap : Tree (Option String) → Prog String := fun _ => ⟨[⟨[.param 0, .cap 5], 1⟩], .leaf (.res 0 0)⟩

example : ∃ op, funcDef exFuncBody (exFuncArgs 0 0) = some op ∧
    (∃ tf, run exFuncBody (exFuncArgs 0 0) = some tf ∧ tf.captured = []) ∧
    shape (exFuncArgs 3 4) = shape (exFuncArgs 0 0) ∧ valuesOf (exFuncArgs 3 4).leaves = [3, 4] ∧
    callFunc exSem (.made op) [3, 4] = some (.node "dict:a,b" [.leaf (.val 7), .leaf (.const "k")]) ∧
    callFunc exSem (.made op) [3] = none :=
  ⟨_, rfl, ⟨_, rfl, rfl⟩, rfl, rfl, rfl, rfl⟩

/-- the surplus argument of a call takes the place of the captured value: python `call(f, x)` is refused, but
`call(f, x, y)` runs the body with `y` where the captured object stood -/
example : ∃ op, funcDef exFuncCap (exFuncArgs 0 0) = some op ∧
    (∃ tf, run exFuncCap (exFuncArgs 0 0) = some tf ∧ tf.captured = [5]) ∧
    callFunc exSem (.made op) [3, 4] = none ∧
    (∃ r, direct exSem (fun _ => 100) exFuncCap (exFuncArgs 3 4) = some r) ∧
    callFunc exSem (.made op) [3, 4, 9] = some (.leaf (.val 12)) :=
  ⟨_, rfl, ⟨_, rfl, rfl⟩, rfl, ⟨_, rfl⟩, rfl⟩

end Verif.Trace
