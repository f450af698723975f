import Verif.Trace.FuncUtils
import Verif.Interp.SyncLemmas
/-!
# Model of `Tracer.run` / `TracedFunction` (edsl/tracer.py) and of eager execution (`Interpreter.bind_primitive`)

A traced python function is straight line: tracing shows it only types and constants, so for given argument structure and
constants it performs a fixed sequence of primitive calls (`Prog`).  Graph value names are an inductive type instead of
strings; `f"%arg{n}"` (tracer.py:251) and the generated `f"%{n}"` (graph.py) never clash (`Verif.Base`).
-/
namespace Verif.Trace
open Verif.Interp

/-- names of graph values: `%arg{n}` (edsl/tracer.py:251), `%{n}` (edsl/graph.py:216-220) and `%capture{n}`
(edsl/tracer.py:538) -/
inductive Nm where
  | arg (n : Nat)
  | val (n : Nat)
  | capture (n : Nat)
  deriving DecidableEq, Repr

/-- What a primitive argument or a leaf of the function result can be: the k-th object parameter, an object captured from
the enclosing scope (identified by `id()`), output `j` of the `i`-th primitive call, or a plain python constant. -/
inductive Src (C : Type) where
  | param (k : Nat)
  | cap (id : Nat)
  | res (i j : Nat)
  | const (c : C)

/-- One call of a primitive defined with `def_abstract_eval`: positional arguments and the number of output types its
type rule returns.  Attributes belong to the handler (`Sem`, indexed by position). -/
structure Instr (C : Type) where
  args : List (Src C)
  nout : Nat

/-- A python function for one argument structure. -/
structure Prog (C : Type) where
  body : List (Instr C)
  result : Tree (Src C)

/-- Leaves of argument and result trees: a traced object, a runtime object, or a constant. -/
inductive Obj (V C : Type) where
  | nm (n : Nm)
  | val (v : V)
  | const (c : C)

/-- `isinstance(x, Object)` -/
def isObj {V C : Type} : Obj V C → Bool
  | .const _ => false
  | _ => true

/-- Tracer state (edsl/tracer.py:100-107 `reset`), plus the trace objects of the calls made so far (python variables). -/
structure TSt where
  argCtr : Nat
  inputs : List Nm
  caps : List (Nat × Nm)
  ops : List (Op Nm)
  vc : Nat
  results : List (List Nm)

/-- state after `reset()` (edsl/tracer.py:100-107) -/
def TSt.init : TSt := ⟨0, [], [], [], 0, []⟩

/-- `_new_arg` (edsl/tracer.py:239-257) -/
def newArg (s : TSt) : TSt × Nm :=
  ({ s with argCtr := s.argCtr + 1, inputs := s.inputs ++ [.arg s.argCtr] }, .arg s.argCtr)

/-- `lift(obj)` of a captured object, cached by `id()` (edsl/tracer.py:212-220) -/
def liftCap (s : TSt) (id : Nat) : TSt × Nm :=
  match s.caps.lookup id with
  | some nm => (s, nm)
  | none => let r := newArg s; ({ r.1 with caps := r.1.caps ++ [(id, r.2)] }, r.2)

/-- `lift(x)` (edsl/tracer.py:173-220) of one python expression; parameters were lifted to `params` at the start.
`none` = the program refers to a variable that does not exist. -/
def liftSrc {V C : Type} (params : List Nm) (s : TSt) : Src C → Option (TSt × Obj V C)
  | .param k => params[k]?.map fun n => (s, .nm n)
  | .cap id => let r := liftCap s id; some (r.1, .nm r.2)
  | .res i j => ((s.results[i]?).bind (·[j]?)).map fun n => (s, .nm n)
  | .const c => some (s, .const c)

/-- lift a list of expressions left to right (`tree_map`, edsl/primitive.py:236-239, edsl/tracer.py:328) -/
def liftList {V C : Type} (params : List Nm) : TSt → List (Src C) → Option (TSt × List (Obj V C))
  | s, [] => some (s, [])
  | s, x :: xs => match liftSrc params s x with
    | none => none
    | some (s1, o) => match liftList params s1 xs with
      | none => none
      | some (s2, os) => some (s2, o :: os)

/-- `[arg for arg in args if isinstance(arg, TraceObject)]` (edsl/tracer.py:139, 159) -/
def objNames {V C : Type} (os : List (Obj V C)) : List Nm :=
  os.filterMap fun o => match o with | .nm n => some n | _ => none

/-- `Tracer.bind_primitive`, `def_abstract_eval` branch (edsl/tracer.py:137-169) after lifting the arguments
(edsl/primitive.py:231-242): one op is added, its outputs are fresh values. -/
def bindPrim {C : Type} (V : Type) (params : List Nm) (s : TSt) (ins : Instr C) : Option TSt :=
  match liftList (V := V) params s ins.args with
  | none => none
  | some (s1, os) =>
    let outs := (List.range' s1.vc ins.nout).map Nm.val
    some { s1 with ops := s1.ops ++ [⟨objNames os, outs⟩], vc := s1.vc + ins.nout, results := s1.results ++ [outs] }

/-- run the function body under the tracer -/
def traceBody {C : Type} (V : Type) (params : List Nm) : TSt → List (Instr C) → Option TSt
  | s, [] => some s
  | s, ins :: rest => match bindPrim V params s ins with
    | none => none
    | some s1 => traceBody V params s1 rest

/-- `lift_param` for every object argument (edsl/tracer.py:317-324): a fresh input per position -/
def liftParams : Nat → TSt → TSt × List Nm
  | 0, s => (s, [])
  | n + 1, s => let r := newArg s; let t := liftParams n r.1; (t.1, r.2 :: t.2)

mutual
/-- map over the leaves of a tree (`tree_map`, jax) -/
def Tree.map {α β : Type} (f : α → β) : Tree α → Tree β
  | .leaf a => .leaf (f a)
  | .node k ts => .node k (mapL f ts)
/-- see `Tree.map` -/
def mapL {α β : Type} (f : α → β) : List (Tree α) → List (Tree β)
  | [] => []
  | t :: ts => t.map f :: mapL f ts
end

/-- the constant at a leaf, if it is one -/
def constOf {V C : Type} : Obj V C → Option C
  | .const c => some c
  | _ => none

/-- what tracing sees of the arguments: structure and constants -/
def shape {V C : Type} (t : Tree (Obj V C)) : Tree (Option C) := t.map constOf

/-- `TracedFunction` (edsl/tracer.py:371-411) -/
structure Traced (V C : Type) where
  graph : Interp.Graph Nm
  inMorph : Morph (Obj V C)
  outMorph : Morph (Obj V C)
  captured : List Nat

/-- `Tracer.run` (edsl/tracer.py:289-359); `tree_map` of the result is flatten, map, unflatten -/
def run {V C : Type} (fn : Tree (Option C) → Prog C) (args : Tree (Obj V C)) : Option (Traced V C) :=
  let m := varMorph args isObj
  let p := liftParams m.1.length TSt.init
  let prog := fn (shape args)
  match traceBody V p.2 p.1 prog.body with
  | none => none
  | some s1 => match liftList (V := V) p.2 s1 prog.result.leaves with
    | none => none
    | some (s2, os) => match unflatten prog.result.def' os with
      | none => none
      | some rt =>
        let o := varMorph rt isObj
        some ⟨⟨s2.inputs, s2.ops, objNames o.1⟩, m.2, o.2, s2.caps.map Prod.fst⟩

/-- runtime object of an argument; anything else is not passed to the model of the interpreter -/
def toVal {V C : Type} : Obj V C → Option V
  | .val v => some v
  | _ => none

/-- `prepare_inputs` (edsl/tracer.py:546-565); `store id` is the captured object with that id -/
def prepareInputs {V C : Type} (store : Nat → V) (tf : Traced V C) (args : Tree (Obj V C)) : Option (List V) :=
  match tf.inMorph.2.1.mapM (fun i => (args.leaves[i]?).bind toVal) with
  | none => none
  | some ex => some (ex ++ tf.captured.map store)

/-- `mp.evaluate(traced, *args)` (mplang/__init__.py:185-189): prepare, evaluate the graph, `reconstruct_outputs` -/
def evaluate {V C : Type} (sem : Sem V) (store : Nat → V) (tf : Traced V C) (args : Tree (Obj V C)) :
    Option (Tree (Obj V C)) :=
  match prepareInputs store tf args with
  | none => none
  | some ins => match evalSync sem tf.graph ins with
    | none => none
    | some outs => varDemorph (outs.map Obj.val) tf.outMorph

/-! ## Eager execution: `Interpreter.bind_primitive` for a single primitive call -/

/-- handler semantics of the single op in the graph of one eager call -/
def semAt {V : Type} (sem : Sem V) (i : Nat) : Sem V := ⟨fun _ => sem.impl i, fun _ => sem.run i, sem.asSeq⟩

/-- an argument of an eager call: an `InterpObject` with its `id()`, or a constant -/
inductive EArg (C : Type) where
  | obj (id : Nat)
  | const (c : C)

/-- an eager argument as the inner tracer sees it: every object is a capture -/
def EArg.toSrc {C : Type} : EArg C → Src C
  | .obj id => .cap id
  | .const c => .const c

/-- `Interpreter.bind_primitive` (runtime/interpreter.py:698-738): trace the single call with all objects as captures,
evaluate the graph unless it has no outputs.  `store id` is `obj.runtime_obj`. -/
def eagerCall {V C : Type} (sem : Sem V) (i : Nat) (store : Nat → V) (args : List (EArg C)) (nout : Nat) :
    Option (List V) :=
  match bindPrim V [] TSt.init ⟨args.map EArg.toSrc, nout⟩ with
  | none => none
  | some s =>
    let outs := s.results.flatten
    if outs = [] then some []
    else evalSync (semAt sem i) ⟨s.inputs, s.ops, outs⟩ (s.caps.map fun p => store p.1)

end Verif.Trace
