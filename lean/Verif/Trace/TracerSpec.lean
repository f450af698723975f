import Verif.Trace.Tracer
/-!
# Specification for C08: calling the function directly, every primitive applied to values
-/
namespace Verif.Trace
open Verif.Interp

/-- outputs of a handler result: none, the result itself, or a sequence of the right length -/
def splitResult {V : Type} (sem : Sem V) (nout : Nat) (r : V) : Option (List V) :=
  match nout with
  | 0 => some []
  | 1 => some [r]
  | n => match sem.asSeq r with
    | none => none
    | some rs => if rs.length = n then some rs else none

/-- value of an expression; constants have no runtime object -/
def valOf {V C : Type} (params : List V) (store : Nat → V) (rs : List (List V)) : Src C → Option V
  | .param k => params[k]?
  | .cap id => some (store id)
  | .res i j => (rs[i]?).bind (·[j]?)
  | .const _ => none

/-- is the expression an object (as opposed to a python constant)? -/
def srcIsObj {C : Type} : Src C → Bool
  | .const _ => false
  | _ => true

/-- apply the `i`-th primitive to the object arguments -/
def applyPrim {V : Type} (sem : Sem V) (i : Nat) (args : List V) (nout : Nat) : Option (List V) :=
  if sem.impl i then (sem.run i args).bind (splitResult sem nout) else none

/-- run the primitive calls in order on values -/
def directBody {V C : Type} (sem : Sem V) (params : List V) (store : Nat → V) :
    Nat → List (Instr C) → List (List V) → Option (List (List V))
  | _, [], rs => some rs
  | i, ins :: rest, rs =>
    match (ins.args.filter srcIsObj).mapM (valOf params store rs) with
    | none => none
    | some args => match applyPrim sem i args ins.nout with
      | none => none
      | some outs => directBody sem params store (i + 1) rest (rs ++ [outs])

mutual
/-- replace every expression of the result by its value, keep structure and constants -/
def evalTree {V C : Type} (f : Src C → Option V) : Tree (Src C) → Option (Tree (Obj V C))
  | .leaf (.const c) => some (.leaf (.const c))
  | .leaf s => (f s).map fun v => .leaf (.val v)
  | .node k ts => (evalTrees f ts).map fun us => .node k us
/-- see `evalTree` -/
def evalTrees {V C : Type} (f : Src C → Option V) : List (Tree (Src C)) → Option (List (Tree (Obj V C)))
  | [] => some []
  | t :: ts => (evalTree f t).bind fun u => (evalTrees f ts).map fun us => u :: us
end

/-- call the function on `args` -/
def direct {V C : Type} (sem : Sem V) (store : Nat → V) (fn : Tree (Option C) → Prog C) (args : Tree (Obj V C)) :
    Option (Tree (Obj V C)) :=
  let prog := fn (shape args)
  let params := args.leaves.filterMap toVal
  match directBody sem params store 0 prog.body [] with
  | none => none
  | some rs => evalTree (valOf params store rs) prog.result

end Verif.Trace
