import Verif.Interp.Model
/-!
# Specification of graph evaluation: plain left-to-right evaluation, nothing is ever released

Also the well-formedness of a graph (single assignment, operands defined before use).
-/
namespace Verif.Interp
section
variable {N V : Type} [DecidableEq N]

/-- evaluate the ops in order, keeping every value -/
def specLoop (sem : Sem V) : Nat → List (Op N) → Env N V → Option (Env N V)
  | _, [], env => some env
  | i, op :: ops, env => match resolve env op.ins with
    | none => none
    | some args =>
      if sem.impl i then match sem.run i args with
        | none => none
        | some res => match bindOuts sem op.outs res with
          | none => none
          | some bs => specLoop sem (i + 1) ops (env.setAll bs)
      else none

/-- the meaning of a graph on given arguments -/
def evalSpec (sem : Sem V) (g : Graph N) (args : List V) : Option (List V) :=
  match initEnv g args with
  | none => none
  | some env => match specLoop sem 0 g.ops env with
    | none => none
    | some env' => resolve env' g.outputs

/-- names defined by the inputs and the first ops -/
def defined (g : Graph N) (ops : List (Op N)) : List N := g.inputs ++ ops.flatMap Op.outs

/-- Well-formed graph: all defined names are distinct, each op uses only inputs and results of earlier ops, outputs are
defined.  (The graph builder guarantees this, see `Verif.Graph`.) -/
structure WF (g : Graph N) : Prop where
  nodup : (defined g g.ops).Nodup
  uses : ∀ pre op post, g.ops = pre ++ op :: post → ∀ v ∈ op.ins, v ∈ defined g pre
  outs : ∀ v ∈ g.outputs, v ∈ defined g g.ops

end
end Verif.Interp
