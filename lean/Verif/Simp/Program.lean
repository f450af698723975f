import Verif.Simp.Shuffle
/-!
# Multi-party (SIMP) programs: syntax, the code each party runs, and the specification

* `opRun`, `regionRun`: the worker side (backends/simp_worker/ops.py), one process per party, exchanging messages.
* `Ev`: the specification: the whole program as a function on vectors of local values, no messages.

Simplifications: a value is named by its position (block inputs first, then the outputs of the operations in order), which is
what `Graph.add_op` produces (C07); the region of a per-party call is its effect `F rank args` on local values (its evaluation
is C11); regions that communicate among themselves (SPU kernels) are not covered; python truth of a local value is
`tr : V → Bool`, and `None` is false.
-/
namespace Verif.Simp
open Verif.Comm

mutual
/-- operations of the `simp` dialect (dialects/simp.py:127, 259, 374-378) -/
inductive Op (V T : Type) where
  /-- `simp.pcall_static` with attribute `parties`; region effect `F`; value types of the outputs -/
  | pcall (parties : List Nat) (F : Nat → List (LV V) → Option (List (LV V))) (outs : List T) (args : List Nat)
  /-- `simp.pcall_dynamic` -/
  | pcallDyn (F : Nat → List (LV V) → Option (List (LV V))) (outs : List T) (args : List Nat)
  /-- `simp.shuffle` with attribute `routing` -/
  | shuffle (routing : List (Nat × Nat)) (arg : Nat)
  /-- `simp.converge` -/
  | converge (args : List Nat)
  /-- `simp.uniform_cond` with attribute `verify_uniform` -/
  | cond (verify : Bool) (pred : Nat) (args : List Nat) (thn els : Region V T)
  /-- `simp.while_loop`: loop state, captured values -/
  | loop (state caps : List Nat) (cnd body : Region V T)
/-- a block: operations and returned values -/
inductive Region (V T : Type) where
  | mk (ops : Ops V T) (outs : List Nat)
/-- a list of operations -/
inductive Ops (V T : Type) where
  | nil
  | cons (o : Op V T) (os : Ops V T)
end

section
variable {V T : Type}

/-- `[env[v] for v in values]` -/
def pick {α : Type} (env : List α) : List Nat → Option (List α)
  | [] => some []
  | i :: is => match env[i]?, pick env is with
    | some x, some xs => some (x :: xs)
    | _, _ => none

/-- truth of a local value: `None` is false -/
def truthy (tr : V → Bool) : LV V → Bool
  | some v => tr v
  | none => false

/-- the first value present: `for arg in args: if arg is not None: return arg` (ops.py:108-113) -/
def firstHeld : List (LV V) → LV V
  | [] => none
  | some v :: _ => some v
  | none :: l => firstHeld l

/-- evaluate the region and check the number of results (interpreter.py: `zip(op.outputs, result, strict=True)`) -/
def localCall (F : List (LV V) → Option (List (LV V))) (n : Nat) (args : List (LV V)) : Proc (SMsg V) (List (LV V)) :=
  match F args with
  | some r => if r.length = n then .ret r else .fail
  | none => .fail

/-- `tuple(range(worker.world_size))` (collectives.py:82) -/
def everyone (N : Nat) : List Int := (List.range N).map Int.ofNat

/-- second half of `verify_uniform_predicate`: the two reductions differ (collectives.py:189-198) -/
def verifyEnd (N rank : Nat) (pred a o : Bool) : Proc (SMsg V) Bool :=
  if a ≠ o then (allgather N rank (.bool pred) (everyone N)).bind (fun _ => .fail) else .ret pred

/-- `verify_uniform_predicate` (collectives.py:169-198), outside of any per-party call: all ranks take part -/
def verifyUniform (tr : V → Bool) (N rank : Nat) (pred : Bool) : Proc (SMsg V) Bool :=
  (allreduceBool (truthy tr) (· && ·) N rank pred (everyone N)).bind fun a =>
    (allreduceBool (truthy tr) (· || ·) N rank pred (everyone N)).bind fun o => verifyEnd N rank pred a o

/-- `cond_val = cond_res[0] if cond_res else False`, then its truth (ops.py:151-155) -/
def condTruth (tr : V → Bool) : List (LV V) → Bool
  | [] => false
  | x :: _ => truthy tr x

/-- the `while True` of `_while_loop_worker_impl` (ops.py:147-163), at most `fuel` evaluations of the condition -/
def loopRun (tr : V → Bool) (cnd body : List (LV V) → Proc (SMsg V) (List (LV V))) (caps : List (LV V)) :
    Nat → List (LV V) → Proc (SMsg V) (List (LV V))
  | 0, _ => .fail
  | fuel + 1, st =>
    (cnd (st ++ caps)).bind fun cv =>
      if condTruth tr cv then (body (st ++ caps)).bind (fun st' => loopRun tr cnd body caps fuel st') else .ret st

/-- continue with the arguments of an operation, or stop (a `KeyError` in the interpreter) -/
def withArgs {α A : Type} (x : Option α) (k : α → Proc (SMsg V) A) : Proc (SMsg V) A :=
  match x with
  | some a => k a
  | none => .fail

mutual
/-- one operation at party `rank` of `N` (backends/simp_worker/ops.py:39-165); `fuel` bounds the iterations of each loop -/
def opRun (tr : V → Bool) (N fuel rank : Nat) : Op V T → List (LV V) → Proc (SMsg V) (List (LV V))
  | .pcall parties F outs args, env => withArgs (pick env args) fun a =>
      if rank ∈ parties then localCall (F rank) outs.length a else .ret (List.replicate outs.length none)
  | .pcallDyn F outs args, env => withArgs (pick env args) fun a => localCall (F rank) outs.length a
  | .shuffle routing arg, env => withArgs (env[arg]?) fun d => (shuffle rank routing d).bind fun x => .ret [x]
  | .converge args, env => withArgs (pick env args) fun a => .ret [firstHeld a]
  | .cond verify pred args thn els, env => withArgs (env[pred]?) fun p => withArgs (pick env args) fun a =>
      (if verify then verifyUniform tr N rank (truthy tr p) else .ret (truthy tr p)).bind fun b =>
        if b then regionRun tr N fuel rank thn a else regionRun tr N fuel rank els a
  | .loop state caps cnd body, env => withArgs (pick env state) fun st => withArgs (pick env caps) fun cs =>
      loopRun tr (fun x => regionRun tr N fuel rank cnd x) (fun x => regionRun tr N fuel rank body x) cs fuel st
/-- `Interpreter.evaluate_graph` on a region: inputs first, then the operations in order, then the outputs -/
def regionRun (tr : V → Bool) (N fuel rank : Nat) : Region V T → List (LV V) → Proc (SMsg V) (List (LV V))
  | .mk ops outs, env => (opsRun tr N fuel rank ops env).bind fun env' => withArgs (pick env' outs) .ret
/-- the operations in order; results are appended to the environment -/
def opsRun (tr : V → Bool) (N fuel rank : Nat) : Ops V T → List (LV V) → Proc (SMsg V) (List (LV V))
  | .nil, env => .ret env
  | .cons o os, env => (opRun tr N fuel rank o env).bind fun r => opsRun tr N fuel rank os (env ++ r)
end

/-! ## Specification -/

/-- what is being evaluated -/
inductive Task (V T : Type) where
  | op (o : Op V T)
  | ops (os : Ops V T)
  | region (r : Region V T)
  | loop (cnd body : Region V T) (caps : Nat → List (LV V))

/-- **Specification**: `Ev tr N t σ ρ` — with `σ p` the local values of party `p` (for `p < N`), evaluating `t` gives party
`p` the values `ρ p`.  No messages, no order of parties; all parties follow the same control flow. -/
inductive Ev (tr : V → Bool) (N : Nat) : Task V T → (Nat → List (LV V)) → (Nat → List (LV V)) → Prop where
  | pcall (parties : List Nat) (F : Nat → List (LV V) → Option (List (LV V))) (outs : List T) (args : List Nat)
      (σ ρ a : Nat → List (LV V)) :
      (∀ p, p < N → pick (σ p) args = some (a p)) →
      (∀ p, p < N → p ∈ parties → F p (a p) = some (ρ p) ∧ (ρ p).length = outs.length) →
      (∀ p, p < N → p ∉ parties → ρ p = List.replicate outs.length none) →
      Ev tr N (.op (.pcall parties F outs args)) σ ρ
  | pcallDyn (F : Nat → List (LV V) → Option (List (LV V))) (outs : List T) (args : List Nat) (σ ρ a : Nat → List (LV V)) :
      (∀ p, p < N → pick (σ p) args = some (a p)) →
      (∀ p, p < N → F p (a p) = some (ρ p) ∧ (ρ p).length = outs.length) →
      Ev tr N (.op (.pcallDyn F outs args)) σ ρ
  | shuffle (routing : List (Nat × Nat)) (arg : Nat) (σ ρ : Nat → List (LV V)) (d : Nat → LV V) :
      Routing N routing → (∀ a b, ¬ Swap routing a b) →
      (∀ p, p < N → (σ p)[arg]? = some (d p)) →
      (∀ p, p < N → ρ p = [routed routing d p]) →
      Ev tr N (.op (.shuffle routing arg)) σ ρ
  | converge (args : List Nat) (σ ρ a : Nat → List (LV V)) :
      (∀ p, p < N → pick (σ p) args = some (a p)) →
      (∀ p, p < N → ρ p = [firstHeld (a p)]) →
      Ev tr N (.op (.converge args)) σ ρ
  | cond (verify : Bool) (pred : Nat) (args : List Nat) (thn els : Region V T) (σ ρ a : Nat → List (LV V)) (v : Nat → LV V)
      (b : Bool) :
      (∀ p, p < N → (σ p)[pred]? = some (v p)) →
      (∀ p, p < N → truthy tr (v p) = b) →
      (∀ p, p < N → pick (σ p) args = some (a p)) →
      Ev tr N (.region (if b then thn else els)) a ρ →
      Ev tr N (.op (.cond verify pred args thn els)) σ ρ
  | loopOp (state caps : List Nat) (cnd body : Region V T) (σ ρ st cs : Nat → List (LV V)) :
      (∀ p, p < N → pick (σ p) state = some (st p)) →
      (∀ p, p < N → pick (σ p) caps = some (cs p)) →
      Ev tr N (.loop cnd body cs) st ρ →
      Ev tr N (.op (.loop state caps cnd body)) σ ρ
  | loopDone (cnd body : Region V T) (cs st cv ρ : Nat → List (LV V)) :
      Ev tr N (.region cnd) (fun p => st p ++ cs p) cv →
      (∀ p, p < N → condTruth tr (cv p) = false) →
      (∀ p, p < N → ρ p = st p) →
      Ev tr N (.loop cnd body cs) st ρ
  | loopStep (cnd body : Region V T) (cs st st' cv ρ : Nat → List (LV V)) :
      Ev tr N (.region cnd) (fun p => st p ++ cs p) cv →
      (∀ p, p < N → condTruth tr (cv p) = true) →
      Ev tr N (.region body) (fun p => st p ++ cs p) st' →
      Ev tr N (.loop cnd body cs) st' ρ →
      Ev tr N (.loop cnd body cs) st ρ
  | region (os : Ops V T) (outs : List Nat) (σ σ' ρ : Nat → List (LV V)) :
      Ev tr N (.ops os) σ σ' →
      (∀ p, p < N → pick (σ' p) outs = some (ρ p)) →
      Ev tr N (.region (.mk os outs)) σ ρ
  | nil (σ : Nat → List (LV V)) : Ev tr N (.ops .nil) σ σ
  | cons (o : Op V T) (os : Ops V T) (σ r σ' : Nat → List (LV V)) :
      Ev tr N (.op o) σ r →
      Ev tr N (.ops os) (fun p => σ p ++ r p) σ' →
      Ev tr N (.ops (.cons o os)) σ σ'

end
end Verif.Simp
