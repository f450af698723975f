/-!
# Model of graph evaluation in `mplang/runtime/interpreter.py`

A graph value is identified by a name `N` (the code uses object identity; the builder keeps names unique, see the graph
model).  `V` is the type of runtime objects.  An op handler is a function of the op and its arguments: handlers that talk
to other parties are deterministic given their arguments and the peers (that part is modelled in `Verif.Comm`).
Python exceptions are `none` / `Outcome.raised`.
-/
namespace Verif.Interp

/-- edsl/graph.py:112-135 `Operation`: only operand and result values matter for scheduling; opcode, attributes and
regions are seen only by the handler, which receives the op's position. -/
structure Op (N : Type) where
  ins : List N
  outs : List N

/-- edsl/graph.py:176-208 `Graph` -/
structure Graph (N : Type) where
  inputs : List N
  ops : List (Op N)
  outputs : List N

/-- Handler semantics.  `impl i`: a handler is registered for op `i` (instance handlers first, then the global registry,
interpreter.py:973-977).  `run i args`: call it, `none` = it raised.  `asSeq`: view of a result as a python sequence
(`len(results)`, `zip(op.outputs, results)`), `none` = not a sequence. -/
structure Sem (V : Type) where
  impl : Nat → Bool
  run : Nat → List V → Option V
  asSeq : V → Option (List V)

section
variable {N V : Type} [DecidableEq N]

/-- environment `dict[Value, runtime object]` -/
abbrev Env (N V : Type) := N → Option V

/-- `env[v] = x` -/
def Env.set (env : Env N V) (v : N) (x : V) : Env N V := fun w => if w = v then some x else env w
/-- `env.pop(v, None)` -/
def Env.erase (env : Env N V) (v : N) : Env N V := fun w => if w = v then none else env w
/-- `for out, res in zip(outs, results): env[out] = res` -/
def Env.setAll (env : Env N V) : List (N × V) → Env N V
  | [] => env
  | (v, x) :: r => (env.set v x).setAll r

/-- `[env[val] for val in vals]`; `none` = KeyError (interpreter.py:955, 1118, 1014, 1215) -/
def resolve (env : Env N V) : List N → Option (List V)
  | [] => some []
  | v :: vs => match env v with
    | none => none
    | some x => match resolve env vs with
      | none => none
      | some xs => some (x :: xs)

/-- Distribution of a handler result over the op's outputs (interpreter.py:992-1003 and 1085-1091): no output → ignore,
one output → the result itself, several → a sequence of the same length (otherwise an exception). -/
def bindOuts (sem : Sem V) (outs : List N) (res : V) : Option (List (N × V)) :=
  match outs with
  | [] => some []
  | [o] => some [(o, res)]
  | os => match sem.asSeq res with
    | none => none
    | some rs => if rs.length = os.length then some (os.zip rs) else none

/-- `dict(zip(graph.inputs, inputs, strict=True))` (interpreter.py:935, 1037): lengths must agree. -/
def initEnv (g : Graph N) (args : List V) : Option (Env N V) :=
  if g.inputs.length = args.length then some (Env.setAll (fun _ => none) (g.inputs.zip args)) else none

/-- `_build_value_gc_info` (interpreter.py:906-928): number of operand occurrences plus output occurrences. -/
def gcInfo (g : Graph N) (v : N) : Nat :=
  (g.ops.flatMap Op.ins).count v + g.outputs.count v

/-- One step of "GC: release intermediate values" (interpreter.py:1005-1011).  A counter value 0 stands for "key absent".
The async version (1104-1109) leaves the key with value 0 instead of deleting it; a further decrement would make it
negative and never equal to 0 again, so both behave like "do nothing". -/
def gcStep (s : Env N V × (N → Nat)) (v : N) : Env N V × (N → Nat) :=
  if 0 < s.2 v then
    (if s.2 v - 1 = 0 then s.1.erase v else s.1, fun w => if w = v then s.2 v - 1 else s.2 w)
  else s

/-- Main loop of `_evaluate_graph_sync` (interpreter.py:949-1011) from op number `i` on. -/
def syncLoop (sem : Sem V) : Nat → List (Op N) → Env N V × (N → Nat) → Option (Env N V × (N → Nat))
  | _, [], s => some s
  | i, op :: ops, s => match resolve s.1 op.ins with
    | none => none                                     -- RuntimeError: missing values
    | some args =>
      if sem.impl i then match sem.run i args with
        | none => none                                 -- handler raised
        | some res => match bindOuts sem op.outs res with
          | none => none                               -- wrong number of results
          | some bs => syncLoop sem (i + 1) ops (op.ins.foldl gcStep (s.1.setAll bs, s.2))
      else none                                        -- NotImplementedError

/-- `_evaluate_graph_sync` (interpreter.py:930-1014).  Thread-local communication context handling and profiling are not
modelled here. -/
def evalSync (sem : Sem V) (g : Graph N) (args : List V) : Option (List V) :=
  match initEnv g args with
  | none => none
  | some env => match syncLoop sem 0 g.ops (env, gcInfo g) with
    | none => none
    | some s => resolve s.1 g.outputs

/-! ## Asynchronous evaluation as a transition system -/

/-- items of `ready_queue` (interpreter.py:1059): an op, the end sentinel `None`, or the first exception -/
inductive Item where
  | op (i : Nat)
  | done
  | err
  deriving DecidableEq

/-- state of the calling thread: in the main loop, returned the outputs, or raised -/
inductive Main (V : Type) where
  | loop
  | returned (outs : List V)
  | raised

/-- Local state of `_evaluate_graph_async` (interpreter.py:1016-1063).
`running`: ops whose handler was started with these arguments and has not completed; `busy`: the op the main thread
itself is executing (ops not in `async_ops` run inline, 1169-1180); `log`: the op starts recorded by `tracer.log_start`
(1154, 1174), i.e. one entry per handler invocation. -/
structure St (N V : Type) where
  env : Env N V
  pend : Nat → Nat
  rc : N → Nat
  queue : List Item
  running : List (Nat × List V)
  busy : Option Nat
  remOps : Nat
  err : Bool
  main : Main V
  log : List Nat

/-- `value_to_consumers[v]` (interpreter.py:1047-1054): one entry per operand occurrence, in op order; values that are
graph inputs have no entry. -/
def consumers (g : Graph N) (v : N) : List Nat :=
  if v ∈ g.inputs then []
  else (g.ops.zipIdx).flatMap fun p => (p.1.ins.filter (· = v)).map fun _ => p.2

/-- `pending_counts[op]` initially (interpreter.py:1048-1054) -/
def pend0 (g : Graph N) (i : Nat) : Nat :=
  match g.ops[i]? with
  | none => 0
  | some op => (op.ins.filter (· ∉ g.inputs)).length

/-- "Trigger consumers" for one consumer entry (interpreter.py:1096-1102) -/
def trigger (s : (Nat → Nat) × List Item) (i : Nat) : (Nat → Nat) × List Item :=
  let c := s.1 i - 1
  (fun j => if j = i then c else s.1 j, if c = 0 then s.2 ++ [.op i] else s.2)

/-- State after initial submission (interpreter.py:1183-1197): all ops without pending inputs are queued in op order;
an empty graph queues the sentinel. -/
def initSt (g : Graph N) (env : Env N V) : St N V where
  env := env
  pend := pend0 g
  rc := gcInfo g
  queue := ((List.range g.ops.length).filter (fun i => pend0 g i = 0)).map Item.op ++
    (if g.ops.length = 0 then [.done] else [])
  running := []
  busy := none
  remOps := g.ops.length
  err := false
  main := .loop
  log := []

/-- error branch of `on_op_done` (interpreter.py:1069-1074) -/
def onErr (s : St N V) : St N V :=
  if s.err then s else { s with err := true, queue := s.queue ++ [.err] }

/-- success branch of `on_op_done` once the results are distributed (interpreter.py:1083-1113) -/
def onOk (g : Graph N) (op : Op N) (bs : List (N × V)) (s : St N V) : St N V :=
  let t := (op.outs.flatMap (consumers g)).foldl trigger (s.pend, s.queue)
  let e := op.ins.foldl gcStep (s.env.setAll bs, s.rc)
  { s with
    env := e.1, rc := e.2, pend := t.1,
    remOps := s.remOps - 1,
    queue := if s.remOps - 1 = 0 then t.2 ++ [.done] else t.2 }

/-- `on_op_done(op, result)` / `on_op_done(op, None, error)` as called by the future callback or the inline path
(interpreter.py:1066-1113, 1159-1180); the arity exception inside is caught and reported as error.  `active_tasks` is
statistics only. -/
def onDone (sem : Sem V) (g : Graph N) (op : Op N) (res : Option V) (s : St N V) : St N V :=
  match res with
  | none => onErr s
  | some r => if s.err then s else match bindOuts sem op.outs r with
    | none => onErr s
    | some bs => onOk g op bs s

/-- One atomic action: the main thread takes the head of the queue, or a started op completes.  Every interleaving of
these is allowed; inline ops block the main thread until they complete.  `on_op_done` runs under the lock, and
`execute_op` reads operands that no other thread writes any more, so both are atomic.  `isAsync i`: opcode in `async_ops`
and an executor exists. -/
inductive Step (sem : Sem V) (isAsync : Nat → Bool) (g : Graph N) : St N V → St N V → Prop
  | takeOp {s : St N V} {i : Nat} {q : List Item} {op : Op N} {args : List V} (hm : s.main = .loop) (hb : s.busy = none)
      (hq : s.queue = .op i :: q) (hop : g.ops[i]? = some op) (ha : resolve s.env op.ins = some args)
      (hi : sem.impl i = true) :
      Step sem isAsync g s { s with
        queue := q, running := (i, args) :: s.running, busy := if isAsync i then none else some i,
        log := i :: s.log }
  | takeMissing {s : St N V} {i : Nat} {q : List Item} {op : Op N} (hm : s.main = .loop) (hb : s.busy = none)
      (hq : s.queue = .op i :: q) (hop : g.ops[i]? = some op) (ha : resolve s.env op.ins = none) :
      Step sem isAsync g s { s with queue := q, main := .raised }
  | takeNoImpl {s : St N V} {i : Nat} {q : List Item} {op : Op N} {args : List V} (hm : s.main = .loop)
      (hb : s.busy = none) (hq : s.queue = .op i :: q) (hop : g.ops[i]? = some op)
      (ha : resolve s.env op.ins = some args) (hi : sem.impl i = false) :
      Step sem isAsync g s { s with queue := q, main := .raised }
  | takeDone {s : St N V} {q : List Item} (hm : s.main = .loop) (hb : s.busy = none) (hq : s.queue = .done :: q) :
      Step sem isAsync g s { s with
        queue := q, main := match resolve s.env g.outputs with | some r => .returned r | none => .raised }
  | takeErr {s : St N V} {q : List Item} (hm : s.main = .loop) (hb : s.busy = none) (hq : s.queue = .err :: q) :
      Step sem isAsync g s { s with queue := q, main := .raised }
  | complete {s : St N V} {i : Nat} {args : List V} {op : Op N} {l r : List (Nat × List V)}
      (hr : s.running = l ++ (i, args) :: r) (hop : g.ops[i]? = some op) :
      Step sem isAsync g s (onDone sem g op (sem.run i args)
        { s with running := l ++ r, busy := if s.busy = some i then none else s.busy })

/-- reachable states of an asynchronous evaluation -/
inductive Reach (sem : Sem V) (isAsync : Nat → Bool) (g : Graph N) (s0 : St N V) : St N V → Prop
  | init : Reach sem isAsync g s0 s0
  | step {s s' : St N V} : Reach sem isAsync g s0 s → Step sem isAsync g s s' → Reach sem isAsync g s0 s'

end
end Verif.Interp
