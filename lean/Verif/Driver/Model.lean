/-!
# The driver (backends/simp_driver/ops.py, mem.py, http.py, values.py; mplang/__init__.py `fetch`)

Every SIMP operation is sent to all workers; the URIs they return are collected into `DriverVar`s.  A worker's object
store is used here only through `put` without URI (a fresh key) and `get`, whose behaviour is the subject of C28/C29;
it is represented by the list of values stored so far and a URI by the position in that list.
-/
namespace Verif.Driver
variable {V E : Type}

abbrev Uri := Nat
/-- A worker's store. -/
abbrev Store (V : Type) := List V
/-- simp_driver/values.py:27-52 `DriverVar`: one optional URI per rank. -/
abbrev DriverVar := List (Option Uri)

/-- Exceptions: the library's own, or one raised while executing on a worker. -/
inductive Exn (E : Type) where
  | keyError            -- a URI is not in the worker's store
  | worker (e : E)

/-- `store.get(inp) if inp is not None else None` for each input (mem.py:219-221, http.py:670-672 of the worker). -/
def resolve (st : Store V) : List (Option Uri) → Except (Exn E) (List (Option V))
  | [] => .ok []
  | none :: us => (resolve st us).map (fun vs => none :: vs)
  | some u :: us => match st[u]? with
    | none => .error .keyError
    | some v => (resolve st us).map (fun vs => some v :: vs)

/-- `store.put(res) if res is not None else None` for each result (mem.py:229-231). -/
def putAll (st : Store V) : List (Option V) → Store V × List (Option Uri)
  | [] => (st, [])
  | none :: vs => ((putAll st vs).1, none :: (putAll st vs).2)
  | some v :: vs => ((putAll (st ++ [v]) vs).1, some st.length :: (putAll (st ++ [v]) vs).2)

/-- What a worker answers: nothing for a graph without outputs, else one URI per output (mem.py:226-231). -/
abbrev Answer := Option (List (Option Uri))

/-- Storing the results of an execution (mem.py:226-231). -/
def finish (m : Nat) (st : Store V) : Except (Exn E) (List (Option V)) → Store V × Except (Exn E) Answer
  | .error e => (st, .error e)
  | .ok rs => if m = 0 then (st, .ok none) else ((putAll st rs).1, .ok (some (putAll st rs).2))

/-- The joint behaviour of the workers on one operation: from the inputs of all ranks to the outcome of all ranks (they
may communicate while executing). -/
abbrev Joint (V E : Type) := List (List (Option V)) → List (Except E (List (Option V)))

/-- `arg[rank]` for every argument (ops.py:109-112). -/
def partyInputs (args : List DriverVar) (rank : Nat) : List (Option Uri) := args.map (fun a => (a[rank]?).join)

/-- The outcomes of all workers when all inputs were found; a worker whose inputs are missing raises. -/
def attach : List (Except (Exn E) (List (Option V))) → List (Except E (List (Option V))) →
    List (Except (Exn E) (List (Option V)))
  | .error e :: ins, _ :: outs => .error e :: attach ins outs
  | .ok _ :: ins, .error e :: outs => .error (.worker e) :: attach ins outs
  | .ok _ :: ins, .ok r :: outs => .ok r :: attach ins outs
  | _, _ => []

/-- `[f.result() for f in futures]` (http.py:87-89; mem.py:169-181 raises some failing worker's exception instead of the
first one's). -/
def collect : List (Except (Exn E) Answer) → Except (Exn E) (List Answer)
  | [] => .ok []
  | .error e :: _ => .error e
  | .ok a :: rest => (collect rest).map (fun as => a :: as)

/-- ops.py:67-94 `_collect_to_hostvars`, as a list of variables (the caller unwraps a single one). -/
def collectToHostvars (results : List Answer) (numOutputs : Nat) : List DriverVar :=
  (List.range numOutputs).map (fun j => results.map (fun res => match res with
    | none => none
    | some l => (l[j]?).join))

/-- The inputs found by every rank. -/
def allInputs (stores : List (Store V)) (args : List DriverVar) : List (Except (Exn E) (List (Option V))) :=
  stores.zipIdx.map (fun p => resolve p.1 (partyInputs args p.2))

/-- The found inputs, with an empty list for a rank that raised (it does not take part). -/
def given (ins : List (Except (Exn E) (List (Option V)))) : List (List (Option V)) :=
  ins.map (fun r => match r with | .ok l => l | .error _ => [])

/-- The end of every worker's execution: results stored. -/
def finishAll (m : Nat) : List (Store V) → List (Except (Exn E) (List (Option V))) →
    List (Store V) × List (Except (Exn E) Answer)
  | st :: sts, r :: rs =>
    ((finish m st r).1 :: (finishAll m sts rs).1, (finish m st r).2 :: (finishAll m sts rs).2)
  | sts, _ => (sts, [])

/-- ops.py:97-121 `_generic_simp_dispatch` -/
def dispatch (B : Joint V E) (m : Nat) (stores : List (Store V)) (args : List DriverVar) :
    List (Store V) × Except (Exn E) (List DriverVar) :=
  let ins := allInputs stores args
  let fin := finishAll m stores (attach ins (B (given ins)))
  (fin.1, (collect fin.2).map (fun rs => collectToHostvars rs m))

/-- `mp.fetch` of a `DriverVar` (mplang/__init__.py:264-283), before the single-party unwrapping. -/
def fetch (stores : List (Store V)) (x : DriverVar) : List (Option V) :=
  List.zipWith (fun st u => match u with
    | none => none
    | some u => st[u]?) stores x

/-- A straight-line program: each operation names its arguments (positions of earlier variables), its number of outputs
and its joint behaviour. -/
structure Op (V E : Type) where
  args : List Nat
  numOutputs : Nat
  body : Joint V E

/-- Executing a program through the driver; variables are appended to the environment. -/
def exec : List (Op V E) → List (Store V) → List DriverVar → List (Store V) × Except (Exn E) (List DriverVar)
  | [], stores, env => (stores, .ok env)
  | op :: ops, stores, env =>
    match dispatch op.body op.numOutputs stores (op.args.map (fun a => env.getD a [])) with
    | (stores', .error e) => (stores', .error e)
    | (stores', .ok outs) => exec ops stores' (env ++ outs)

end Verif.Driver
