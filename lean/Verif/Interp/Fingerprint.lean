import Mathlib.Data.List.Nodup
/-!
# C15: the structural fingerprint of a graph (`Interpreter._graph_exec_key`, runtime/interpreter.py:474-606)

The key is `sha256(json.dumps(fingerprint))`.  Modelled is the fingerprint (a tree); that JSON printing and SHA-256 are
injective on the trees that occur is an assumption (see DESIGN.md).  Value objects are identified by `N`.
-/
namespace Verif.Interp.Fp

/-- Attribute values as `_stable_attr_value` distinguishes them.  Floats are given by their `repr`; `other` is any object it
does not know (callables, `PyTreeDef`, ...).  NumPy scalars behave like the scalar, arrays like `bytes` with more fields. -/
inductive Attr where
  | none
  | bool (b : Bool)
  | int (i : Int)
  | float (repr : String)
  | str (s : String)
  | bytes (b : List Nat)
  | ndarray (dtype : String) (shape : List Nat) (b : List Nat)
  | list (l : List Attr)
  | tuple (l : List Attr)
  | dict (l : List (Attr × Attr))
  | other (id : Nat)

/-- JSON values built by `_stable_attr_value` -/
inductive Stable where
  | bool (b : Bool)
  | int (i : Int)
  | float (repr : String)
  | str (s : String)
  | bytes (len : Nat) (sha : String)
  | ndarray (dtype : String) (shape : List Nat) (sha : String)
  | arr (l : List Stable)
  | dict (items : List (Stable × Stable))

section
variable (sha : List Nat → String) (le : Stable → Stable → Bool)

mutual
/-- `_stable_attr_value` (runtime/interpreter.py:496-556); `none` = python `None`, i.e. unsupported (or the value `None`).
`le` is the order by `json.dumps` of the keys. -/
def stable : Attr → Option Stable
  | .none => none
  | .bool b => some (.bool b)
  | .int i => some (.int i)
  | .float r => some (.float r)
  | .str s => some (.str s)
  | .bytes b => some (.bytes b.length (sha b))
  | .ndarray d s b => some (.ndarray d s (sha b))
  | .list l => (stableL l).map .arr
  | .tuple l => (stableL l).map .arr
  | .dict l => (stableD l).map fun items => .dict (items.mergeSort fun a b => le a.1 b.1)
  | .other _ => none
/-- the loop over a list or tuple (runtime/interpreter.py:533-540) -/
def stableL : List Attr → Option (List Stable)
  | [] => some []
  | x :: xs => match stable x with
    | none => none
    | some s => match stableL xs with
      | none => none
      | some ss => some (s :: ss)
/-- the loop over a dict (runtime/interpreter.py:542-549) -/
def stableD : List (Attr × Attr) → Option (List (Stable × Stable))
  | [] => some []
  | (k, v) :: xs => match stable k with
    | none => none
    | some sk => match stable v with
      | none => none
      | some sv => match stableD xs with
        | none => none
        | some ss => some ((sk, sv) :: ss)
end

mutual
/-- `Graph` (edsl/graph.py:183-208); a value comes with `str(value.type)` where it is defined -/
inductive FG (N : Type) where
  | mk (inputs : List (N × String)) (ops : List (FO N)) (outputs : List N)
/-- `Operation` (edsl/graph.py:129-150); `attrs` sorted by key (the code sorts) -/
inductive FO (N : Type) where
  | mk (opcode : String) (ins : List N) (outs : List (N × String)) (attrs : List (String × Attr)) (regions : List (FG N))
end

/-- fields -/
def FG.inputs {N : Type} : FG N → List (N × String) | .mk i _ _ => i
/-- fields -/
def FG.ops {N : Type} : FG N → List (FO N) | .mk _ o _ => o
/-- fields -/
def FG.outputs {N : Type} : FG N → List N | .mk _ _ o => o
/-- fields -/
def FO.outs {N : Type} : FO N → List (N × String) | .mk _ _ o _ _ => o
/-- fields -/
def FO.ins {N : Type} : FO N → List N | .mk _ i _ _ _ => i

mutual
/-- the dict returned by `_graph_fingerprint` (runtime/interpreter.py:592-596) -/
inductive FPG where
  | mk (inputs : List String) (ops : List FPO) (outputs : List Nat)
/-- the dict for one op (runtime/interpreter.py:584-590) -/
inductive FPO where
  | mk (opcode : String) (ins : List Nat) (outs : List String) (keys : List String) (stable : List (String × Stable))
    (regions : List FPG)
end

variable {N : Type} [DecidableEq N]

/-- `_index(v)` (runtime/interpreter.py:562-566); the state lists the values in index order -/
def index (m : List N) (v : N) : Nat × List N :=
  if v ∈ m then (m.idxOf v, m) else (m.length, m ++ [v])

/-- `[_index(v) for v in vs]` -/
def indexAll (m : List N) : List N → List Nat × List N
  | [] => ([], m)
  | v :: vs => let r := index m v; let q := indexAll r.2 vs; (r.1 :: q.1, q.2)

/-- `attr_keys` and `stable_attr_items` (runtime/interpreter.py:576-582) -/
def stableItems (attrs : List (String × Attr)) : List (String × Stable) :=
  attrs.filterMap fun a => (stable sha le a.2).map fun s => (a.1, s)

mutual
/-- `_graph_fingerprint` (runtime/interpreter.py:558-596) -/
def fp : FG N → FPG
  | .mk ins ops outs =>
    let m0 := (indexAll [] (ins.map Prod.fst)).2
    let m1 := (indexAll m0 (ops.flatMap fun o => o.outs.map Prod.fst)).2
    let r := fpOps m1 ops
    .mk (ins.map Prod.snd) r.1 (indexAll r.2 outs).1
/-- loop over the ops (runtime/interpreter.py:573-590) -/
def fpOps : List N → List (FO N) → List FPO × List N
  | m, [] => ([], m)
  | m, .mk opcode ins outs attrs regions :: os =>
    let i := indexAll m ins
    let q := fpOps i.2 os
    (.mk opcode i.1 (outs.map Prod.snd) (attrs.map Prod.fst) (stableItems sha le attrs) (fpRegs regions) :: q.1, q.2)
/-- `[_graph_fingerprint(r) for r in op.regions]` -/
def fpRegs : List (FG N) → List FPG
  | [] => []
  | r :: rs => fp r :: fpRegs rs
end

/-! ## Specification: equality of graphs up to renaming of values -/

/-- values defined in a graph: its inputs and all op outputs -/
def defs (g : FG N) : List N := g.inputs.map Prod.fst ++ g.ops.flatMap fun o => o.outs.map Prod.fst

mutual
/-- well-formed: every value has one definition; operands and outputs are defined in the same graph; so for regions -/
inductive WF : FG N → Prop
  | mk {ins : List (N × String)} {ops : List (FO N)} {outs : List N} :
      (defs (.mk ins ops outs)).Nodup → (∀ v ∈ outs, v ∈ defs (.mk ins ops outs)) →
      WFOps (defs (.mk ins ops outs)) ops → WF (.mk ins ops outs)
/-- see `WF` -/
inductive WFOps : List N → List (FO N) → Prop
  | nil {d : List N} : WFOps d []
  | cons {d : List N} {c : String} {ins : List N} {outs : List (N × String)} {attrs : List (String × Attr)}
      {regs : List (FG N)} {os : List (FO N)} : (∀ v ∈ ins, v ∈ d) → WFRegs regs → WFOps d os →
      WFOps d (.mk c ins outs attrs regs :: os)
/-- see `WF` -/
inductive WFRegs : List (FG N) → Prop
  | nil : WFRegs []
  | cons {r : FG N} {rs : List (FG N)} : WF r → WFRegs rs → WFRegs (r :: rs)
end

mutual
/-- `Same g h`: some renaming `f`, injective on the values of `g`, turns `g` into `h`: same inputs (types), same ops in the
same order with the same opcode, operands, output types, attribute names and stable attribute values, same regions (up to
renaming again), same outputs. -/
inductive Same : FG N → FG N → Prop
  | mk {ins ins' : List (N × String)} {ops ops' : List (FO N)} {outs outs' : List N} (f : N → N) :
      (∀ a ∈ defs (.mk ins ops outs), ∀ b ∈ defs (.mk ins ops outs), f a = f b → a = b) →
      ins' = ins.map (fun v => (f v.1, v.2)) → SameOps f ops ops' → outs' = outs.map f →
      Same (.mk ins ops outs) (.mk ins' ops' outs')
/-- see `Same` -/
inductive SameOps : (N → N) → List (FO N) → List (FO N) → Prop
  | nil {f : N → N} : SameOps f [] []
  | cons {f : N → N} {c : String} {ins ins' : List N} {outs outs' : List (N × String)} {attrs attrs' : List (String × Attr)}
      {regs regs' : List (FG N)} {os os' : List (FO N)} :
      ins' = ins.map f → outs' = outs.map (fun v => (f v.1, v.2)) → attrs'.map Prod.fst = attrs.map Prod.fst →
      stableItems sha le attrs' = stableItems sha le attrs → SameRegs regs regs' → SameOps f os os' →
      SameOps f (.mk c ins outs attrs regs :: os) (.mk c ins' outs' attrs' regs' :: os')
/-- see `Same` -/
inductive SameRegs : List (FG N) → List (FG N) → Prop
  | nil : SameRegs [] []
  | cons {r r' : FG N} {rs rs' : List (FG N)} : Same r r' → SameRegs rs rs' → SameRegs (r :: rs) (r' :: rs')
end

end
end Verif.Interp.Fp
