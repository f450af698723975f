import Verif.Serde.Model
/-!
# Model of the graph IR and its JSON form (`mplang/edsl/graph.py`)

Value objects of a graph are in one-to-one correspondence with their names (`Graph.values`), so an operand is a name plus
the information whether the value object belongs to this graph (`own`); the code compares value objects by identity.
-/
namespace Verif.Graph
open Verif.Serde

/-- A `Value` object seen as operand or output (edsl/graph.py:68-90). -/
structure Operand where
  own : Bool
  name : String
  ty : Ty

mutual
/-- `Graph` (edsl/graph.py:183-208): what is left after building, i.e. without the name counters. -/
inductive Gr where
  | mk (inputs : List (String × Ty)) (ops : List OpD) (outputs : List String)
/-- `Operation` (edsl/graph.py:129-150) -/
inductive OpD where
  | mk (opcode : String) (ins : List Operand) (outs : List (String × Ty)) (attrs : List (String × PyVal))
    (regions : List Gr) (name : String)
end

/-- A graph under construction (edsl/graph.py:202-208).  `values` is the dict name → value object. -/
structure B where
  inputs : List (String × Ty) := []
  ops : List OpD := []
  outputs : List String := []
  values : List (String × Ty) := []
  vc : Nat := 0
  oc : Nat := 0

/-- the finished graph -/
def B.graph (b : B) : Gr := .mk b.inputs b.ops b.outputs

/-- `f"%{self._value_counter}"` (edsl/graph.py:212) -/
def valueName (n : Nat) : String := "%" ++ n.repr
/-- `f"op{self._op_counter}"` (edsl/graph.py:287) -/
def opName (n : Nat) : String := "op" ++ n.repr

/-- `add_value` (edsl/graph.py:216-236).  The counter advances even if the generated name is already taken; `none` = the
ValueError. -/
def B.addValue (b : B) (t : Ty) (name : Option String) : B × Option (String × Ty) :=
  match name with
  | none =>
    let b' := { b with vc := b.vc + 1 }
    if valueName b.vc ∈ b.values.map Prod.fst then (b', none)
    else ({ b' with values := b.values ++ [(valueName b.vc, t)] }, some (valueName b.vc, t))
  | some n =>
    if n ∈ b.values.map Prod.fst then (b, none)
    else ({ b with values := b.values ++ [(n, t)] }, some (n, t))

/-- `add_input` (edsl/graph.py:238-251) -/
def B.addInput (b : B) (name : String) (t : Ty) : B × Option Operand :=
  match b.addValue t (some name) with
  | (b', none) => (b', none)
  | (b', some v) => ({ b' with inputs := b'.inputs ++ [v] }, some ⟨true, v.1, v.2⟩)

/-- `[self.add_value(t) for t in output_types]` (edsl/graph.py:284): stops at the first ValueError, earlier values stay -/
def B.addValues (b : B) : List Ty → B × Option (List (String × Ty))
  | [] => (b, some [])
  | t :: ts => match b.addValue t none with
    | (b', none) => (b', none)
    | (b', some v) => match b'.addValues ts with
      | (b'', none) => (b'', none)
      | (b'', some vs) => (b'', some (v :: vs))

/-- output types: given, or the type of the first operand, or ValueError (edsl/graph.py:276-281) -/
def outTypes (ins : List Operand) : Option (List Ty) → Option (List Ty)
  | some ts => some ts
  | none => match ins with
    | [] => none
    | v :: _ => some [v.ty]

/-- `add_op` (edsl/graph.py:253-301).  The operands are not checked to belong to the graph. -/
def B.addOp (b : B) (opcode : String) (ins : List Operand) (tys : Option (List Ty)) (attrs : List (String × PyVal))
    (regions : List Gr) : B × Option (List Operand) :=
  match outTypes ins tys with
  | none => (b, none)
  | some ts => match b.addValues ts with
    | (b', none) => (b', none)
    | (b', some outs) =>
      ({ b' with oc := b'.oc + 1, ops := b'.ops ++ [.mk opcode ins outs attrs regions (opName b'.oc)] },
        some (outs.map fun v => ⟨true, v.1, v.2⟩))

/-- `add_output` (edsl/graph.py:303-311): membership is by identity, so a value of another graph is rejected -/
def B.addOutput (b : B) (v : Operand) : B × Bool :=
  if v.own ∧ v.name ∈ b.values.map Prod.fst then ({ b with outputs := b.outputs ++ [v.name] }, true) else (b, false)

/-! ## JSON -/

/-- `{"name": v.name, "type": to_json(v.type)}` -/
def valToJson (v : String × Ty) : Option Json :=
  match tyToJson v.2 with
  | none => none
  | some j => some (.obj [("name", .str v.1), ("type", j)])

/-- `{k: to_json(v) for k, v in attrs.items()}` -/
def attrsToJson (attrs : List (String × PyVal)) : Option (List (String × Json)) :=
  mapOpt (fun a => match toJson a.2 with | none => none | some j => some (a.1, j)) attrs

mutual
/-- `serde.to_json(graph)`: `Graph.to_json` (edsl/graph.py:369-401) plus the `_kind` tag (edsl/serde.py:163-166) -/
def grToJson : Gr → Option Json
  | .mk ins ops outs => match mapOpt valToJson ins with
    | none => none
    | some ji => match opsToJson ops with
      | none => none
      | some jo => some (withKind "mplang.Graph"
          [("inputs", .arr ji), ("operations", .arr jo), ("outputs", .arr (outs.map .str))])
/-- one operation (edsl/graph.py:386-397) -/
def opToJson : OpD → Option Json
  | .mk opcode ins outs attrs regions name => match mapOpt valToJson outs with
    | none => none
    | some jo => match attrsToJson attrs with
      | none => none
      | some ja => match regsToJson regions with
        | none => none
        | some jr => some (.obj [("opcode", .str opcode), ("inputs", .arr (ins.map fun v => .str v.name)),
            ("outputs", .arr jo), ("attrs", .obj ja), ("regions", .arr jr), ("name", .str name)])
/-- the list of operations -/
def opsToJson : List OpD → Option (List Json)
  | [] => some []
  | o :: os => match opToJson o with
    | none => none
    | some j => match opsToJson os with
      | none => none
      | some js => some (j :: js)
/-- the list of regions -/
def regsToJson : List Gr → Option (List Json)
  | [] => some []
  | r :: rs => match grToJson r with
    | none => none
    | some j => match regsToJson rs with
      | none => none
      | some js => some (j :: js)
end

/-- `dict[k]` on the value dict -/
def getVal (k : String) : List (String × Ty) → Option Ty
  | [] => none
  | (k', t) :: r => if k' = k then some t else getVal k r

/-- `del dict[k]` -/
def delVal (k : String) (vs : List (String × Ty)) : List (String × Ty) := vs.filter fun p => p.1 ≠ k

/-- `dict[k] = v` -/
def setVal (k : String) (t : Ty) : List (String × Ty) → List (String × Ty)
  | [] => [(k, t)]
  | (k', t') :: r => if k' = k then (k, t) :: r else (k', t') :: setVal k t r

/-- read `{"name": .., "type": ..}` -/
def valFromJson (j : Json) : Option (String × Ty) :=
  match j with
  | .obj fs => match getStr "name" fs, lookup "type" fs with
    | some n, some jt => (tyFromJson jt).map fun t => (n, t)
    | _, _ => none
  | _ => none

/-- read a string -/
def strFromJson (j : Json) : Option String :=
  match j with
  | .str s => some s
  | _ => none

/-- inputs: `add_input` for each entry (edsl/graph.py:424-425) -/
def addInputs : List (String × Ty) → B → Option B
  | [], b => some b
  | (n, t) :: r, b => match b.addInput n t with
    | (_, none) => none
    | (b', some _) => addInputs r b'

/-- "Rename outputs to match original names" (edsl/graph.py:449-455): `del` of a missing key is a KeyError -/
def renameOuts : List Operand → List String → List (String × Ty) → Option (List (String × Ty) × List (String × Ty))
  | v :: vs, n :: ns, values =>
    if v.name = n then
      (renameOuts vs ns values).map fun r => (r.1, (v.name, v.ty) :: r.2)
    else if v.name ∈ values.map Prod.fst then
      (renameOuts vs ns (setVal n v.ty (delVal v.name values))).map fun r => (r.1, (n, v.ty) :: r.2)
    else none
  | vs, _, values => some (values, vs.map fun v => (v.name, v.ty))

/-- overwrite results and name of the last operation -/
def setLast (outs : List (String × Ty)) (name : String) : List OpD → List OpD
  | [] => []
  | [.mk o i _ a r n] => [.mk o i outs a r (if name = "" then n else name)]
  | x :: xs => x :: setLast outs name xs

/-- operand lookup `graph.values[name]` (edsl/graph.py:430) -/
def resolveNames (values : List (String × Ty)) (ns : List String) : Option (List Operand) :=
  mapOpt (fun n => match getVal n values with | none => none | some t => some ⟨true, n, t⟩) ns

/-- `op_data.get("attrs", {})`, `op_data.get("regions", [])` -/
def getObjD (k : String) (fs : List (String × Json)) : Option (List (String × Json)) :=
  match lookup k fs with
  | none => some []
  | some (.obj js) => some js
  | _ => none
/-- see `getObjD` -/
def getArrD (k : String) (fs : List (String × Json)) : Option (List Json) :=
  match lookup k fs with
  | none => some []
  | some (.arr js) => some js
  | _ => none
/-- `data[k]` with a list -/
def getArr (k : String) (fs : List (String × Json)) : Option (List Json) :=
  match lookup k fs with
  | some (.arr js) => some js
  | _ => none
/-- `op_data.get("name")`, "" if absent -/
def getName (fs : List (String × Json)) : Option String :=
  match lookup "name" fs with
  | none => some ""
  | some (.str s) => some s
  | some .null => some ""
  | _ => none

/-- One operation of `from_json` (edsl/graph.py:428-460); `rec` reads a region.  A region that is not a graph is an error
here (python would store the object). -/
def opFromJson (eq : PyVal → PyVal → Bool) (rec : Json → Option Gr) (b : B) (j : Json) : Option B :=
  match j with
  | .obj fs => match getStr "opcode" fs, getArr "inputs" fs, getArr "outputs" fs, getObjD "attrs" fs,
        getArrD "regions" fs, getName fs with
    | some opcode, some jins, some jouts, some jattrs, some jregs, some name =>
      match mapOpt strFromJson jins, mapOpt valFromJson jouts, mapFields (fromJson eq) jattrs, mapOpt rec jregs with
      | some ns, some outs, some attrs, some regs =>
        match resolveNames b.values ns with
        | none => none
        | some ins => match b.addOp opcode ins (some (outs.map Prod.snd)) attrs regs with
          | (_, none) => none
          | (b', some vs) => match renameOuts vs (outs.map Prod.fst) b'.values with
            | none => none
            | some (values, os) => some { b' with values := values, ops := setLast os name b'.ops }
      | _, _, _, _ => none
    | _, _, _, _, _, _ => none
  | _ => none

/-- all operations in order -/
def opsFromJson (eq : PyVal → PyVal → Bool) (rec : Json → Option Gr) : List Json → B → Option B
  | [], b => some b
  | j :: js, b => match opFromJson eq rec b j with
    | none => none
    | some b' => opsFromJson eq rec js b'

/-- `for name in data["outputs"]: graph.add_output(graph.values[name])` (edsl/graph.py:463-464) -/
def addOutputs : List String → B → Option B
  | [], b => some b
  | n :: ns, b => match getVal n b.values with
    | none => none
    | some t => match b.addOutput ⟨true, n, t⟩ with
      | (_, false) => none
      | (b', true) => addOutputs ns b'

/-- `serde.from_json` on a graph, i.e. `Graph.from_json` (edsl/graph.py:403-466); the first argument bounds the nesting
depth of regions -/
def grFromJsonF (eq : PyVal → PyVal → Bool) : Nat → Json → Option Gr
  | 0, _ => none
  | n + 1, .obj fs => match lookup "_kind" fs with
    | some (.str kind) =>
      if kind = "mplang.Graph" then
        match getArr "inputs" fs, getArr "operations" fs, getArr "outputs" fs with
        | some ji, some jo, some jout =>
          match mapOpt valFromJson ji, mapOpt strFromJson jout with
          | some ins, some outs => match addInputs ins {} with
            | none => none
            | some b => match opsFromJson eq (grFromJsonF eq n) jo b with
              | none => none
              | some b' => (addOutputs outs b').map B.graph
          | _, _ => none
        | _, _, _ => none
      else none
    | _ => none
  | _ + 1, _ => none

/-- `serde.from_json` -/
def grFromJson (eq : PyVal → PyVal → Bool) (j : Json) : Option Gr := grFromJsonF eq j.depth j

end Verif.Graph
