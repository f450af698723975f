import Verif.Tool.SortWrite
/-!
# Compiled programs and their artifacts (`mplang/edsl/program.py`, `mplang/tool/program.py`)
-/
namespace Verif.Tool
open Verif.Serde Verif.Graph

/-- `CompiledProgram` with its `FlatIOSignature` (edsl/program.py:27-80).  The signature's `kind` is a class constant. -/
structure Program where
  graph : Gr
  inputArity : Int
  outputArity : Int
  requiredOpcodes : List String
  graphDigest : String
  requiredWorldSize : Option Int := none
  createdAt : Option String := none
  mplangVersion : Option String := none
  schemaVersion : Int := 1
  name : Option String := none

/-- JSON of an optional string -/
def optStr : Option String → Json
  | none => .null
  | some s => .str s
/-- JSON of an optional int -/
def optNum : Option Int → Json
  | none => .null
  | some n => .num n

/-- `FlatIOSignature.to_json` (edsl/program.py:38-43) -/
def sigToJson (i o : Int) : Json :=
  .obj [("kind", .str "flat_list_v0"), ("input_arity", .num i), ("output_arity", .num o)]

/-- `FlatIOSignature.from_json` (edsl/program.py:45-52) -/
def sigFromJson (j : Json) : Option (Int × Int) :=
  match j with
  | .obj fs =>
    if getStr "kind" fs = some "flat_list_v0" then
      match getNum "input_arity" fs, getNum "output_arity" fs with
      | some i, some o => some (i, o)
      | _, _ => none
    else none
  | _ => none

/-- `serde.to_json(program)`: `CompiledProgram.to_json` (edsl/program.py:82-93) plus the kind tag -/
def Program.toJson (p : Program) : Option Json :=
  match grToJson p.graph with
  | none => none
  | some jg => some (withKind "mplang.CompiledProgram"
      [("schema_version", .num p.schemaVersion), ("name", optStr p.name), ("graph", jg),
       ("signature", sigToJson p.inputArity p.outputArity),
       ("required_opcodes", .arr (p.requiredOpcodes.map .str)), ("graph_digest", .str p.graphDigest),
       ("required_world_size", optNum p.requiredWorldSize), ("created_at", optStr p.createdAt),
       ("mplang_version", optStr p.mplangVersion)])

/-- `data.get(k)` for an optional string.  Simplification: a value of another JSON type is an error here, python stores
it. -/
def getOptStr (k : String) (fs : List (String × Json)) : Option (Option String) :=
  match lookup k fs with
  | none => some none
  | some .null => some none
  | some (.str s) => some (some s)
  | _ => none

/-- `required_world_size` (edsl/program.py:112-114) -/
def getOptNum (k : String) (fs : List (String × Json)) : Option (Option Int) :=
  match lookup k fs with
  | none => some none
  | some .null => some none
  | some (.num n) => some (some n)
  | _ => none

/-- `CompiledProgram.from_json` on the fields (edsl/program.py:95-125) -/
def progFields (eq : PyVal → PyVal → Bool) (fs : List (String × Json)) : Option Program :=
  match getNum "schema_version" fs with
  | none => none
  | some v =>
    if v ≠ 1 then none
    else match lookup "graph" fs, lookup "signature" fs, getArrD "required_opcodes" fs, getStr "graph_digest" fs with
      | some jg, some js, some jo, some dg =>
        match grFromJson eq jg, sigFromJson js, mapOpt strFromJson jo with
        | some g, some (i, o), some ops =>
          match getOptNum "required_world_size" fs, getOptStr "created_at" fs, getOptStr "mplang_version" fs,
              getOptStr "name" fs with
          | some ws, some ca, some mv, some nm => some ⟨g, i, o, ops, dg, ws, ca, mv, v, nm⟩
          | _, _, _, _ => none
        | _, _, _ => none
      | _, _, _, _ => none

/-- `serde.from_json(payload)` together with the `isinstance(program, CompiledProgram)` test
(edsl/serde.py:259-351, tool/program.py:293-297) -/
def progFromJson (eq : PyVal → PyVal → Bool) (j : Json) : Option Program :=
  match j with
  | .obj fs => match lookup "_kind" fs with
    | some (.str kind) => if kind = "mplang.CompiledProgram" then progFields eq fs else none
    | _ => none
  | _ => none

/-! ## what the artifact records about the graph -/

mutual
/-- all operations of a graph and of the regions nested in it: `_iter_graphs` (tool/program.py:41-60).  The code walks with
a stack and visits every graph object once; its callers only build sets from the result, so order and repetition do not
matter. -/
def opsOf : Gr → List OpD
  | .mk _ ops _ => opsOfOps ops
/-- see `opsOf` -/
def opsOfOp : OpD → List OpD
  | .mk o i u a regs n => .mk o i u a regs n :: opsOfGrs regs
/-- see `opsOf` -/
def opsOfOps : List OpD → List OpD
  | [] => []
  | o :: os => opsOfOp o ++ opsOfOps os
/-- see `opsOf` -/
def opsOfGrs : List Gr → List OpD
  | [] => []
  | g :: gs => opsOf g ++ opsOfGrs gs
end

/-- `op.opcode` -/
def opcodeOf : OpD → String
  | .mk o _ _ _ _ _ => o
/-- `op.attrs` -/
def attrsOf : OpD → List (String × PyVal)
  | .mk _ _ _ a _ _ => a

/-- `sorted(xs)` on strings -/
def sortStrs (xs : List String) : List String := (sortKeys (xs.map fun s => (s, ()))).map Prod.fst
/-- `set(xs)` as a list without repetition -/
def dedupStrs : List String → List String
  | [] => []
  | x :: xs => if x ∈ xs then dedupStrs xs else x :: dedupStrs xs

/-- `sorted(_collect_opcodes(graph))` (tool/program.py:63-68, 136, 197) -/
def requiredOpcodesOf (g : Gr) : List String := sortStrs (dedupStrs ((opsOf g).map opcodeOf))

/-- `attrs.get(k)` -/
def getAttr (k : String) : List (String × PyVal) → Option PyVal
  | [] => none
  | (k', v) :: r => if k' = k then some v else getAttr k r

/-- `int(p)` and the sign test (tool/program.py:84-87).  Simplification: floats and numeric strings, which `int` also
accepts, are errors here. -/
def partyId (v : PyVal) : Option Nat :=
  match v with
  | .int n => if n < 0 then none else some n.toNat
  | .bool b => some (if b then 1 else 0)
  | _ => none

/-- the value of one `parties` attribute (tool/program.py:75-88); python sets are not modelled -/
def partiesVal (v : Option PyVal) : Option (List Nat) :=
  match v with
  | none => some []
  | some .none => some []
  | some (.list xs) => mapOpt partyId xs
  | some (.tuple xs) => mapOpt partyId xs
  | some _ => none

/-- `_collect_parties` (tool/program.py:71-89): only the attribute called `parties` is looked at -/
def collectParties (g : Gr) : Option (List Nat) :=
  (mapOpt (fun o => partiesVal (getAttr "parties" (attrsOf o))) (opsOf g)).map List.flatten

/-- `max(parties) + 1`, or 0 -/
def sizeFor : List Nat → Nat
  | [] => 0
  | p :: ps => (ps.foldr max p) + 1

/-- `_compute_required_world_size` (tool/program.py:92-96) -/
def worldSizeOf (g : Gr) : Option Nat := (collectParties g).map sizeFor

/-- `compute_graph_digest` (edsl/program.py:127-134): a hash `H` of the canonical text.  The text (sorted keys, fixed
separators) is determined by the JSON tree with sorted keys, so `H` is a function of that tree. -/
def digestOf (H : Json → String) (g : Gr) : Option String := (grToJson g).map fun j => H (Json.sorted j)

/-- `len(graph.inputs)` -/
def nInputs : Gr → Nat
  | .mk ins _ _ => ins.length
/-- `len(graph.outputs)` -/
def nOutputs : Gr → Nat
  | .mk _ _ outs => outs.length

/-- `required_world_size is not None and required_world_size != expected` is the reject test -/
def worldOk (recorded : Option Int) (w : Nat) : Bool :=
  match recorded with
  | none => true
  | some n => n == (w : Int)

/-- `_validate_program` (tool/program.py:121-168); `false` = an exception.  The final `serde.to_json(program)` can only fail
on the graph, and then the digest has already failed. -/
def validate (H : Json → String) (p : Program) : Bool :=
  match digestOf H p.graph, worldSizeOf p.graph with
  | some d, some w =>
    p.inputArity == nInputs p.graph && p.outputArity == nOutputs p.graph
      && sortStrs p.requiredOpcodes == requiredOpcodesOf p.graph
      && (p.graphDigest == "" || p.graphDigest == d) && worldOk p.requiredWorldSize w
  | _, _ => false

/-- What `trace` hands to `compile_program`: the graph, how many values were captured, how many outputs are constants, how
many arguments became graph inputs (edsl/tracer.py `TracedFunction`). -/
structure Traced where
  graph : Gr
  captured : Nat
  outImms : Nat
  inVarPos : Nat
  name : Option String

/-- `name or traced.name` (tool/program.py:211) -/
def nameOr (a b : Option String) : Option String :=
  match a with
  | none => b
  | some s => if s = "" then b else some s

/-- `compile_program` on a traced function (tool/program.py:99-119, 171-213); `now`, `version` stand for the clock and
`mplang.__version__`, `name` for the optional argument -/
def compileProgram (H : Json → String) (now : String) (version : Option String) (name : Option String) (t : Traced) :
    Option Program :=
  if t.captured ≠ 0 then none
  else if t.outImms ≠ 0 then none
  else if nInputs t.graph ≠ t.inVarPos then none
  else match digestOf H t.graph, worldSizeOf t.graph with
    | some d, some w => some ⟨t.graph, nInputs t.graph, nOutputs t.graph, requiredOpcodesOf t.graph, d, some (w : Int),
        some now, version, 1, nameOr name t.name⟩
    | _, _ => none

/-! ## the container -/

/-- What is used of `json`, `tarfile` and gzip: printing and parsing JSON text, writing an archive with the single member
`artifact.json`, and reading that member back as (is a regular file, size in the header, content). -/
structure Container where
  text : Json → List Nat
  parse : List Nat → Option Json
  tar : Bool → List Nat → List Nat
  untar : List Nat → Option (Bool × Int × List Nat)

/-- the contract of these libraries -/
structure Container.Lossless (c : Container) : Prop where
  json : ∀ j, c.parse (c.text j) = some j
  tar : ∀ z b, c.untar (c.tar z b) = some (true, (b.length : Int), b)

/-- `pack` (tool/program.py:216-245) -/
def pack (c : Container) (compress : Bool) (p : Program) : Option (List Nat) :=
  p.toJson.map fun j => c.tar compress (c.text (Json.sorted j))

/-- `unpack` (tool/program.py:267-301) -/
def unpack (c : Container) (H : Json → String) (eq : PyVal → PyVal → Bool) (limit : Nat) (data : List Nat) :
    Option Program :=
  match c.untar data with
  | none => none
  | some (isFile, size, content) =>
    if isFile = false then none
    else if size < 0 then none
    else if size > limit then none
    else match c.parse content with
      | none => none
      | some j => match progFromJson eq j with
        | none => none
        | some p => if validate H p then some p else none

end Verif.Tool
