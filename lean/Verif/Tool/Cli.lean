import Verif.Device.Cluster
/-!
# C119, C120 — clusters on the command line (mplang/cli.py)

Where the workers of a cluster listen, what they think the others' addresses are, and where the driver looks for them.  A config file
is the dictionary that YAML reads from it (`Verif.Device.Config`, C33).  Port numbers and ranks are natural numbers; `int(...)` reads
ASCII digits only (no signs, blanks or underscores); `str.strip` knows ASCII blanks.  Not modelled: argument parsing itself, uvicorn,
printing, loading the user's module.
-/
namespace Verif.Tool.Cli
open Verif.Device

variable {J : Type}

/-- `s.split(sep)` -/
def splitOn (sep : Char) : List Char → List (List Char)
  | [] => [[]]
  | c :: cs => if c = sep then [] :: splitOn sep cs else
    match splitOn sep cs with
    | [] => [[c]]
    | w :: ws => (c :: w) :: ws

/-- `str.isspace` on ASCII -/
def isBlank (c : Char) : Bool := c = ' ' || c = '\t' || c = '\n' || c = '\r'

/-- `s.strip()` (cli.py:144) -/
def strip (s : List Char) : List Char := ((s.dropWhile isBlank).reverse.dropWhile isBlank).reverse

/-- `int(s)` (cli.py:121, 145) -/
def int? (s : List Char) : Except Err Nat :=
  if s ≠ [] ∧ s.all Char.isDigit then .ok (Nat.ofDigitChars 10 s 0) else .error .valueError

/-- `normalize_endpoint` (cli.py:104-105) -/
def normalize (ep : String) : String := if "http".toList.isPrefixOf ep.toList then ep else "http://" ++ ep

/-- `int(endpoint.split(":")[-1])` (cli.py:121, 145) -/
def portOf (ep : String) : Except Err Nat := int? ((splitOn ':' ep.toList).getLastD [])

/-- `node["endpoint"].split(":")[0]` (cli.py:129) -/
def hostOf (ep : String) : String := String.ofList ((splitOn ':' ep.toList).headD [])

/-- `x or default` for a port flag (cli.py:127): zero counts as absent -/
def given : Option Nat → Option Nat
  | some (n + 1) => some (n + 1)
  | _ => none

/-- The flags of one command (cli.py:152-184, 476-590); `basePort = none`: the command has no such flag (`objects`). -/
structure Args (J : Type) where
  config : Option (Config J) := none
  endpoints : Option String := none
  spuEndpoints : Option String := none
  spuBasePort : Option Nat := none
  worldSize : Nat := 3
  basePort : Option Nat := some 8100

/-- what `build_endpoints` returns (cli.py:99-101) -/
structure Plan where
  endpoints : List String
  ports : List Nat
  worldSize : Nat
  spu : Option (List (Nat × String))
  deriving DecidableEq

/-- a loop that may raise -/
def mapE {A B : Type} (f : A → Except Err B) : List A → Except Err (List B)
  | [] => .ok []
  | a :: as => match f a with
    | .error e => .error e
    | .ok b => match mapE f as with
      | .error e => .error e
      | .ok bs => .ok (b :: bs)

/-- `node["endpoint"]` normalised, with its port (cli.py:118-121) -/
def nodeAddr (n : NodeCfg J) : Except Err (String × Nat) :=
  match n.endpoint with
  | none => .error .keyError
  | some ep => match portOf (normalize ep) with
    | .error e => .error e
    | .ok p => .ok (normalize ep, p)

/-- `dev_conf.get("kind", "").upper() == "SPU"` (cli.py:125) on ASCII letters -/
def isSpu (d : DeviceCfg J) : Bool := (d.kind.getD "").toList.map Char.toUpper = "SPU".toList

/-- the SPU addresses made from a config (cli.py:126-131) -/
def spuAddrs (base : Nat) (nodes : List (NodeCfg J)) : List (Nat × String) :=
  nodes.zipIdx.map fun e => (e.2, hostOf (e.1.endpoint.getD "") ++ ":" ++ (base + e.2).repr)

/-- the `if args.config:` branch (cli.py:109-131) -/
def fromConfig (a : Args J) (c : Config J) : Except Err Plan :=
  match c.nodes.getD [] with
  | [] => .error .valueError
  | n :: ns => match mapE nodeAddr (n :: ns) with
    | .error e => .error e
    | .ok l => .ok ⟨l.map Prod.fst, l.map Prod.snd, (n :: ns).length,
        if (c.devices.getD []).any (fun d => isSpu d.2) then
          some (spuAddrs ((given a.spuBasePort).getD ((l.map Prod.snd).headD 0 + 1000)) (n :: ns)) else none⟩

/-- the `else` branch (cli.py:132-141) -/
def fromFlags (a : Args J) : Plan :=
  let base := a.basePort.getD 5000
  ⟨(List.range a.worldSize).map fun i => "http://127.0.0.1:" ++ (base + i).repr, (List.range a.worldSize).map (base + ·), a.worldSize,
    (given a.spuBasePort).map fun b => (List.range a.worldSize).map fun i => (i, "127.0.0.1:" ++ (b + i).repr)⟩

/-- `[normalize_endpoint(ep.strip()) for ep in args.endpoints.split(",")]` (cli.py:144) -/
def listed (s : String) : List String := (splitOn ',' s.toList).map fun w => normalize (String.ofList (strip w))

/-- the `--endpoints` flag (cli.py:143-146) -/
def override (s : Option String) (p : Plan) : Except Err Plan :=
  match s with
  | none => .ok p
  | some s => if s = "" then .ok p else match mapE portOf (listed s) with
    | .error e => .error e
    | .ok ports => .ok ⟨listed s, ports, (listed s).length, p.spu⟩

/-- `build_endpoints` (cli.py:99-148) -/
def buildEndpoints (a : Args J) : Except Err Plan :=
  match a.config with
  | none => override a.endpoints (fromFlags a)
  | some c => match fromConfig a c with
    | .error e => .error e
    | .ok p => override a.endpoints p

/-- A worker process (cli.py:56-97 `run_worker`): its rank, the port it listens on, and the addresses it is given. -/
structure Worker where
  rank : Nat
  worldSize : Nat
  port : Nat
  endpoints : List String
  spu : Option (List (Nat × String))
  deriving DecidableEq

/-- the process for one rank (cli.py:240, 263-266) -/
def Plan.worker (p : Plan) (r : Nat) : Worker := ⟨r, p.worldSize, p.ports.getD r 0, p.endpoints, p.spu⟩

/-- `cmd_worker` (cli.py:228-240) -/
def cmdWorker (a : Args J) (rank : Int) : Except Err Worker :=
  match buildEndpoints a with
  | .error e => .error e
  | .ok p => if rank < 0 ∨ rank ≥ p.worldSize then .error .valueError else .ok (p.worker rank.toNat)

/-- `cmd_up` (cli.py:243-273): the processes started, in order -/
def cmdUp (a : Args J) : Except Err (List Worker) :=
  match buildEndpoints a with
  | .error e => .error e
  | .ok p => .ok ((List.range p.worldSize).map p.worker)

/-- `cmd_status` (cli.py:276-291): the workers asked -/
def cmdStatus (a : Args J) : Except Err (List String) :=
  match buildEndpoints a with
  | .error e => .error e
  | .ok p => .ok p.endpoints

/-- `cmd_objects` (cli.py:449-477): the workers asked, by rank.  This command has no `--base-port` flag (cli.py:567). -/
def cmdObjects (a : Args J) : Except Err (List String) :=
  match buildEndpoints { a with basePort := none } with
  | .error e => .error e
  | .ok p => .ok ((List.range p.worldSize).map fun r => p.endpoints.getD r "")

/-- the driver's own normalisation (backends/simp_driver/http.py:61-65) -/
def driverUrl (ep : String) : String :=
  if "http://".toList.isPrefixOf ep.toList || "https://".toList.isPrefixOf ep.toList then ep else "http://" ++ ep

/-- `cmd_run` with the HTTP backend (cli.py:336-363): the driver's addresses of the workers, by rank.  With a config file the cluster is
`ClusterSpec.from_dict` and the flags are not looked at. -/
def cmdRun (k : Consts J) (a : Args J) : Except Err (List String) :=
  match a.config with
  | some c => match fromDict k c with
    | .error e => .error e
    | .ok s => .ok ((Device.endpoints s).map driverUrl)
  | none => match buildEndpoints a with
    | .error e => .error e
    | .ok p => match simple k.na k.na k.emptyDict k.emptyDict k.emptyDict (fun i => p.endpoints.getD i "") p.worldSize p.worldSize with
      | .error e => .error e
      | .ok s => .ok ((Device.endpoints s).map driverUrl)

/-- `cmd_config_gen` (cli.py:187-225): the dictionary written; `cfg` is the SPU's configuration. -/
def genConfig (cfg : J) (w p : Nat) (spuBasePort : Option Nat) : Config J :=
  { clusterId := none
    nodes := some ((List.range w).map fun i => ⟨some ("node_" ++ i.repr), some ("127.0.0.1:" ++ (p + i).repr), none⟩)
    devices := some ((List.range w).map (fun i => ("P" ++ i.repr, ⟨some "ppu", some ["node_" ++ i.repr], none⟩)) ++
      match given spuBasePort with
      | none => []
      | some _ => [("SPU0", ⟨some "SPU", some ((List.range w).map fun i => "node_" ++ i.repr), some cfg⟩)]) }

/-! ### Stopping `up` -/

/-- The main thread of `cmd_up` (cli.py:263-270): for every rank a process is started, then appended to the list. -/
inductive Act where
  | start (r : Nat)
  | append (r : Nat)
  deriving DecidableEq

/-- the actions for `n` workers, in order -/
def acts (n : Nat) : List Act := (List.range n).flatMap fun r => [.start r, .append r]

/-- the processes running after some actions -/
def running (l : List Act) : List Nat := l.filterMap fun
  | .start r => some r
  | .append _ => none

/-- the processes in the list `processes` -/
def inList (l : List Act) : List Nat := l.filterMap fun
  | .append r => some r
  | .start _ => none

/-- `shutdown` (cli.py:256-261), run by a signal that arrives after `k` actions: the processes it terminates -/
def terminated (n k : Nat) : List Nat := inList ((acts n).take k)

end Verif.Tool.Cli
