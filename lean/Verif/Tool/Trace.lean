import Mathlib.Data.List.Basic
import Verif.Base.Names
/-!
# C121 — execution traces: recording, saving and merging

`ExecutionTracer` (mplang/runtime/interpreter.py) and `trace merge` (mplang/cli.py).  Times are natural numbers (microseconds), a duration
is an integer.  Communication statistics and the printed summary are not modelled.
-/
namespace Verif.Tool.Trace

/-- a JSON value inside an event's `args` -/
inductive Val where
  | str (s : String)
  | num (n : Nat)
  deriving DecidableEq

/-- an event's `pid`: a number, or something on which `% 10000` raises -/
inductive Pid where
  | int (n : Int)
  | other
  deriving DecidableEq

/-- an event's `args`: a dictionary, or something that cannot be assigned to by key -/
inductive Args where
  | dict (l : List (String × Val))
  | other
  deriving DecidableEq

/-- the fields of an event that merging does not look at -/
structure Body where
  name : String
  cat : String
  ts : Nat
  dur : Int
  tid : Option Nat
  deriving DecidableEq

/-- one event of a trace file -/
structure Event where
  pid : Option Pid
  args : Option Args
  body : Body
  deriving DecidableEq

/-! ## Recording -/

/-- an operation: its identity `id(op)` and its opcode -/
structure Op where
  id : Nat
  opcode : String
  deriving DecidableEq

/-- calls of the tracer's methods; an interpreter passes its `trace_pid` both as `pid` and as `namespace` (interpreter.py:1099-1190) -/
inductive Act where
  | schedule (op : Op) (ns : Option Nat) (t : Nat)
  | start (op : Op) (ns : Option Nat) (t : Nat)
  | finish (op : Op) (ns : Option Nat) (started t thread : Nat)
  | custom (name cat : String) (t0 t1 : Nat) (args : List (String × Val)) (thread : Nat)
  deriving DecidableEq

/-- `(id(op), namespace)` -/
abbrev Key := Nat × Option Nat

/-- the tracer: `op_schedule_times` and `trace_events` (interpreter.py:71-90) -/
structure Tracer where
  osPid : Nat
  enabled : Bool
  sched : List (Key × Nat)
  events : List Event

/-- `if pid is None: pid = self.pid` (interpreter.py:127, 150) -/
def pidOf (osPid : Nat) (ns : Option Nat) : Option Pid := some (.int ((ns.getD osPid : Nat) : Int))

/-- the queue event (interpreter.py:134-142) -/
def queueEvent (osPid : Nat) (op : Op) (ns : Option Nat) (t0 t : Nat) : Event :=
  ⟨pidOf osPid ns, none, ⟨"Queue: " ++ op.opcode, "scheduler", t0, (t : Int) - t0, none⟩⟩

/-- the execution event (interpreter.py:153-164) -/
def opEvent (osPid : Nat) (op : Op) (ns : Option Nat) (started t thread : Nat) : Event :=
  ⟨pidOf osPid ns, some (.dict [("opcode", .str op.opcode)]), ⟨op.opcode, "op", started, (t : Int) - started, some thread⟩⟩

/-- a custom event (interpreter.py:183-192) -/
def customEvent (osPid : Nat) (name cat : String) (t0 t1 : Nat) (args : List (String × Val)) (thread : Nat) : Event :=
  ⟨pidOf osPid none, some (.dict args), ⟨name, cat, t0, (t1 : Int) - t0, some thread⟩⟩

/-- a dictionary lookup -/
def find (k : Key) : List (Key × Nat) → Option Nat
  | [] => none
  | e :: l => if e.1 = k then some e.2 else find k l

/-- the dictionary without a key -/
def drop (k : Key) (l : List (Key × Nat)) : List (Key × Nat) := l.filter fun e => e.1 ≠ k

/-- `log_schedule`, `log_start`, `log_end`, `log_custom_event` (interpreter.py:115-192) -/
def Tracer.log (tr : Tracer) (a : Act) : Tracer :=
  if tr.enabled = false then tr else
  match a with
  | .schedule op ns t => { tr with sched := ((op.id, ns), t) :: drop (op.id, ns) tr.sched }
  | .start op ns t => match find (op.id, ns) tr.sched with
    | none => tr
    | some t0 => { tr with sched := drop (op.id, ns) tr.sched, events := tr.events ++ [queueEvent tr.osPid op ns t0 t] }
  | .finish op ns started t thread => { tr with events := tr.events ++ [opEvent tr.osPid op ns started t thread] }
  | .custom name cat t0 t1 args thread => { tr with events := tr.events ++ [customEvent tr.osPid name cat t0 t1 args thread] }

/-- a whole history -/
def Tracer.logAll (tr : Tracer) (h : List Act) : Tracer := h.foldl Tracer.log tr

/-! ## Saving -/

/-- the file name (interpreter.py:207-210); `save_trace` is called with a job id that is not empty (interpreter.py:1004, 1212) -/
def fileName (job : String) (rank : Option Nat) : String :=
  "trace_" ++ job ++ (match rank with | none => "" | some r => "_rank_" ++ r.repr) ++ ".json"

/-- `save_trace` (interpreter.py:194-240): the file written, if any -/
def Tracer.save (tr : Tracer) (job : String) (rank : Option Nat) : Option (String × List Event) :=
  if tr.enabled = false ∨ tr.events = [] ∨ tr.events.length < 100 then none else some (fileName job rank, tr.events)

/-! ## Merging -/

/-- `re.compile(r"_rank_(\d+)\.json$").search(fname)` (cli.py:397, 407): digits are ASCII and the name does not end in a newline -/
def rankOf (name : String) : Option Nat :=
  if ".json".toList.reverse.isPrefixOf name.toList.reverse then
    if ((name.toList.reverse.drop 5).takeWhile Char.isDigit) ≠ [] ∧
        "_rank_".toList.reverse.isPrefixOf ((name.toList.reverse.drop 5).dropWhile Char.isDigit) then
      some (Nat.ofDigitChars 10 ((name.toList.reverse.drop 5).takeWhile Char.isDigit).reverse 0)
    else none
  else none

/-- `pid_offset` (cli.py:408-414) -/
def offset : Option Nat → Nat
  | none => 0
  | some r => (r + 1) * 10000

/-- `d["rank"] = rank` -/
def setRank (r : Nat) : List (String × Val) → List (String × Val)
  | [] => [("rank", .num r)]
  | e :: l => if e.1 = "rank" then (e.1, .num r) :: l else e :: setRank r l

/-- the new `pid` (cli.py:418-425); `none`: raises -/
def newPid (rank : Option Nat) : Option Pid → Option (Option Pid)
  | none => some none
  | some (.int n) => some (some (.int (offset rank + n % 10000)))
  | some .other => none

/-- the new `args` (cli.py:428-431); `none`: raises -/
def newArgs (rank : Option Nat) (a : Option Args) : Option (Option Args) :=
  match rank with
  | none => some a
  | some r => match a with
    | none => some (some (.dict [("rank", .num r)]))
    | some (.dict l) => some (some (.dict (setRank r l)))
    | some .other => none

/-- one event (cli.py:416-433) -/
def remap (rank : Option Nat) (e : Event) : Option Event :=
  match newPid rank e.pid with
  | none => none
  | some p => match newArgs rank e.args with
    | none => none
    | some a => some ⟨p, a, e.body⟩

/-- the events of one file, until one raises (cli.py:416-437) -/
def mergeFile (rank : Option Nat) : List Event → List Event
  | [] => []
  | e :: es => match remap rank e with
    | none => []
    | some e' => e' :: mergeFile rank es

/-- `cmd_trace_merge` (cli.py:378-446): files in the order of `glob`, `none` for the content of a file that cannot be read as a trace -/
def merge (files : List (String × Option (List Event))) : List Event :=
  files.flatMap fun f => match f.2 with
    | none => []
    | some es => mergeFile (rankOf f.1) es

/-! ## Clusters -/

/-- One event recorded in a cluster: the rank on which it happened, and the call. -/
abbrev History := List (Nat × Act)

/-- The simulated cluster (backends/simp_driver/mem.py:78-103): one tracer for all workers in one process, which each worker saves under
its own rank. -/
def memFiles (osPid : Nat) (h : History) (job : String) (world : Nat) : List (String × Option (List Event)) :=
  (List.range world).filterMap fun r => ((Tracer.mk osPid true [] []).logAll (h.map Prod.snd)).save job (some r) |>.map fun f => (f.1, some f.2)

/-- Workers behind HTTP (backends/simp_worker/http.py:905-933): one tracer per process and directory; `WorkerInfra` is made without a
`trace_pid`, so files are saved without a rank.  Merging is given the paths. -/
def httpFiles (osPid : Nat → Nat) (h : History) (job : String) (world : Nat) : List (String × Option (List Event)) :=
  (List.range world).filterMap fun r =>
    ((Tracer.mk (osPid r) true [] []).logAll ((h.filter fun e => e.1 = r).map Prod.snd)).save job none |>.map fun f =>
      ("node" ++ r.repr ++ "/trace/" ++ f.1, some f.2)

end Verif.Tool.Trace
