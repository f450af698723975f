import Verif.Table.Multi
import Mathlib.Logic.Function.Basic
/-!
# Tables kept in files (model for C89)

Model of the file side of backends/table_impl.py without an object store: `read_impl` (811-834), `write_impl`
(873-964) for one table, `FileTableSource` (431-512), `TableValue.data` (555-571), `_infer_format` (793-808),
`_quote_identifier` (416-418) and the two type tables (363-413).

A file is its format and its rows (the encoding and decoding by PyArrow is not modelled: rows written in a format
are read back unchanged in the same format, and a file read in another format cannot be opened).  A path stands
for the file it denotes (no links: C87).
-/
namespace Verif.Table.Files
open Verif.Table (Fmt)

/-- the files -/
abbrev Disk (R : Type) := String → Option (Fmt × List R)

/-- contents of a `TableValue`: an Arrow table, or `FileTableSource(path, format)` (431-437) -/
inductive Val (R : Type) where
  | table (rows : List R)
  | file (path : String) (fmt : Fmt)
  deriving DecidableEq

/-- How much of a CSV file has been read when `open_csv` returns and until the writer truncates the file: PyArrow
reads the first block on opening and further blocks ahead in the background.  Any number of rows. -/
abbrev Ahead := Nat

/-- the process: files and table values -/
structure World (R : Type) where
  disk : Disk R
  vals : List (Val R)

/-- `source.open().read_all()` (table_impl.py:474-512): the rows, if the file is there and has the format -/
def openRows {R : Type} (d : Disk R) (path : String) (fmt : Fmt) : Option (List R) :=
  match d path with
  | some (f, rows) => if f = fmt then some rows else none
  | none => none

/-- the rows a value stands for now -/
def rowsOf {R : Type} (d : Disk R) : Val R → Option (List R)
  | .table rows => some rows
  | .file p f => openRows d p f

/-- rows that reach the writer when the table is read from `src` (opened before the writer is created, table_impl.py:889-899)
and the writer for the target has been created already (934-943: `ParquetWriter(resolved, …)`
truncates the target; `JsonWriter` opens it only in `close`).  `none`: reading raises. -/
def streamed {R : Type} (ahead : Ahead) (same : Bool) (target src : Fmt) (rows : List R) : Option (List R) :=
  if same = false ∨ target = .json then some rows
  else match src with
    | .json => some rows                                   -- 497-502: the whole file is read by `open`
    | .parquet => if rows = [] then some [] else none      -- 296, 349: row groups are read on iteration, from the emptied file
    | .csv => some (rows.take ahead)                       -- 486-496: the emptied file ends after what was read ahead

/-- what `write_batch` and `close` leave (table_impl.py:948-956; a failed write removes the file, 951-953; JSON without rows raises in
`close`, see C68) -/
def finish {R : Type} (d : Disk R) (path : String) (fmt : Fmt) : Option (List R) → Disk R × Bool
  | none => (Function.update d path none, false)
  | some rows =>
    if fmt = .json ∧ rows = [] then (d, false) else (Function.update d path (some (fmt, rows)), true)

/-- `write_impl` of one table (table_impl.py:873-964): the reader is opened first; if that raises nothing has happened.  Answers
whether the operation succeeded. -/
def writeVal {R : Type} (ahead : Ahead) (d : Disk R) (v : Val R) (path : String) (fmt : Fmt) : Disk R × Bool :=
  match v with
  | .table rows => finish d path fmt (some rows)
  | .file p f =>
    match openRows d p f with
    | none => (d, false)
    | some rows => finish d path fmt (streamed ahead (p == path) fmt f rows)

/-- operations of a program on tables -/
inductive Op (R : Type) where
  | const (rows : List R)
  | read (path : String) (fmt : Fmt)
  | data (v : Nat)
  | write (v : Nat) (path : String) (fmt : Fmt) (ahead : Ahead)

/-- one operation; `const`, `read` add a value, `data` replaces a lazy value by its rows (table_impl.py:555-571), failed operations change
nothing but what `writeVal` changes -/
def step {R : Type} (w : World R) : Op R → World R
  | .const rows => { w with vals := w.vals ++ [.table rows] }
  | .read p f => if (w.disk p).isSome then { w with vals := w.vals ++ [.file p f] } else w     -- 823-828
  | .data v =>
    match (w.vals[v]?).bind (rowsOf w.disk) with
    | none => w
    | some rows => { w with vals := w.vals.set v (.table rows) }
  | .write v p f k =>
    match w.vals[v]? with
    | none => w
    | some x => { w with disk := (writeVal k w.disk x p f).1 }

/-- a history of operations -/
def runOps {R : Type} (w : World R) (ops : List (Op R)) : World R := ops.foldl step w

/-- the path an operation writes -/
def Op.target {R : Type} : Op R → Option String
  | .write _ p _ _ => some p
  | _ => none

/-- `read_impl` then rows: what value `v` shows in world `w` -/
def World.show {R : Type} (w : World R) (v : Nat) : Option (List R) := (w.vals[v]?).bind (rowsOf w.disk)

/-! ## Formats -/

/-- `str.lower` on the letters that can occur in the extensions compared (ASCII; table_impl.py:798) -/
def lower (s : List Char) : List Char := s.map Char.toLower

/-- `str.endswith` -/
def endsWith (s suffix : List Char) : Bool := suffix.isSuffixOf s

/-- the `format` argument of `read` and `write` -/
inductive Hint where
  | auto
  | fmt (f : Fmt)
  deriving DecidableEq

/-- `_infer_format` (table_impl.py:793-808) -/
def inferFormat (path : List Char) : Hint → Fmt
  | .fmt f => f
  | .auto =>
    if endsWith (lower path) ".parquet".toList || endsWith (lower path) ".pq".toList then .parquet
    else if endsWith (lower path) ".csv".toList then .csv
    else if endsWith (lower path) ".json".toList || endsWith (lower path) ".jsonl".toList then .json
    else .parquet

/-- default of the `format` parameter of `table.read` (dialects/table.py:291) -/
def readDefault : Hint := .auto
/-- default of the `format` parameter of `table.write` (dialects/table.py:372) -/
def writeDefault : Hint := .fmt .parquet

/-! ## Names and types in SQL -/

/-- `_quote_identifier` (table_impl.py:416-418): double every double quote, add one at each end -/
def quoteIdent (s : List Char) : List Char := '"' :: (s.flatMap fun c => if c = '"' then ['"', '"'] else [c]) ++ ['"']

/-- How SQL reads the rest of a quoted identifier after its opening quote: two quotes stand for one, a single quote
ends it.  (Specification.) -/
def scanQuoted : List Char → Option (List Char × List Char)
  | '"' :: '"' :: r => (scanQuoted r).map fun p => ('"' :: p.1, p.2)
  | '"' :: r => some ([], r)
  | c :: r => (scanQuoted r).map fun p => (c :: p.1, p.2)
  | [] => none

/-- a quoted identifier at the start of a text -/
def readIdent : List Char → Option (List Char × List Char)
  | '"' :: r => scanQuoted r
  | _ => none

/-- the column types of the table dialect (keys of `_type_mapping`, table_impl.py:363-383) -/
inductive CTy where
  | bool | i8 | i16 | i32 | i64 | u8 | u16 | u32 | u64 | f16 | f32 | f64
  | string | date | time | timestamp | decimal | binary | json
  deriving DecidableEq, Repr

/-- `_duckdb_type_name(_type_mapping[t])` (table_impl.py:386-413) -/
def duckdbName : CTy → Option String
  | .bool => some "BOOLEAN"
  | .i8 => some "TINYINT"
  | .i16 => some "SMALLINT"
  | .i32 => some "INTEGER"
  | .i64 => some "BIGINT"
  | .u8 => some "UTINYINT"
  | .u16 => some "USMALLINT"
  | .u32 => some "UINTEGER"
  | .u64 => some "UBIGINT"
  | .f32 => some "FLOAT"
  | .f64 => some "DOUBLE"
  | .string => some "VARCHAR"
  | .date => some "DATE"
  | .time => some "TIME"
  | .timestamp => some "TIMESTAMP_MS"
  | .decimal => some "DECIMAL(38, 10)"
  | .binary => some "BLOB"
  | .json => some "JSON"
  | .f16 => none

/-- `FileTableSource.register` with a schema (table_impl.py:439-472): the projection list, or an error (a column missing from the file, a
type without SQL name) -/
def projections (fileCols : List (List Char)) : List (List Char × CTy) → Option (List (List Char × String))
  | [] => some []
  | (n, t) :: rest =>
    if n ∈ fileCols then
      match duckdbName t with
      | none => none
      | some s => (projections fileCols rest).map fun r => (quoteIdent n, s) :: r
    else none

/-- `FileTableSource.open` with a schema (table_impl.py:474-512): the columns delivered, or an error (a column missing from the file; Parquet:
the count check of `ParquetReader.cast` 308-314; CSV, JSON: PyArrow) -/
def openCols (fileCols : List (List Char)) (schema : List (List Char × CTy)) : Option (List (List Char)) :=
  if schema.all fun p => decide (p.1 ∈ fileCols) then some (schema.map Prod.fst) else none

/-! ## Type rule of `write` -/

/-- a table type as the type rule sees it: the column names -/
abbrev Schema := List String

/-- `_write_ae` (dialects/table.py:322-366), schemas: at least one table, column names distinct across tables; the result type
has all columns -/
def writeAe : List Schema → Schema → Option Schema
  | [], acc => some acc
  | s :: rest, acc => if s.any fun c => decide (c ∈ acc) then none else writeAe rest (acc ++ s)

/-- the rule: no table is refused -/
def writeRule (ts : List Schema) : Option Schema := if ts.isEmpty then none else writeAe ts []

end Verif.Table.Files
