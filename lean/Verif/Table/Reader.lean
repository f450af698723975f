import Mathlib.Data.List.Basic
import Mathlib.Tactic.Ring
/-!
Batched table readers (backends/table_impl.py:65-253 and 774-811).

A record batch is the list of its rows; an Arrow source is the list of record batches it still has to deliver.
-/

namespace Verif.Table

/-- What reading a batch can raise. -/
inductive Err where
  | stopIteration
  | valueError
  | indexError
  deriving DecidableEq, Repr

/-- `TableReader` (backends/table_impl.py:73-104): `src` is what the underlying `RecordBatchReader` still holds. -/
structure Rd (R : Type) where
  src : List (List R)
  batchSize : Int
  remain : Option (List R) := none
  eof : Bool := false
  deriving DecidableEq, Repr

/-- The loop that accumulates batches (backends/table_impl.py:186-211): `n` counts rows, `acc` holds the non-empty
batches; returns the batches, the count, the rest of the source and whether the source ended.  Simplification:
the underlying reader delivers record batches (the `pa.Table` branches are unreachable with pyarrow readers). -/
def accum {R : Type} (B : Nat) : List (List R) → Nat → List (List R) → List (List R) × Nat × List (List R) × Bool
  | [], n, acc => if n < B then (acc, n, [], true) else (acc, n, [], false)
  | c :: r, n, acc =>
    if n < B then accum B r (n + c.length) (if c.length > 0 then acc ++ [c] else acc)
    else (acc, n, c :: r, false)

/-- `pa.Table.from_batches(batches).to_batches()[0]` (backends/table_impl.py:232-233): `to_batches` keeps the chunk
boundaries of the table, so its first element is the first batch. -/
def firstBatch {R : Type} (batches : List (List R)) : Except Err (List R) :=
  match batches with
  | b :: _ => .ok b
  | [] => .error .indexError

/-- Splitting the last batch (backends/table_impl.py:217-226): the batches to return and what is kept. -/
def splitLast {R : Type} (B n : Nat) (batches : List (List R)) : List (List R) × Option (List R) :=
  if n > B then
    match batches.getLast? with
    | none => (batches, none)
    | some last =>
      let remainSize := n - B
      let lastSize := last.length - remainSize
      (batches.dropLast ++ [last.take lastSize], some ((last.drop lastSize).take remainSize))
  else (batches, none)

/-- Combining the batches to return (backends/table_impl.py:228-233). -/
def combine {R : Type} (batches : List (List R)) : Except Err (List R) :=
  match batches with
  | [b] => .ok b
  | bs => firstBatch bs

/-- `_read_next_batch` (backends/table_impl.py:152-233); `none` is `None`. -/
def readInner {R : Type} (s : Rd R) : Except Err (Option (List R)) × Rd R :=
  if s.batchSize ≤ 0 then
    match s.src with
    | [] => (.ok none, s)
    | c :: r => (.ok (some c), { s with src := r })
  else
    let B := s.batchSize.toNat
    let a := accum B s.src (s.remain.getD []).length s.remain.toList
    let batches := a.1
    let n := a.2.1
    let s1 : Rd R := { s with src := a.2.2.1, remain := none, eof := s.eof || a.2.2.2 }
    if n = 0 then (.ok none, s1)
    else
      let p := splitLast B n batches
      let s2 : Rd R := { s1 with remain := p.2 }
      ((combine p.1).map some, s2)

/-- `read_next_batch` (backends/table_impl.py:131-150). -/
def readNext {R : Type} (s : Rd R) : Except Err (List R) × Rd R :=
  if s.eof then (.error .stopIteration, s)
  else
    let p := readInner s
    match p.1 with
    | .error e => (.error e, p.2)
    | .ok none => (.error .stopIteration, { p.2 with eof := true })
    | .ok (some b) => (.ok b, p.2)

/-- `read_all` (backends/table_impl.py:119-129): what the underlying reader still holds. -/
def readAll {R : Type} (s : Rd R) : List R := s.src.flatten

/-- `for batch in reader`: the batches delivered until `StopIteration`. -/
inductive Drains {R : Type} : Rd R → List (List R) → Prop where
  | stop {s s' : Rd R} (h : readNext s = (.error .stopIteration, s')) : Drains s []
  | step {s s' : Rd R} {b : List R} {bs : List (List R)} (h : readNext s = (.ok b, s')) (hr : Drains s' bs) :
      Drains s (b :: bs)

/-- A new reader on a source (backends/table_impl.py:73-104). -/
def open' {R : Type} (chunks : List (List R)) (batchSize : Int) : Rd R := { src := chunks, batchSize := batchSize }

/-- `MultiTableReader.read_next_batch` (backends/table_impl.py:792-805): read one batch from each reader in turn;
the result is the list of the readers' batches (their columns side by side).  An exception of any reader — also its
`StopIteration` — leaves at once, with the earlier readers already advanced. -/
def multiRead {R : Type} : List (Rd R) → Option Nat → Except Err (List (List R)) × List (Rd R)
  | [], _ => (.ok [], [])
  | r :: rs, n =>
    match readNext r with
    | (.error e, r') => (.error e, r' :: rs)
    | (.ok b, r') =>
      match n with
      | none =>
        let p := multiRead rs (some b.length)
        (p.1.map (b :: ·), r' :: p.2)
      | some k =>
        if k ≠ b.length then (.error .valueError, r' :: rs)
        else
          let p := multiRead rs (some k)
          (p.1.map (b :: ·), r' :: p.2)

/-- `for batch in MultiTableReader(readers)`: the batches delivered, and how it ended. -/
inductive MDrains {R : Type} : List (Rd R) → List (List (List R)) → Option Err → Prop where
  | stop {s s' : List (Rd R)} (h : multiRead s none = (.error .stopIteration, s')) : MDrains s [] none
  | fail {s s' : List (Rd R)} {e : Err} (h : multiRead s none = (.error e, s')) (he : e ≠ .stopIteration) :
      MDrains s [] (some e)
  | step {s s' : List (Rd R)} {b : List (List R)} {bs : List (List (List R))} {o : Option Err}
      (h : multiRead s none = (.ok b, s')) (hr : MDrains s' bs o) : MDrains s (b :: bs) o

end Verif.Table
