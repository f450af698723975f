/-
Model of the oblivious key-value store (3-hash garbled cuckoo table) and of the sparse LDPC
encoder: /repo/mplang/kernels/py_kernels.py (Python kernels) and
/repo/mplang/kernels/okvs.cpp, ldpc.cpp (native kernels).

The two OKVS kernels run the same peeling algorithm and differ in the hash that produces two
64-bit words from a key, and in how they report failure; the model takes that word pair as a
parameter `words : key → v1 × v2`.
-/
import Verif.Kern.Gf128

namespace Verif.Kern

/-- Three column indices of a key. /repo/mplang/kernels/py_kernels.py:215 -/
abbrev Tri := Nat × Nat × Nat

/-- Constants of /repo/mplang/libs/mpc/common/constants.py:21. -/
def goldenRatio64 : Nat := 0x9E3779B97F4A7C15
/-- `SPLITMIX64_GAMMA_2`. /repo/mplang/libs/mpc/common/constants.py:29 -/
def gamma2 : Nat := 0x94D049BB133111EB
/-- `SPLITMIX64_GAMMA_3`. /repo/mplang/libs/mpc/common/constants.py:30 -/
def gamma3 : Nat := 0xFF51AFD7ED558CCD
/-- `SPLITMIX64_GAMMA_4`. /repo/mplang/libs/mpc/common/constants.py:31 -/
def gamma4 : Nat := 0xC4CEB9FE1A85EC53

/-- The mixing part of `_hash_key_py`: the words `h1`, `h2`.
/repo/mplang/kernels/py_kernels.py:193-201 -/
def pyWords (s0 s1 : Nat) (key : Nat) : Nat × Nat :=
  let h1 := ((key * goldenRatio64) ^^^ s0) &&& mask64
  let h2 := ((key * gamma2) ^^^ s1) &&& mask64
  (((h1 ^^^ (h1 >>> 33)) * gamma3) &&& mask64, ((h2 ^^^ (h2 >>> 33)) * gamma4) &&& mask64)

/-- `idx2` after the collision bump. /repo/mplang/kernels/py_kernels.py:208-209,
/repo/mplang/kernels/okvs.cpp:45-47 -/
def bump2 (m i1 i2 : Nat) : Nat := if i2 = i1 then (i2 + 1) % m else i2

/-- `idx3` after up to two collision bumps. /repo/mplang/kernels/py_kernels.py:210-213,
/repo/mplang/kernels/okvs.cpp:48-53 -/
def bump3 (m i1 i2 i3 : Nat) : Nat :=
  if i3 = i1 ∨ i3 = i2 then
    if (i3 + 1) % m = i1 ∨ (i3 + 1) % m = i2 then ((i3 + 1) % m + 1) % m else (i3 + 1) % m
  else i3

/-- Column indices from the two hash words. /repo/mplang/kernels/py_kernels.py:203-215,
/repo/mplang/kernels/okvs.cpp:39-55 -/
def indices (m : Nat) (v : Nat × Nat) : Tri :=
  let i1 := v.1 % m
  let i2 := bump2 m i1 (v.2 % m)
  (i1, i2, bump3 m i1 i2 ((v.1 ^^^ v.2) % m))

/-- The three columns as a list. -/
def Tri.cols (t : Tri) : List Nat := [t.1, t.2.1, t.2.2]

/-- Function update: assignment to one entry of a Python list or dict. -/
def upd {α : Type} (f : Nat → α) (k : Nat) (v : α) : Nat → α := fun x => if x = k then v else f x

/-- `col_to_rows[j].append(i)`. /repo/mplang/kernels/py_kernels.py:243-245 -/
def pushRow (i : Nat) (d : Nat → List Nat) (j : Nat) : Nat → List Nat := upd d j (d j ++ [i])

/-- Building `col_to_rows`: rows in order, each row appended to its three columns.
/repo/mplang/kernels/py_kernels.py:238-245 -/
def colToRows : List Tri → Nat → (Nat → List Nat) → (Nat → List Nat)
  | [], _, d => d
  | t :: ts, i, d => colToRows ts (i + 1) (t.cols.foldl (pushRow i) d)

/-- Peeling state. /repo/mplang/kernels/py_kernels.py:247-255.
`queue` is the part of `peel_queue` from `head` on. -/
structure PS where
  deg : Nat → Int
  queue : List Nat
  rowRem : Nat → Bool
  colRem : Nat → Bool
  stack : List (Nat × Nat)

/-- Update of one neighbour column. /repo/mplang/kernels/py_kernels.py:283-288 -/
def relax (j : Nat) (s : PS) (nb : Nat) : PS :=
  if nb = j ∨ s.colRem nb = true then s
  else { s with deg := upd s.deg nb (s.deg nb - 1),
                queue := if s.deg nb - 1 = 1 then s.queue ++ [nb] else s.queue }

/-- One iteration of the peeling loop for the popped column `j`.
/repo/mplang/kernels/py_kernels.py:262-288 -/
def peelOne (rows : List Tri) (ctr : Nat → List Nat) (j : Nat) (s : PS) : PS :=
  if s.colRem j = true then s
  else
    match (ctr j).find? (fun r => !s.rowRem r) with
    | none => { s with colRem := upd s.colRem j true }
    | some r =>
      (rows.getD r (0, 0, 0)).cols.foldl (relax j)
        { s with stack := s.stack ++ [(j, r)],
                 colRem := upd s.colRem j true, rowRem := upd s.rowRem r true }

/-- The peeling loop `while head < len(peel_queue)`; `none` when the iteration bound given to
the model is exhausted, which `peel_terminates` rules out for the bound used.
/repo/mplang/kernels/py_kernels.py:257-288 -/
def peelLoop (rows : List Tri) (ctr : Nat → List Nat) : Nat → PS → Option PS
  | fuel, s =>
    match s.queue, fuel with
    | [], _ => some s
    | _ :: _, 0 => none
    | j :: q, fuel + 1 => peelLoop rows ctr fuel (peelOne rows ctr j { s with queue := q })

/-- Initial peeling state. /repo/mplang/kernels/py_kernels.py:247-255 -/
def peelInit (m : Nat) (ctr : Nat → List Nat) : PS :=
  { deg := fun j => ((ctr j).length : Int)
    queue := (List.range m).filter (fun j => (ctr j).length = 1)
    rowRem := fun _ => false
    colRem := fun _ => false
    stack := [] }

/-- Errors of the solver. -/
inductive OkvsErr where
  | core      -- RuntimeError "OKVS core detected"
  | index     -- IndexError on `values`
  | zeroDiv   -- ZeroDivisionError, `% m` with m = 0
  | loop      -- iteration bound of the model exhausted (never happens)
deriving DecidableEq, Repr

/-- xor of the three storage cells of a row. /repo/mplang/kernels/py_kernels.py:302, :337 -/
def cell3 (out : List Blk) (t : Tri) : Blk :=
  mmXor (mmXor (out.getD t.1 (0, 0)) (out.getD t.2.1 (0, 0))) (out.getD t.2.2 (0, 0))

/-- Back substitution over the reversed assignment stack.
/repo/mplang/kernels/py_kernels.py:296-306 -/
def backSub (rows : List Tri) (values : List Blk) :
    List (Nat × Nat) → List Blk → Except OkvsErr (List Blk)
  | [], out => .ok out
  | (col, row) :: rest, out =>
    match values[row]? with
    | none => .error .index
    | some target =>
      backSub rows values rest
        (out.set col (mmXor target (cell3 out (rows.getD row (0, 0, 0)))))

/-- Result of peeling: the assignment stack. /repo/mplang/kernels/py_kernels.py:232-294 -/
def peelAll (rows : List Tri) (m : Nat) : Except OkvsErr (List (Nat × Nat)) :=
  let ctr := colToRows rows 0 (fun _ => [])
  match peelLoop rows ctr (m + 3 * rows.length) (peelInit m ctr) with
  | none => .error .loop
  | some s => if s.stack.length ≠ rows.length then .error .core else .ok s.stack

/-- `okvs_solve`. /repo/mplang/kernels/py_kernels.py:218-308 -/
def okvsSolve (words : Nat → Nat × Nat) (keys : List Nat) (values : List Blk) (m : Nat) :
    Except OkvsErr (List Blk) :=
  if m = 0 ∧ keys ≠ [] then .error .zeroDiv
  else
    let rows := keys.map (fun k => indices m (words k))
    match peelAll rows m with
    | .error e => .error e
    | .ok stack => backSub rows values stack.reverse (List.replicate m (0, 0))

/-- `okvs_decode`. /repo/mplang/kernels/py_kernels.py:311-339 -/
def okvsDecode (words : Nat → Nat × Nat) (keys : List Nat) (storage : List Blk) (m : Nat) :
    List Blk :=
  keys.map (fun k => cell3 storage (indices m (words k)))

/-- `solve_okvs` of the native library: the same peeling, but when a core remains it writes an
all-zero table and returns without an error.  /repo/mplang/kernels/okvs.cpp:60-197 -/
def okvsSolveNative (words : Nat → Nat × Nat) (keys : List Nat) (values : List Blk) (m : Nat) :
    Except OkvsErr (List Blk) :=
  match okvsSolve words keys values m with
  | .error .core => .ok (List.replicate m (0, 0))
  | r => r

/-! ### LDPC encoder -/

/-- One syndrome entry: xor of the selected message rows, in order.
/repo/mplang/kernels/py_kernels.py:388-396; `none` models the IndexError on `message`. -/
def ldpcRow (message : List Blk) : List Nat → Blk → Option Blk
  | [], acc => some acc
  | j :: js, acc =>
    match message[j]? with
    | none => none
    | some x => ldpcRow message js (mmXor acc x)

/-- Column indices of row `i`: `h_indices[h_indptr[i] : h_indptr[i+1]]` (numpy slicing clips at
the ends). /repo/mplang/kernels/py_kernels.py:390-391 -/
def csrRow (indices indptr : List Nat) (i : Nat) : Option (List Nat) :=
  match indptr[i]?, indptr[i + 1]? with
  | some a, some b => some ((indices.take b).drop a)
  | _, _ => none

/-- `ldpc_encode`. /repo/mplang/kernels/py_kernels.py:371-398 -/
def ldpcEncode (message : List Blk) (indices indptr : List Nat) : Nat → Nat → Option (List Blk)
  | _, 0 => some []
  | i, k + 1 =>
    match csrRow indices indptr i with
    | none => none
    | some cols =>
      match ldpcRow message cols (0, 0), ldpcEncode message indices indptr (i + 1) k with
      | some x, some xs => some (x :: xs)
      | _, _ => none

end Verif.Kern
