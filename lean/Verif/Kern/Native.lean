/-
The native kernels as they really touch memory: /repo/mplang/kernels/okvs.cpp, ldpc.cpp,
gf128.cpp.  Every array the C++ code indexes is a list here and every access is checked, so that
reading or writing outside an array is the outcome `Fault.oob` instead of undefined behaviour.
`Verif.Kern.Okvs` models what the same kernels compute; `NativeProps` proves that the memory
accesses are in bounds and that the two agree.

Simplifications: C++ `int` counters are unbounded (the kernel is only correct while `3 * n` and
`m` fit in an `int`), and the OpenMP loops run in index order (their iterations write different
cells).
-/
import Verif.Kern.OkvsSolve

namespace Verif.Kern.Native

/-- What can go wrong inside a kernel: an access outside an array, `% 0`, a loop that does not
end.  /repo/mplang/kernels/okvs.cpp:60 -/
inductive Fault where
  | oob | zeroDiv | loop
  deriving DecidableEq, Repr

/-- A checked read `a[i]`. /repo/mplang/kernels/okvs.cpp:73 -/
def rd {α : Type} (a : List α) (i : Nat) : Except Fault α :=
  match a[i]? with
  | some v => .ok v
  | none => .error .oob

/-- A checked write `a[i] = v`. /repo/mplang/kernels/okvs.cpp:74 -/
def wr {α : Type} (a : List α) (i : Nat) (v : α) : Except Fault (List α) :=
  if i < a.length then .ok (a.set i v) else .error .oob

/-- `_mm_loadu_si128(&vec[i])` on a buffer of 64-bit words: reads words `2i` and `2i+1`.
/repo/mplang/kernels/okvs.cpp:187 -/
def load (words : List Nat) (i : Nat) : Except Fault Blk := do
  let lo ← rd words (2 * i)
  let hi ← rd words (2 * i + 1)
  pure (lo, hi)

/-- The parallel hashing loop: reads `keys[i]` for `i < n`.
/repo/mplang/kernels/okvs.cpp:70-75 -/
def hashRows (words : Nat → Nat × Nat) (keys : List Nat) (m : Nat) :
    Nat → Nat → Except Fault (List Tri)
  | _, 0 => .ok []
  | i, k + 1 => do
    let key ← rd keys i
    if m = 0 then .error .zeroDiv
    else do
      let rest ← hashRows words keys m (i + 1) k
      pure (indices m (words key) :: rest)

/-- The (column, row) pairs in the order the counting and filling loops visit them: the three
columns of row `i`, for every row.  /repo/mplang/kernels/okvs.cpp:80-84, 105-110 -/
def edgesFrom : List Tri → Nat → List (Nat × Nat)
  | [], _ => []
  | t :: ts, i => t.cols.map (fun c => (c, i)) ++ edgesFrom ts (i + 1)

/-- `col_degree[c]++` over all edges. /repo/mplang/kernels/okvs.cpp:80-84 -/
def countDeg : List (Nat × Nat) → List Nat → Except Fault (List Nat)
  | [], deg => .ok deg
  | (c, _) :: es, deg => do
    let d ← rd deg c
    let deg ← wr deg c (d + 1)
    countDeg es deg

/-- `col_start[j+1] = col_start[j] + col_degree[j]` for `j = j0 .. j0+k-1`.
/repo/mplang/kernels/okvs.cpp:93-95 -/
def prefixLoop (deg : List Nat) : Nat → Nat → List Nat → Except Fault (List Nat)
  | _, 0, cs => .ok cs
  | j, k + 1, cs => do
    let a ← rd cs j
    let d ← rd deg j
    let cs ← wr cs (j + 1) (a + d)
    prefixLoop deg (j + 1) k cs

/-- `flat_rows[fill_ptr[c]++] = i` over all edges; returns `flat_rows`.
/repo/mplang/kernels/okvs.cpp:105-110 -/
def fillLoop : List (Nat × Nat) → List Nat → List Nat → Except Fault (List Nat)
  | [], _, flat => .ok flat
  | (c, i) :: es, fill, flat => do
    let p ← rd fill c
    let flat ← wr flat p i
    let fill ← wr fill c (p + 1)
    fillLoop es fill flat

/-- `if(col_degree[j] == 1) peel_stack.push_back(j)` for `j = j0 .. j0+k-1`.
/repo/mplang/kernels/okvs.cpp:115-117 -/
def initQueue (deg : List Nat) : Nat → Nat → Except Fault (List Nat)
  | _, 0 => .ok []
  | j, k + 1 => do
    let d ← rd deg j
    let rest ← initQueue deg (j + 1) k
    pure (if d = 1 then j :: rest else rest)

/-- The mutable arrays of the peeling stage. `queue` is the part of `peel_stack` after `head`.
/repo/mplang/kernels/okvs.cpp:113-129 -/
structure NS where
  deg : List Int
  queue : List Nat
  rowRem : List Bool
  colRem : List Bool
  stack : List (Nat × Nat)

/-- The search for the owner row in `flat_rows[k .. k+f-1]`.
/repo/mplang/kernels/okvs.cpp:141-147 -/
def findOwner (flat : List Nat) (rowRem : List Bool) : Nat → Nat → Except Fault (Option Nat)
  | _, 0 => .ok none
  | k, f + 1 => do
    let r ← rd flat k
    let b ← rd rowRem r
    if b = true then findOwner flat rowRem (k + 1) f else pure (some r)

/-- One neighbour of the peeled row. /repo/mplang/kernels/okvs.cpp:161-169 -/
def relaxN (j : Nat) (s : NS) (nb : Nat) : Except Fault NS :=
  if nb = j then .ok s
  else do
    let c ← rd s.colRem nb
    if c = true then pure s
    else do
      let d ← rd s.deg nb
      let deg ← wr s.deg nb (d - 1)
      pure { s with deg := deg, queue := if d - 1 = 1 then s.queue ++ [nb] else s.queue }

/-- The neighbours in turn. /repo/mplang/kernels/okvs.cpp:161-169 -/
def relaxAll (j : Nat) : List Nat → NS → Except Fault NS
  | [], s => .ok s
  | nb :: l, s => do
    let s ← relaxN j s nb
    relaxAll j l s

/-- The body of the peeling loop once an owner row has been looked for.
/repo/mplang/kernels/okvs.cpp:149-170 -/
def takeOwner (rows : List Tri) (j : Nat) (s : NS) : Option Nat → Except Fault NS
  | none => do
    let cr ← wr s.colRem j true
    pure { s with colRem := cr }
  | some r => do
    let cr ← wr s.colRem j true
    let rr ← wr s.rowRem r true
    let t ← rd rows r
    relaxAll j t.cols { s with stack := s.stack ++ [(j, r)], colRem := cr, rowRem := rr }

/-- One round of the peeling loop. /repo/mplang/kernels/okvs.cpp:133-170 -/
def roundN (rows : List Tri) (cs flat : List Nat) (j : Nat) (s : NS) : Except Fault NS := do
  let c ← rd s.colRem j
  if c = true then pure s
  else do
    let a ← rd cs j
    let b ← rd cs (j + 1)
    let o ← findOwner flat s.rowRem a (b - a)
    takeOwner rows j s o

/-- `while(head < peel_stack.size())`; `Fault.loop` when the given number of rounds is used up.
/repo/mplang/kernels/okvs.cpp:132-171 -/
def loopN (rows : List Tri) (cs flat : List Nat) : Nat → NS → Except Fault NS
  | fuel, s =>
    match s.queue, fuel with
    | [], _ => .ok s
    | _ :: _, 0 => .error .loop
    | j :: q, fuel + 1 => do
      let s ← roundN rows cs flat j { s with queue := q }
      loopN rows cs flat fuel s

/-- Back substitution over the reversed assignment stack; `out` is the output buffer as `m`
blocks, `values` the caller's buffer of words.  /repo/mplang/kernels/okvs.cpp:181-197 -/
def backSubN (rows : List Tri) (values : List Nat) :
    List (Nat × Nat) → List Blk → Except Fault (List Blk)
  | [], out => .ok out
  | (col, row) :: rest, out => do
    let t ← rd rows row
    let v1 ← rd out t.1
    let v2 ← rd out t.2.1
    let v3 ← rd out t.2.2
    let target ← load values row
    let out ← wr out col (mmXor target (mmXor (mmXor v1 v2) v3))
    backSubN rows values rest out

/-- The arrays of the CSR stage: `col_start`, `flat_rows`, `col_degree`.
/repo/mplang/kernels/okvs.cpp:77-110 -/
def buildCsr (rows : List Tri) (m : Nat) : Except Fault (List Nat × List Nat × List Nat) := do
  let es := edgesFrom rows 0
  let deg ← countDeg es (List.replicate m 0)
  let cs ← prefixLoop deg 0 m (List.replicate (m + 1) 0)
  let flat ← fillLoop es cs (List.replicate (3 * rows.length) 0)
  pure (cs, flat, deg)

/-- `solve_okvs(keys, values, output, n, m, seed)`: the output buffer holds `m` blocks.
/repo/mplang/kernels/okvs.cpp:60-198 -/
def solve (words : Nat → Nat × Nat) (keys values : List Nat) (n m : Nat) :
    Except Fault (List Blk) := do
  let rows ← hashRows words keys m 0 n
  let csr ← buildCsr rows m
  let queue ← initQueue csr.2.2 0 m
  let s ← loopN rows csr.1 csr.2.1 (m + 3 * n)
    { deg := csr.2.2.map Int.ofNat, queue := queue, rowRem := List.replicate n false,
      colRem := List.replicate m false, stack := [] }
  if s.stack.length ≠ n then pure (List.replicate m (0, 0))
  else backSubN rows values s.stack.reverse (List.replicate m (0, 0))

/-- `decode_okvs(keys, storage, output, n, m, seed)`. /repo/mplang/kernels/okvs.cpp:200-215 -/
def decode (words : Nat → Nat × Nat) (keys storage : List Nat) (m : Nat) :
    Nat → Nat → Except Fault (List Blk)
  | _, 0 => .ok []
  | i, k + 1 => do
    let key ← rd keys i
    if m = 0 then .error .zeroDiv
    else do
      let t := indices m (words key)
      let v1 ← load storage t.1
      let v2 ← load storage t.2.1
      let v3 ← load storage t.2.2
      let rest ← decode words keys storage m (i + 1) k
      pure (mmXor (mmXor v1 v2) v3 :: rest)

/-- The inner loop of `ldpc_encode`: indices `k .. k+f-1`. /repo/mplang/kernels/ldpc.cpp:70-76 -/
def ldpcSum (message indices : List Nat) : Nat → Nat → Blk → Except Fault Blk
  | _, 0, acc => .ok acc
  | k, f + 1, acc => do
    let j ← rd indices k
    let v ← load message j
    ldpcSum message indices (k + 1) f (mmXor acc v)

/-- `ldpc_encode(message, indices, indptr, output, m, n)` for rows `i .. i+k-1`; `n` is not used
by the kernel.  /repo/mplang/kernels/ldpc.cpp:44-80 -/
def ldpc (message indices indptr : List Nat) : Nat → Nat → Except Fault (List Blk)
  | _, 0 => .ok []
  | i, k + 1 => do
    let a ← rd indptr i
    let b ← rd indptr (i + 1)
    let x ← ldpcSum message indices a (b - a) (0, 0)
    let rest ← ldpc message indices indptr (i + 1) k
    pure (x :: rest)

/-- `gf128_mul_batch(a, b, out, n)` for elements `i .. i+k-1`, with the multiplication as a
parameter.  /repo/mplang/kernels/gf128.cpp:183-195 -/
def mulBatch (mul : Blk → Blk → Blk) (a b : List Nat) : Nat → Nat → Except Fault (List Blk)
  | _, 0 => .ok []
  | i, k + 1 => do
    let x ← load a i
    let y ← load b i
    let rest ← mulBatch mul a b (i + 1) k
    pure (mul x y :: rest)

/-- `aes_128_expand(seeds, output, num_seeds, length)` for seeds `i .. i+k-1`: one list of
`length` blocks per seed, with the block function as a parameter.
/repo/mplang/kernels/okvs.cpp:247-285 -/
def expand (block : Blk → Nat → Blk) (seeds : List Nat) (length : Nat) :
    Nat → Nat → Except Fault (List (List Blk))
  | _, 0 => .ok []
  | i, k + 1 => do
    let s ← load seeds i
    let rest ← expand block seeds length (i + 1) k
    pure ((List.range length).map (block s) :: rest)

end Verif.Kern.Native
