import Verif.Kern.OkvsSolve
/-
Model of the "mega-binning" OKVS of the native library, /repo/mplang/kernels/okvs_opt.cpp, and of
the back end's choice between the three solvers, /repo/mplang/backends/field_impl.py:141-260.

The two AES-based hashes of a key (under the session seed) are arbitrary functions here.
-/
namespace Verif.Kern

/-- `NUM_BINS`. /repo/mplang/kernels/okvs_opt.cpp:34 -/
def numBins : Nat := 1024

/-- First word of the hash that selects the bin and of the hash that selects the cells.
/repo/mplang/kernels/okvs_opt.cpp:46-63 -/
structure BinHash where
  bin : Nat → Nat
  loc : Nat → Nat

/-- One step of the linear congruential generator. /repo/mplang/kernels/okvs_opt.cpp:69, 71 -/
def lcg (r : Nat) : Nat := (r * 6364136223846793005 + 1442695040888963407) % 2 ^ 64

/-- `get_bin_local_indices`. /repo/mplang/kernels/okvs_opt.cpp:55-81 -/
def localIdx (m r : Nat) : Tri :=
  let i1 := r % m
  let i2 := bump2 m i1 (lcg r % m)
  (i1, i2, bump3 m i1 i2 (lcg (lcg r) % m))

/-- `m_per_bin[b]`. /repo/mplang/kernels/okvs_opt.cpp:198-205 -/
def binSize (m b : Nat) : Nat := m / numBins + if b < m % numBins then 1 else 0

/-- `bin_offsets[b]`: the running sum of the sizes. /repo/mplang/kernels/okvs_opt.cpp:201-206 -/
def binOffset (m : Nat) : Nat → Nat
  | 0 => 0
  | b + 1 => binOffset m b + binSize m b

/-- `get_bin_index`. /repo/mplang/kernels/okvs_opt.cpp:46-52 -/
def BinHash.binOf (H : BinHash) (k : Nat) : Nat := H.bin k % numBins

/-- `bin_keys[b]` with `bin_vals[b]`, in input order. /repo/mplang/kernels/okvs_opt.cpp:231-236 -/
def binItems (H : BinHash) (items : List (Nat × Blk)) (b : Nat) : List (Nat × Blk) :=
  items.filter fun p => H.binOf p.1 == b

/-- `solve_bin`: the same peeling and back substitution as the naive solver, on the cells of the
bin; `none` when a core remains (nothing is written then).
/repo/mplang/kernels/okvs_opt.cpp:84-186 -/
def solveBin (rows : List Tri) (values : List Blk) (size : Nat) (view : List Blk) :
    Option (List Blk) :=
  match peelAll rows size with
  | .error _ => none
  | .ok stack =>
    match backSub rows values stack.reverse view with
    | .ok out => some out
    | .error _ => none

/-- The cells of bin `b`. -/
def binView (m b : Nat) (t : List Blk) : List Blk := (t.drop (binOffset m b)).take (binSize m b)

/-- Writing the cells of bin `b`. -/
def putBin (m b : Nat) (t new : List Blk) : List Blk :=
  t.take (binOffset m b) ++ new ++ t.drop (binOffset m b + binSize m b)

/-- Body of the parallel loop for bin `b`: peel, and on failure call the naive solver on the bin
(with the naive hash).  Simplification: a bin without cells divides by zero in the code; the back
end never reaches that (`m` is at least 264000 there).
/repo/mplang/kernels/okvs_opt.cpp:245-272 -/
def binTask (H : BinHash) (words : Nat → Nat × Nat) (items : List (Nat × Blk)) (m : Nat)
    (t : List Blk) (b : Nat) : List Blk :=
  let mine := binItems H items b
  if mine.isEmpty then t
  else
    let size := binSize m b
    match solveBin (mine.map fun p => localIdx size (H.loc p.1)) (mine.map (·.2)) size
        (binView m b t) with
    | some out => putBin m b t out
    | none =>
      match okvsSolveNative words (mine.map (·.1)) (mine.map (·.2)) size with
      | .ok out => putBin m b t out
      | .error _ => t

/-- `solve_okvs_opt`.  The OpenMP loop runs the bins in any order on any number of threads; bins
touch disjoint cells, so a run is some order of the bins.
/repo/mplang/kernels/okvs_opt.cpp:188-274 -/
def solveOpt (H : BinHash) (words : Nat → Nat × Nat) (keys : List Nat) (values : List Blk) (m : Nat)
    (order : List Nat) : List Blk :=
  order.foldl (binTask H words (keys.zip values) m) (List.replicate m (0, 0))

/-- The three cells of a key in the whole table. /repo/mplang/kernels/okvs_opt.cpp:291-303 -/
def optRow (H : BinHash) (m k : Nat) : Tri :=
  let b := H.binOf k
  let t := localIdx (binSize m b) (H.loc k)
  (binOffset m b + t.1, binOffset m b + t.2.1, binOffset m b + t.2.2)

/-- `decode_okvs_opt`. /repo/mplang/kernels/okvs_opt.cpp:276-305 -/
def decodeOpt (H : BinHash) (keys : List Nat) (storage : List Blk) (m : Nat) : List Blk :=
  keys.map fun k => cell3 storage (optRow H m k)

/-- What the back end has: the native library or not, and the hashes of the kernels. -/
structure OkvsEnv where
  native : Bool
  pyWords : Nat → Nat × Nat
  natWords : Nat → Nat × Nat
  bins : BinHash

/-- When the naive native kernels are used for `n` keys.  `m / n < 1.32` is a float comparison in
the code; it agrees with the exact one for all `n < 2^47`.
/repo/mplang/backends/field_impl.py:154-165 and 193-204 -/
def naiveFor (n m : Nat) : Bool := decide (n < 200000) || decide (100 * m < 132 * n)

/-- `_okvs_solve_opt_impl` (with `_okvs_solve_impl` inlined).
/repo/mplang/backends/field_impl.py:141-180 and 217-250 -/
def fieldSolve (E : OkvsEnv) (order : List Nat) (keys : List Nat) (values : List Blk) (m : Nat) :
    Except OkvsErr (List Blk) :=
  if E.native = false then okvsSolve E.pyWords keys values m
  else if naiveFor keys.length m then okvsSolveNative E.natWords keys values m
  else .ok (solveOpt E.bins E.natWords keys values m order)

/-- `_okvs_decode_opt_impl` (with `_okvs_decode_impl` inlined): the choice is made on the number of
queried keys. /repo/mplang/backends/field_impl.py:183-214 and 253-285 -/
def fieldDecode (E : OkvsEnv) (keys : List Nat) (storage : List Blk) (m : Nat) : List Blk :=
  if E.native = false then okvsDecode E.pyWords keys storage m
  else if naiveFor keys.length m then okvsDecode E.natWords keys storage m
  else decodeOpt E.bins keys storage m

end Verif.Kern
