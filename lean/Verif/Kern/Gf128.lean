/-
Model of GF(2^128) multiplication: the pure Python kernel
(/repo/mplang/kernels/py_kernels.py) and the native kernel
(/repo/mplang/kernels/gf128.cpp).

Words are natural numbers; a 128-bit element is the pair `(lo, hi)` of 64-bit words.
-/
namespace Verif.Kern

/-- One 128-bit element stored as `[lo, hi]` (numpy row of two uint64).
Models the `(…, 2)` uint64 layout of py_kernels.py:138-157. -/
abbrev Blk := Nat × Nat

/-- `(1 << 64) - 1`, the mask written inline at py_kernels.py:53 and :155. -/
def mask64 : Nat := 2 ^ 64 - 1

/-- Loop body of `_gf128_clmul64`. /repo/mplang/kernels/py_kernels.py:50-56 -/
def clmulStep (a b : Nat) (acc : Nat × Nat) (i : Nat) : Nat × Nat :=
  if (b >>> i) &&& 1 ≠ 0 then
    (acc.1 ^^^ ((a <<< i) &&& mask64),
     acc.2 ^^^ (if i > 0 then a >>> (64 - i) else 0))
  else acc

/-- `_gf128_clmul64(a, b)`: `(lo, hi)`. /repo/mplang/kernels/py_kernels.py:42-58 -/
def clmul64 (a b : Nat) : Nat × Nat :=
  (List.range 64).foldl (clmulStep a b) (0, 0)

/-- `_gf128_clmul128`: `(r0, r1, r2, r3)`. /repo/mplang/kernels/py_kernels.py:61-93 -/
def clmul128 (aLo aHi bLo bHi : Nat) : Nat × Nat × Nat × Nat :=
  let t0 := clmul64 aLo bLo
  let t1 := clmul64 aHi bHi
  let t2 := clmul64 aLo bHi
  let t3 := clmul64 aHi bLo
  let midLo := t2.1 ^^^ t3.1
  let midHi := t2.2 ^^^ t3.2
  (t0.1, t0.2 ^^^ midLo, t1.1 ^^^ midHi, t1.2)

/-- `_GF128_POLYNOMIAL`. /repo/mplang/kernels/py_kernels.py:39 -/
def gfPoly : Nat := 0x87

/-- `_gf128_reduce`. /repo/mplang/kernels/py_kernels.py:96-135 -/
def gfReduce (r0 r1 r2 r3 : Nat) : Nat × Nat :=
  let q3 := clmul64 r3 gfPoly
  let r1 := r1 ^^^ q3.1
  let r2 := r2 ^^^ q3.2
  let q2 := clmul64 r2 gfPoly
  (r0 ^^^ q2.1, r1 ^^^ q2.2)

/-- `gf128_mul_single`. /repo/mplang/kernels/py_kernels.py:138-156 -/
def gfMul (a b : Blk) : Blk :=
  let r := clmul128 a.1 a.2 b.1 b.2
  let res := gfReduce r.1 r.2.1 r.2.2.1 r.2.2.2
  (res.1 &&& mask64, res.2 &&& mask64)

/-- `gf128_mul_batch` on the flattened `(n, 2)` arrays.
/repo/mplang/kernels/py_kernels.py:159-178.  The loop runs over the rows of `a`; row `i`
of `b` must exist (numpy raises IndexError otherwise: `none`). Extra rows of `b` are
ignored, as in the code. -/
def gfMulBatch : List Blk → List Blk → Option (List Blk)
  | [], _ => some []
  | _ :: _, [] => none
  | a :: as, b :: bs => (gfMulBatch as bs).map (gfMul a b :: ·)

/-! ### Native kernel -/

/-- Half selected by an immediate bit: Intel `PCLMULQDQ`, bit 0 of the immediate selects
the half of the first operand and bit 4 the half of the second. -/
def half (x : Blk) (hiBit : Bool) : Nat := if hiBit then x.2 else x.1

/-- `_mm_clmulepi64_si128(a, b, imm)` as used at /repo/mplang/kernels/gf128.cpp:103-106.
The carryless product itself is `clmul64`, whose meaning as polynomial multiplication is
proved in `Gf128Props.lean`. -/
def mmClmul (a b : Blk) (imm : Nat) : Blk :=
  clmul64 (half a (imm.testBit 0)) (half b (imm.testBit 4))

/-- `_mm_xor_si128`. /repo/mplang/kernels/gf128.cpp:107 -/
def mmXor (a b : Blk) : Blk := (a.1 ^^^ b.1, a.2 ^^^ b.2)

/-- `_mm_slli_si128(x, 8)`: shift left by eight bytes. /repo/mplang/kernels/gf128.cpp:108 -/
def mmSlli8 (a : Blk) : Blk := (0, a.1)

/-- `_mm_srli_si128(x, 8)`: shift right by eight bytes. /repo/mplang/kernels/gf128.cpp:109 -/
def mmSrli8 (a : Blk) : Blk := (a.2, 0)

/-- `gf128_mul` of the native library. /repo/mplang/kernels/gf128.cpp:96-133 -/
def gfMulNative (a b : Blk) : Blk :=
  let tmp3 := mmClmul a b 0x00
  let tmp4 := mmClmul a b 0x11
  let tmp5 := mmXor (mmClmul a b 0x01) (mmClmul a b 0x10)
  let r0 := mmXor tmp3 (mmSlli8 tmp5)
  let r1 := mmXor tmp4 (mmSrli8 tmp5)
  let q : Blk := (0x87, 0)
  let m0 := mmClmul r1 q 0x00
  let m1 := mmClmul r1 q 0x10
  let mLo := mmXor m0 (mmSlli8 m1)
  let mHi := mmSrli8 m1
  let h := mmClmul mHi q 0x00
  mmXor (mmXor r0 mLo) h

end Verif.Kern
