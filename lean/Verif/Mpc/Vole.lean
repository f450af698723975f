import Verif.Mpc.Iknp
import Verif.Kern.Gf128Field
import Verif.Kern.OkvsSolve
/-
Model of the VOLE protocols:
/repo/mplang/libs/mpc/vole/gilboa.py, /repo/mplang/libs/mpc/ot/silent.py,
/repo/mplang/libs/mpc/vole/silver.py and /repo/mplang/libs/mpc/vole/ldpc.py.
-/
namespace Verif.Mpc
open Verif.Kern

variable {A : Type} [AddCommGroup A] [DecidableEq A]

/-! ### Gilboa -/

theorem bitIx (b : Fin 16) (k : Fin 8) : 8 * b.val + k.val < iknpK := by
  have := b.isLt; have := k.isLt; show _ < 128; omega

/-- One byte of `jnp.packbits` (big-endian bit order) of a row of 128 bits.
/repo/mplang/libs/mpc/vole/gilboa.py:206 -/
def packByte (row : Fin iknpK → Bool) (b : Fin 16) : Nat :=
  (List.finRange 8).foldl
    (fun (acc : Nat) (k : Fin 8) =>
      2 * acc + (row ⟨8 * b.val + k.val, bitIx b k⟩).toNat) 0

/-- The 16 bytes viewed as the two little-endian words of a seed.
/repo/mplang/backends/field_impl.py:339-340 -/
def blkOfBytes (f : Fin 16 → Nat) : Blk :=
  ((List.finRange 8).foldr (fun (k : Fin 8) acc => f ⟨k.val, by omega⟩ + 256 * acc) 0,
   (List.finRange 8).foldr (fun (k : Fin 8) acc => f ⟨8 + k.val, by omega⟩ + 256 * acc) 0)

/-- Row `i` of `powers_arr`: the element `x^i`. /repo/mplang/libs/mpc/vole/gilboa.py:228-236 -/
def xpow (i : Nat) : Blk := if i < 64 then (1 <<< i, 0) else (0, 1 <<< (i - 64))

/-- `out = f[0]; for i in range(1, 128): out = out ^ f[i]`. gilboa.py:270-272, 307-309 -/
def xorLoop (f : Fin iknpK → Blk) : Blk :=
  (List.finRange iknpK).tail.foldl (fun acc i => mmXor acc (f i)) (f 0)

/-- What the VOLE returns with `return_secrets`: `v, w, u, delta`. -/
structure VoleOut where
  v : List Blk
  w : List Blk
  u : List Blk
  delta : Blk

/-- `vole` (Gilboa), with `field.mul` as a parameter because the back end picks the native kernel
or the Python one (field_impl.py:110-135).  `delta` and `u` come from the providers.
/repo/mplang/libs/mpc/vole/gilboa.py:33-310 -/
def vole (mul : Blk → Blk → Blk) (C : Curve A) (E : IknpEnv A) (rC : Int)
    (ds : Fin iknpK → BaseDraw) (u : List Blk) (delta : Blk) : Except EcErr VoleOut :=
  let n := u.length
  match iknpCore C E rC ds (n := iknpK) (Choice.col fun i => blkBit delta i.val) with
  | .error e => .error e
  | .ok o =>
    let tSeed (i : Fin iknpK) : Blk := blkOfBytes (packByte (o.t i))
    let tsSeed (i : Fin iknpK) : Blk :=
      blkOfBytes (fun b => packByte (o.t i) b ^^^ packByte o.s b)
    let v0 (i : Fin iknpK) (j : Nat) : Blk := E.aes (tSeed i) n j
    let v1 (i : Fin iknpK) (j : Nat) : Blk := E.aes (tsSeed i) n j
    let m (i : Fin iknpK) (j : Nat) : Blk :=
      mmXor (mmXor (v0 i j) (v1 i j)) (mul (u.getD j (0, 0)) (xpow i.val))
    let qSeed (i : Fin iknpK) : Blk := blkOfBytes (packByte (o.q i))
    let res (i : Fin iknpK) (j : Nat) : Blk :=
      mmXor (E.aes (qSeed i) n j) (if blkBit delta i.val then m i j else (0, 0))
    .ok
      { v := (List.range n).map fun j => xorLoop fun i => v0 i j
        w := (List.range n).map fun j => xorLoop fun i => res i j
        u := u
        delta := delta }

/-- The two multiplication kernels the back end can use. -/
def Kernel (mul : Blk → Blk → Blk) : Prop := mul = gfMul ∨ mul = gfMulNative

theorem kernel_add {mul : Blk → Blk → Blk} (hm : Kernel mul) {a b c : Blk} (ha : WordPair a)
    (hb : WordPair b) (hc : WordPair c) : mul a (mmXor b c) = mmXor (mul a b) (mul a c) := by
  rcases hm with rfl | rfl
  · exact (gf128_ring_laws a b c ha hb hc).2.2.1
  · exact (gf128_native_distrib_partial a b c ha hb hc).1

theorem kernel_comm {mul : Blk → Blk → Blk} (hm : Kernel mul) {a b : Blk} (ha : WordPair a)
    (hb : WordPair b) : mul a b = mul b a := by
  rcases hm with rfl | rfl
  · exact (gf128_ring_laws a b b ha hb hb).1
  · exact (gf128_native_distrib_partial a b b ha hb hb).2

theorem kernel_word {mul : Blk → Blk → Blk} (hm : Kernel mul) {a b : Blk} (ha : WordPair a)
    (hb : WordPair b) : WordPair (mul a b) := by
  rcases hm with rfl | rfl
  · exact mul_word ha hb
  · exact native_word ha hb

theorem xorB_eq (a b : Blk) : xorB a b = mmXor a b := rfl

theorem mmXor_word {a b : Blk} (ha : WordPair a) (hb : WordPair b) : WordPair (mmXor a b) :=
  xorB_word ha hb

theorem kernel_zero {mul : Blk → Blk → Blk} (hm : Kernel mul) {a : Blk} (ha : WordPair a) :
    mul a (0, 0) = (0, 0) := by
  have h := kernel_add hm ha zero_word zero_word
  rw [mmXor_zero] at h
  have h2 := congrArg (mmXor (mul a (0, 0))) h
  rw [mmXor_self, mmXor_zero] at h2
  exact h2.symm

theorem xorAll_word {l : List Blk} (h : ∀ x ∈ l, WordPair x) : WordPair (xorAll l) := by
  induction l with
  | nil => exact zero_word
  | cons x l ih =>
    exact mmXor_word (h x (by simp)) (ih fun y hy => h y (by simp [hy]))

/-- Multiplying a xor of elements. -/
theorem kernel_xorAll {mul : Blk → Blk → Blk} (hm : Kernel mul) {a : Blk} (ha : WordPair a)
    {l : List Blk} (h : ∀ x ∈ l, WordPair x) : mul a (xorAll l) = xorAll (l.map (mul a)) := by
  induction l with
  | nil => exact kernel_zero hm ha
  | cons x l ih =>
    have hx := h x (by simp)
    have hl : ∀ y ∈ l, WordPair y := fun y hy => h y (by simp [hy])
    have h1 := kernel_add hm ha hx (xorAll_word hl)
    show mul a (mmXor x (xorAll l)) = mmXor (mul a x) (xorAll (l.map (mul a)))
    rw [h1, ih hl]

theorem xorAll_append (a b : List Blk) : xorAll (a ++ b) = mmXor (xorAll a) (xorAll b) := by
  induction a with
  | nil => exact (zero_mmXor _).symm
  | cons x a ih =>
    show mmXor x (xorAll (a ++ b)) = mmXor (mmXor x (xorAll a)) (xorAll b)
    rw [ih, mmXor_assoc]

theorem xorAll_map2 {ι : Type} (f g : ι → Blk) (l : List ι) :
    xorAll (l.map fun c => mmXor (f c) (g c)) = mmXor (xorAll (l.map f)) (xorAll (l.map g)) := by
  induction l with
  | nil => exact (mmXor_zero _).symm
  | cons c l ih =>
    show mmXor (mmXor (f c) (g c)) (xorAll (l.map fun c => mmXor (f c) (g c)))
      = mmXor (mmXor (f c) (xorAll (l.map f))) (mmXor (g c) (xorAll (l.map g)))
    rw [ih]; ac_rfl

theorem foldl_mmXor {ι : Type} (f : ι → Blk) (l : List ι) (a : Blk) :
    l.foldl (fun acc i => mmXor acc (f i)) a = mmXor a (xorAll (l.map f)) := by
  induction l generalizing a with
  | nil => exact (mmXor_zero a).symm
  | cons x l ih =>
    rw [List.foldl_cons, ih]
    show _ = mmXor a (mmXor (f x) (xorAll (l.map f)))
    rw [mmXor_assoc]

theorem xorLoop_eq (f : Fin iknpK → Blk) : xorLoop f = xorAll ((List.finRange iknpK).map f) := by
  unfold xorLoop
  rw [foldl_mmXor]
  have h : List.finRange iknpK = 0 :: (List.finRange iknpK).tail := by
    show List.finRange (127 + 1) = 0 :: (List.finRange (127 + 1)).tail
    rw [List.finRange_succ]; rfl
  conv_rhs => rw [h]
  rfl

theorem bit_toNat_xor (a b : Nat) (x y : Bool) :
    (2 * a + x.toNat) ^^^ (2 * b + y.toNat) = 2 * (a ^^^ b) + (Bool.xor x y).toNat := by
  have hb : ∀ (c : Nat) (z : Bool), 2 * c + z.toNat = Nat.bit z c := by
    intro c z; cases z <;> simp [Nat.bit]
  rw [hb, hb, hb]
  apply Nat.eq_of_testBit_eq
  intro i
  rw [Nat.testBit_xor]
  cases i with
  | zero => cases x <;> cases y <;> simp [Nat.testBit_bit_zero]
  | succ i => simp [Nat.testBit_bit_succ, Nat.testBit_xor]

theorem packByte_xor (r s : Fin iknpK → Bool) (b : Fin 16) :
    packByte r b ^^^ packByte s b = packByte (fun i => Bool.xor (r i) (s i)) b := by
  unfold packByte
  have : ∀ (l : List (Fin 8)) (x y : Nat),
      l.foldl (fun (acc : Nat) (k : Fin 8) => 2 * acc
          + (r ⟨8 * b.val + k.val, bitIx b k⟩).toNat) x
        ^^^ l.foldl (fun (acc : Nat) (k : Fin 8) => 2 * acc
          + (s ⟨8 * b.val + k.val, bitIx b k⟩).toNat) y
      = l.foldl (fun (acc : Nat) (k : Fin 8) => 2 * acc
          + (Bool.xor (r ⟨8 * b.val + k.val, bitIx b k⟩)
              (s ⟨8 * b.val + k.val, bitIx b k⟩)).toNat) (x ^^^ y) := by
    intro l
    induction l with
    | nil => intro x y; rfl
    | cons k l ih =>
      intro x y
      rw [List.foldl_cons, List.foldl_cons, List.foldl_cons, ih, bit_toNat_xor]
  simpa using this (List.finRange 8) 0 0

theorem xpow_word (i : Nat) (h : i < 128) : WordPair (xpow i) := by
  unfold xpow
  split
  · refine ⟨?_, (by decide : 0 < 2 ^ 64)⟩
    rw [Nat.one_shiftLeft]
    exact Nat.pow_lt_pow_right (by omega) (by omega)
  · refine ⟨(by decide : 0 < 2 ^ 64), ?_⟩
    rw [Nat.one_shiftLeft]
    exact Nat.pow_lt_pow_right (by omega) (by omega)

theorem mod_succ_bit (d k : Nat) :
    (d % 2 ^ k) ^^^ (if d.testBit k then 1 <<< k else 0) = d % 2 ^ (k + 1) := by
  apply Nat.eq_of_testBit_eq
  intro i
  rw [Nat.testBit_xor, Nat.testBit_mod_two_pow, Nat.testBit_mod_two_pow]
  by_cases hk : i = k
  · subst hk
    cases hb : d.testBit i <;> simp [hb, Nat.testBit_shiftLeft]
  · have h1 : (if d.testBit k then 1 <<< k else 0).testBit i = false := by
      cases d.testBit k
      · simp
      · simp only [if_true, Nat.one_shiftLeft, Nat.testBit_two_pow]
        simp; omega
    rw [h1, Bool.xor_false]
    have : decide (i < k) = decide (i < k + 1) := by
      rw [decide_eq_decide]; omega
    rw [this]

/-- An element is the sum of the powers of `x` at its set bits. -/
theorem decompose (d : Blk) (hd : WordPair d) :
    xorAll ((List.range 128).map fun i => if blkBit d i then xpow i else (0, 0)) = d := by
  have h : ∀ k, k ≤ 128 →
      xorAll ((List.range k).map fun i => if blkBit d i then xpow i else (0, 0))
        = (d.1 % 2 ^ (min k 64), d.2 % 2 ^ (k - 64)) := by
    intro k
    induction k with
    | zero => intro _; simp [xorAll, Nat.mod_one]
    | succ k ih =>
      intro hk
      rw [List.range_succ, List.map_append, xorAll_append, ih (by omega)]
      have e1 : xorAll (List.map (fun i => if blkBit d i then xpow i else (0, 0)) [k])
          = if blkBit d k then xpow k else (0, 0) := by
        show mmXor _ (0, 0) = _
        rw [mmXor_zero]
      rw [e1]
      unfold blkBit xpow
      by_cases hk64 : k < 64
      · rw [if_pos hk64, if_pos hk64]
        have m1 : min k 64 = k := by omega
        have m2 : min (k + 1) 64 = k + 1 := by omega
        have m3 : k - 64 = 0 := by omega
        have m4 : k + 1 - 64 = 0 := by omega
        rw [m1, m2, m3, m4, ← mod_succ_bit d.1 k]
        cases d.1.testBit k <;> simp [mmXor, Nat.mod_one]
      · rw [if_neg hk64, if_neg hk64]
        have m1 : min k 64 = 64 := by omega
        have m2 : min (k + 1) 64 = 64 := by omega
        have m4 : k + 1 - 64 = (k - 64) + 1 := by omega
        rw [m1, m2, m4, ← mod_succ_bit d.2 (k - 64)]
        cases d.2.testBit (k - 64) <;> simp [mmXor]
  rw [h 128 (by omega)]
  show (d.1 % 2 ^ 64, d.2 % 2 ^ 64) = d
  rw [Nat.mod_eq_of_lt hd.1, Nat.mod_eq_of_lt hd.2]

/-- Multiplication by `delta` bit by bit. -/
theorem mul_decompose {mul : Blk → Blk → Blk} (hm : Kernel mul) {a d : Blk} (ha : WordPair a)
    (hd : WordPair d) :
    xorAll ((List.range 128).map fun i => if blkBit d i then mul a (xpow i) else (0, 0))
      = mul a d := by
  conv_rhs => rw [← decompose d hd]
  rw [kernel_xorAll hm ha]
  · rw [List.map_map]
    congr 1
    apply List.map_congr_left
    intro i _
    simp only [Function.comp]
    split
    · rfl
    · exact (kernel_zero hm ha).symm
  · intro x hx
    simp only [List.mem_map, List.mem_range] at hx
    obtain ⟨i, hi, rfl⟩ := hx
    split
    · exact xpow_word i hi
    · exact zero_word

/-- **C46** (Gilboa): for every vector `u`, every `delta` and all draws, with either
multiplication kernel: if the protocol returns, it returns `u` and `delta` as provided and
vectors of the same length with `w = v xor u * delta` at every position. -/
theorem vole_correlation (mul : Blk → Blk → Blk) (hm : Kernel mul) (C : Curve A) (hC : CurveOk C)
    (E : IknpEnv A) (rC : Int) (ds : Fin iknpK → BaseDraw) (u : List Blk) (delta : Blk)
    (hu : ∀ x ∈ u, WordPair x) (hd : WordPair delta) (o : VoleOut)
    (h : vole mul C E rC ds u delta = .ok o) :
    o.u = u ∧ o.delta = delta ∧ o.v.length = u.length ∧
      o.w = List.zipWith (fun v x => xorB v (mul x delta)) o.v o.u := by
  unfold vole at h
  simp only at h
  cases hi : iknpCore C E rC ds (n := iknpK) (Choice.col fun i => blkBit delta i.val) with
  | error e => simp [hi] at h
  | ok ik =>
    simp only [hi, Except.ok.injEq] at h
    obtain ⟨_, _, ht⟩ := iknp_correlation C hC E rC ds _ ik hi
    subst h
    refine ⟨rfl, rfl, by simp, ?_⟩
    simp only
    apply List.ext_getElem?
    intro j
    rw [List.getElem?_map, List.getElem?_zipWith, List.getElem?_map]
    by_cases hj : j < u.length
    · have hr : (List.range u.length)[j]? = some j := by
        rw [List.getElem?_eq_getElem (by simpa using hj)]; simp
      rw [hr, List.getElem?_eq_getElem hj]
      simp only [Option.map_some]
      have hx := hu u[j] (List.getElem_mem hj)
      have hget : u.getD j (0, 0) = u[j] := by
        rw [List.getD_eq_getElem?_getD, List.getElem?_eq_getElem hj]; rfl
      rw [hget]
      generalize u[j] = x at *
      refine congrArg some ?_
      rw [xorLoop_eq, xorLoop_eq, ← mul_decompose hm hx hd]
      have hmap : ((List.range 128).map fun i => if blkBit delta i then mul x (xpow i) else (0, 0))
          = (List.finRange iknpK).map
              (fun i : Fin iknpK => if blkBit delta i.val then mul x (xpow i.val) else (0, 0)) := by
        rw [← List.map_coe_finRange_eq_range, List.map_map]; rfl
      rw [hmap]
      rw [xorB_eq, ← xorAll_map2]
      refine congrArg xorAll ?_
      apply List.map_congr_left
      intro i _
      cases hb : blkBit delta i.val with
      | false =>
        have e : ik.t i = ik.q i := by
          funext k; rw [ht]; simp [Choice.bit, hb]
        rw [e]; simp
      | true =>
        have e : blkOfBytes (fun b => packByte (ik.t i) b ^^^ packByte ik.s b)
            = blkOfBytes (packByte (ik.q i)) := by
          congr 1
          funext b
          rw [packByte_xor]
          congr 1
          funext k; rw [ht]; simp [Choice.bit, hb]
        simp only [if_true]
        rw [e]
        generalize E.aes (blkOfBytes (packByte (ik.q i))) u.length j = q
        generalize E.aes (blkOfBytes (packByte (ik.t i))) u.length j = t
        generalize mul x (xpow i.val) = y
        rw [mmXor_comm t q, ← mmXor_assoc, ← mmXor_assoc, mmXor_self, zero_mmXor]
    · rw [List.getElem?_eq_none (by simpa using hj), List.getElem?_eq_none (by omega)]
      rfl

/-- The VOLE returns for ordinary draws. -/
theorem vole_total (mul : Blk → Blk → Blk) (C : Curve A) (hC : CurveOk C)
    (E : IknpEnv A) (rC : Int) (ds : Fin iknpK → BaseDraw) (u : List Blk) (delta : Blk)
    (hk : ∀ i, (ds i).kp % C.N ≠ 0) (hr : ∀ i, (ds i).r % C.N ≠ 0)
    (hc : ∀ i, (rC - (ds i).kp) % C.N ≠ 0) : ∃ o, vole mul C E rC ds u delta = .ok o := by
  obtain ⟨o, ho⟩ := iknp_total C hC E rC ds (n := iknpK)
    (Choice.col fun i => blkBit delta i.val) hk hr hc
  unfold vole
  simp only
  rw [ho]
  exact ⟨_, rfl⟩

example : ∃ o, vole gfMul toyCurve toyEnv 7 toyDraws [(5, 9), (2 ^ 63, 1), (0, 7)] (3, 2 ^ 63) = .ok o ∧
    o.w = List.zipWith (fun v x => xorB v (gfMul x (3, 2 ^ 63))) o.v o.u := by
  obtain ⟨o, h⟩ := vole_total gfMul toyCurve toyCurve_ok toyEnv 7 toyDraws
    [(5, 9), (2 ^ 63, 1), (0, 7)] (3, 2 ^ 63)
    (fun _ => by show ((3 : Int) % 11 ≠ 0); decide) (fun _ => by show ((5 : Int) % 11 ≠ 0); decide)
    (fun _ => by show ((7 - 3 : Int) % 11 ≠ 0); decide)
  refine ⟨o, h, (vole_correlation gfMul (Or.inl rfl) toyCurve toyCurve_ok toyEnv 7 toyDraws _ _ ?_ ?_
    o h).2.2.2⟩
  · intro x hx
    simp only [List.mem_cons, List.not_mem_nil, or_false] at hx
    rcases hx with rfl | rfl | rfl <;> exact ⟨by decide, by decide⟩
  · exact ⟨by decide, by decide⟩

end Verif.Mpc
