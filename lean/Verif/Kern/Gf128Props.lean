/-
C40: GF(2^128) multiplication.

Specification: an integer is read as the polynomial over GF(2) whose coefficient of `X^i`
is bit `i`; the product must be the remainder of the product of the two polynomials modulo
`X^128 + X^7 + X^2 + X + 1`.
-/
import Verif.Kern.Gf128
import Mathlib.Algebra.Polynomial.Div
import Mathlib.Algebra.Polynomial.Degree.SmallDegree
import Mathlib.Data.ZMod.Basic
import Mathlib.Tactic.Ring
import Mathlib.Tactic.LinearCombination
import Mathlib.Tactic.ComputeDegree
import Mathlib.Algebra.CharP.Two

open Polynomial

namespace Verif.Kern

/-! ### Specification -/

/-- Polynomials over the field with two elements. -/
abbrev Poly2 := Polynomial (ZMod 2)

/-- The polynomial whose coefficient of `X^i` is bit `i` of `n`
(all bits of `n` are below position `n`). -/
noncomputable def poly (n : Nat) : Poly2 :=
  ∑ i ∈ Finset.range n, if n.testBit i then X ^ i else 0

/-- The element `[lo, hi]` as a polynomial. -/
noncomputable def polyB (a : Blk) : Poly2 := poly a.1 + X ^ 64 * poly a.2

/-- The modulus `x^128 + x^7 + x^2 + x + 1`. -/
noncomputable def gcmP : Poly2 := X ^ 128 + X ^ 7 + X ^ 2 + X + 1

/-- A well-formed element: both words fit in 64 bits. -/
def WordPair (a : Blk) : Prop := a.1 < 2 ^ 64 ∧ a.2 < 2 ^ 64

/-- Addition is bitwise xor. -/
def xorB (a b : Blk) : Blk := (a.1 ^^^ b.1, a.2 ^^^ b.2)

/-! ### Bits and polynomials -/

theorem poly_coeff (n i : Nat) : (poly n).coeff i = if n.testBit i then 1 else 0 := by
  unfold poly
  rw [Polynomial.finset_sum_coeff]
  have key : ∀ j, (if n.testBit j then (X : Poly2) ^ j else 0).coeff i
      = if j = i then (if n.testBit i then 1 else 0) else 0 := by
    intro j
    by_cases hj : j = i
    · subst hj
      by_cases h : n.testBit j <;> simp [h]
    · by_cases h : n.testBit j
      · simp [h, coeff_X_pow, hj, Ne.symm hj]
      · simp [h, hj]
  simp only [key]
  rw [Finset.sum_ite_eq' (Finset.range n) i]
  by_cases hi : i < n
  · simp [hi]
  · have : n.testBit i = false := by
      apply Nat.testBit_lt_two_pow
      exact lt_of_lt_of_le Nat.lt_two_pow_self (Nat.pow_le_pow_right (by omega) (by omega))
    simp [this]

theorem poly_xor (a b : Nat) : poly (a ^^^ b) = poly a + poly b := by
  ext i
  rw [coeff_add, poly_coeff, poly_coeff, poly_coeff, Nat.testBit_xor]
  cases a.testBit i <;> cases b.testBit i <;> simp
  decide

theorem poly_zero : poly 0 = 0 := by
  ext i; simp [poly_coeff]

theorem poly_shl (a k : Nat) : poly (a <<< k) = X ^ k * poly a := by
  ext i
  rw [poly_coeff, coeff_X_pow_mul', Nat.testBit_shiftLeft, poly_coeff]
  by_cases h : k ≤ i <;> simp [h]

theorem poly_one : poly 1 = 1 := by
  ext i
  rw [poly_coeff, coeff_one]
  by_cases h : i = 0
  · subst h; simp
  · have : (1 : Nat).testBit i = false := by
      exact Nat.testBit_lt_two_pow (Nat.one_lt_two_pow h)
    simp [this, h]

theorem poly_add (a b : Nat) (h : ∀ i, ¬ (a.testBit i = true ∧ b.testBit i = true)) :
    poly (a ||| b) = poly a + poly b := by
  ext i
  rw [coeff_add, poly_coeff, poly_coeff, poly_coeff, Nat.testBit_or]
  have := h i
  cases ha : a.testBit i <;> cases hb : b.testBit i <;> simp_all

/-- Splitting a number at bit 64. -/
theorem poly_split (a : Nat) : poly a = poly (a &&& mask64) + X ^ 64 * poly (a >>> 64) := by
  ext i
  rw [coeff_add, poly_coeff, poly_coeff, coeff_X_pow_mul', poly_coeff, mask64,
    Nat.and_two_pow_sub_one_eq_mod, Nat.testBit_mod_two_pow, Nat.testBit_shiftRight]
  by_cases h : i < 64
  · have : ¬ 64 ≤ i := by omega
    simp [h, this]
  · have h' : 64 ≤ i := by omega
    have e : 64 + (i - 64) = i := by omega
    simp [h, h', e]

theorem poly_inj {a b : Nat} (h : poly a = poly b) : a = b := by
  apply Nat.eq_of_testBit_eq
  intro i
  have := congrArg (fun p => p.coeff i) h
  simp only [poly_coeff] at this
  cases ha : a.testBit i <;> cases hb : b.testBit i <;> simp_all


/-! ### The carryless product -/

theorem poly_low_bits (b k : Nat) :
    poly (b % 2 ^ (k + 1)) = poly (b % 2 ^ k) + if b.testBit k then X ^ k else 0 := by
  ext i
  rw [coeff_add, poly_coeff, poly_coeff, Nat.testBit_mod_two_pow, Nat.testBit_mod_two_pow]
  have e : (if b.testBit k then (X : Poly2) ^ k else 0).coeff i
      = if i = k ∧ b.testBit k then 1 else 0 := by
    by_cases h : b.testBit k <;> simp [h, coeff_X_pow]
  rw [e]
  by_cases hik : i = k
  · subst hik; simp
  · by_cases hlt : i < k
    · have : i < k + 1 := by omega
      simp [hik, hlt, this]
    · have : ¬ i < k + 1 := by omega
      simp [hik, hlt, this]

theorem bit_test (b i : Nat) : ((b >>> i) &&& 1 ≠ 0) ↔ b.testBit i = true := by
  unfold Nat.testBit
  rw [Nat.and_comm]
  simp

theorem step_poly (a b : Nat) (ha : a < 2 ^ 64) (acc : Nat × Nat) (i : Nat)
    (hi64 : i < 64) :
    poly (clmulStep a b acc i).1 + X ^ 64 * poly (clmulStep a b acc i).2
      = poly acc.1 + X ^ 64 * poly acc.2
        + (if b.testBit i then X ^ i else 0) * poly a := by
  unfold clmulStep
  by_cases hb : b.testBit i = true
  · rw [if_pos ((bit_test b i).2 hb)]
    simp only [hb, if_true]
    rw [poly_xor, poly_xor]
    have hs : poly (a <<< i) = poly ((a <<< i) &&& mask64)
        + X ^ 64 * poly (if i > 0 then a >>> (64 - i) else 0) := by
      rw [poly_split (a <<< i)]
      congr 3
      by_cases hi : i > 0
      · rw [if_pos hi]
        apply Nat.eq_of_testBit_eq
        intro j
        simp only [Nat.testBit_shiftRight, Nat.testBit_shiftLeft]
        have : 64 + j - i = 64 - i + j := by omega
        have h2 : i ≤ 64 + j := by omega
        simp [this, h2]
      · rw [if_neg hi]
        have : i = 0 := by omega
        subst this
        rw [Nat.shiftLeft_zero, Nat.shiftRight_eq_div_pow]
        exact Nat.div_eq_of_lt ha
    rw [← poly_shl a i, hs]
    ring
  · rw [if_neg (fun h => hb ((bit_test b i).1 h))]
    simp [hb]


theorem clmul_prefix (a b : Nat) (ha : a < 2 ^ 64) : ∀ k, k ≤ 64 →
    poly ((List.range k).foldl (clmulStep a b) (0, 0)).1
      + X ^ 64 * poly ((List.range k).foldl (clmulStep a b) (0, 0)).2
      = poly a * poly (b % 2 ^ k) := by
  intro k
  induction k with
  | zero => intro _; simp [poly_zero, Nat.mod_one]
  | succ k ih =>
    intro hk
    rw [List.range_succ, List.foldl_append]
    simp only [List.foldl_cons, List.foldl_nil]
    rw [step_poly a b ha _ k (by omega), ih (by omega), poly_low_bits]
    ring

/-- The carryless product of two 64-bit words is the product of their polynomials. -/
theorem clmul64_poly (a b : Nat) (ha : a < 2 ^ 64) (hb : b < 2 ^ 64) :
    poly (clmul64 a b).1 + X ^ 64 * poly (clmul64 a b).2 = poly a * poly b := by
  have := clmul_prefix a b ha 64 (le_refl _)
  rwa [Nat.mod_eq_of_lt hb] at this

theorem mask_lt (a : Nat) : a &&& mask64 < 2 ^ 64 := by
  rw [mask64, Nat.and_two_pow_sub_one_eq_mod]
  exact Nat.mod_lt _ (by decide)

theorem step_bound (a b : Nat) (ha : a < 2 ^ 64) (acc : Nat × Nat) (i : Nat)
    (h : WordPair acc) : WordPair (clmulStep a b acc i) := by
  unfold clmulStep
  by_cases hc : (b >>> i) &&& 1 ≠ 0
  · rw [if_pos hc]
    refine ⟨Nat.xor_lt_two_pow h.1 (mask_lt _), Nat.xor_lt_two_pow h.2 ?_⟩
    by_cases hi : i > 0
    · rw [if_pos hi, Nat.shiftRight_eq_div_pow]
      exact lt_of_le_of_lt (Nat.div_le_self _ _) ha
    · rw [if_neg hi]; decide
  · rw [if_neg hc]; exact h

theorem clmul64_bound (a b : Nat) (ha : a < 2 ^ 64) : WordPair (clmul64 a b) := by
  unfold clmul64
  have : ∀ (l : List Nat) (acc : Nat × Nat), WordPair acc →
      WordPair (l.foldl (clmulStep a b) acc) := by
    intro l
    induction l with
    | nil => intro acc h; exact h
    | cons x xs ih => intro acc h; exact ih _ (step_bound a b ha acc x h)
  exact this _ _ ⟨by decide, by decide⟩

/-! ### Reduction -/

theorem two_zero : (2 : Poly2) = 0 := CharTwo.two_eq_zero

theorem poly_gfPoly : poly gfPoly = X ^ 7 + X ^ 2 + X + 1 := by
  have e : gfPoly = ((1 <<< 7) ^^^ (1 <<< 2)) ^^^ ((1 <<< 1) ^^^ 1) := by decide
  rw [e, poly_xor, poly_xor, poly_xor, poly_shl, poly_shl, poly_shl, poly_one]
  ring

/-- A four-word value as a polynomial. -/
noncomputable def poly4 (r0 r1 r2 r3 : Nat) : Poly2 :=
  poly r0 + X ^ 64 * poly r1 + X ^ 128 * poly r2 + X ^ 192 * poly r3

theorem clmul128_poly (a b : Blk) (ha : WordPair a) (hb : WordPair b) :
    poly4 (clmul128 a.1 a.2 b.1 b.2).1 (clmul128 a.1 a.2 b.1 b.2).2.1
      (clmul128 a.1 a.2 b.1 b.2).2.2.1 (clmul128 a.1 a.2 b.1 b.2).2.2.2
      = polyB a * polyB b := by
  unfold clmul128 poly4 polyB
  simp only [poly_xor]
  have h0 := clmul64_poly a.1 b.1 ha.1 hb.1
  have h1 := clmul64_poly a.2 b.2 ha.2 hb.2
  have h2 := clmul64_poly a.1 b.2 ha.1 hb.2
  have h3 := clmul64_poly a.2 b.1 ha.2 hb.1
  linear_combination h0 + X ^ 128 * h1 + X ^ 64 * h2 + X ^ 64 * h3

theorem reduce_poly (r0 r1 r2 r3 : Nat) (h2 : r2 < 2 ^ 64) (h3 : r3 < 2 ^ 64) :
    ∃ q, poly4 r0 r1 r2 r3 = polyB (gfReduce r0 r1 r2 r3) + gcmP * q := by
  have hg : gfPoly < 2 ^ 64 := by decide
  have b3 := clmul64_bound r3 gfPoly h3
  have e3 := clmul64_poly r3 gfPoly h3 hg
  have hr2 : r2 ^^^ (clmul64 r3 gfPoly).2 < 2 ^ 64 := Nat.xor_lt_two_pow h2 b3.2
  have e2 := clmul64_poly (r2 ^^^ (clmul64 r3 gfPoly).2) gfPoly hr2 hg
  refine ⟨X ^ 64 * poly r3 + poly (r2 ^^^ (clmul64 r3 gfPoly).2), ?_⟩
  unfold poly4 polyB gfReduce gcmP
  simp only [poly_xor] at e2 ⊢
  rw [poly_gfPoly] at e3 e2
  have t := two_zero
  linear_combination X ^ 64 * e3 + e2 
    - (X ^ 64 * poly (clmul64 r3 gfPoly).1
      + X ^ 64 * poly (clmul64 (r2 ^^^ (clmul64 r3 gfPoly).2) gfPoly).2
      + X ^ 128 * poly (clmul64 r3 gfPoly).2
      + poly (clmul64 (r2 ^^^ (clmul64 r3 gfPoly).2) gfPoly).1) * t


theorem clmul128_bound (a b : Blk) (ha : WordPair a) (_hb : WordPair b) :
    (clmul128 a.1 a.2 b.1 b.2).1 < 2 ^ 64 ∧ (clmul128 a.1 a.2 b.1 b.2).2.1 < 2 ^ 64 ∧
    (clmul128 a.1 a.2 b.1 b.2).2.2.1 < 2 ^ 64 ∧ (clmul128 a.1 a.2 b.1 b.2).2.2.2 < 2 ^ 64 := by
  have h0 := clmul64_bound a.1 b.1 ha.1
  have h1 := clmul64_bound a.2 b.2 ha.2
  have h2 := clmul64_bound a.1 b.2 ha.1
  have h3 := clmul64_bound a.2 b.1 ha.2
  exact ⟨h0.1, Nat.xor_lt_two_pow h0.2 (Nat.xor_lt_two_pow h2.1 h3.1),
    Nat.xor_lt_two_pow h1.1 (Nat.xor_lt_two_pow h2.2 h3.2), h1.2⟩

theorem reduce_bound (r0 r1 r2 r3 : Nat) (h0 : r0 < 2 ^ 64) (h1 : r1 < 2 ^ 64)
    (h2 : r2 < 2 ^ 64) (h3 : r3 < 2 ^ 64) : WordPair (gfReduce r0 r1 r2 r3) := by
  have b3 := clmul64_bound r3 gfPoly h3
  have b2 := clmul64_bound (r2 ^^^ (clmul64 r3 gfPoly).2) gfPoly (Nat.xor_lt_two_pow h2 b3.2)
  exact ⟨Nat.xor_lt_two_pow h0 b2.1, Nat.xor_lt_two_pow (Nat.xor_lt_two_pow h1 b3.1) b2.2⟩

theorem and_mask {a : Nat} (h : a < 2 ^ 64) : a &&& mask64 = a := by
  rw [mask64, Nat.and_two_pow_sub_one_eq_mod, Nat.mod_eq_of_lt h]

theorem gcmP_natDegree : gcmP.natDegree = 128 := by
  unfold gcmP
  compute_degree!

theorem gcmP_monic : gcmP.Monic := by
  unfold gcmP
  monicity!

theorem gcmP_degree : gcmP.degree = ((128 : ℕ) : WithBot ℕ) := by
  rw [degree_eq_natDegree gcmP_monic.ne_zero, gcmP_natDegree]

theorem poly_degree_lt {n k : Nat} (h : n < 2 ^ k) : (poly n).degree < k := by
  rw [degree_lt_iff_coeff_zero]
  intro m hm
  rw [poly_coeff, if_neg]
  rw [Nat.testBit_lt_two_pow (lt_of_lt_of_le h (Nat.pow_le_pow_right (by decide) hm))]
  decide

theorem polyB_degree {a : Blk} (h : WordPair a) : (polyB a).degree < gcmP.degree := by
  unfold polyB
  rw [gcmP_degree, degree_lt_iff_coeff_zero]
  intro m hm
  rw [coeff_add, coeff_X_pow_mul', if_pos (by omega), poly_coeff, poly_coeff]
  rw [Nat.testBit_lt_two_pow (lt_of_lt_of_le h.1 (Nat.pow_le_pow_right (by decide) (by omega))),
    Nat.testBit_lt_two_pow (i := m - 64)
      (lt_of_lt_of_le h.2 (Nat.pow_le_pow_right (by decide) (by omega)))]
  simp

theorem polyB_inj {a b : Blk} (ha : WordPair a) (hb : WordPair b) (h : polyB a = polyB b) :
    a = b := by
  have hc : ∀ i, (polyB a).coeff i = (polyB b).coeff i := fun i => by rw [h]
  apply Prod.ext
  · apply Nat.eq_of_testBit_eq
    intro i
    by_cases hi : i < 64
    · have := hc i
      unfold polyB at this
      rw [coeff_add, coeff_add, coeff_X_pow_mul', coeff_X_pow_mul', if_neg (by omega),
        if_neg (by omega), poly_coeff, poly_coeff] at this
      cases h1 : a.1.testBit i <;> cases h2 : b.1.testBit i <;> simp_all
    · rw [Nat.testBit_lt_two_pow (lt_of_lt_of_le ha.1 (Nat.pow_le_pow_right (by decide) (by omega))),
        Nat.testBit_lt_two_pow (lt_of_lt_of_le hb.1 (Nat.pow_le_pow_right (by decide) (by omega)))]
  · apply Nat.eq_of_testBit_eq
    intro i
    have := hc (i + 64)
    unfold polyB at this
    rw [coeff_add, coeff_add, coeff_X_pow_mul', coeff_X_pow_mul', if_pos (by omega),
      if_pos (by omega), poly_coeff, poly_coeff, poly_coeff, poly_coeff,
      Nat.testBit_lt_two_pow (x := a.1)
        (lt_of_lt_of_le ha.1 (Nat.pow_le_pow_right (by decide) (by omega))),
      Nat.testBit_lt_two_pow (x := b.1)
        (lt_of_lt_of_le hb.1 (Nat.pow_le_pow_right (by decide) (by omega)))] at this
    have e : i + 64 - 64 = i := by omega
    rw [e] at this
    cases h1 : a.2.testBit i <;> cases h2 : b.2.testBit i <;> simp_all

theorem mask_pair {r : Blk} (h : WordPair r) : (r.1 &&& mask64, r.2 &&& mask64) = r := by
  rw [and_mask h.1, and_mask h.2]

theorem gfMul_eq (a b : Blk) (ha : WordPair a) (hb : WordPair b) :
    gfMul a b = gfReduce (clmul128 a.1 a.2 b.1 b.2).1 (clmul128 a.1 a.2 b.1 b.2).2.1
      (clmul128 a.1 a.2 b.1 b.2).2.2.1 (clmul128 a.1 a.2 b.1 b.2).2.2.2 := by
  obtain ⟨h0, h1, h2, h3⟩ := clmul128_bound a b ha hb
  exact mask_pair (reduce_bound _ _ _ _ h0 h1 h2 h3)

theorem eq_mod_gen {R : Type*} [CommRing R] [Nontrivial R] {f r q g : Polynomial R}
    (hg : g.Monic) (h : f = r + g * q) (hr : r.degree < g.degree) : r = f %ₘ g :=
  ((div_modByMonic_unique q r hg ⟨h.symm, hr⟩).2).symm

attribute [local irreducible] gcmP

theorem eq_mod {f r q : Poly2} (h : f = r + gcmP * q) (hr : r.degree < gcmP.degree) :
    r = f %ₘ gcmP :=
  eq_mod_gen gcmP_monic h hr

/-! ### C40 -/

/-- **C40** (Python kernel).  The product of two 128-bit elements has two 64-bit words and is
the remainder of the product of the two polynomials modulo `x^128 + x^7 + x^2 + x + 1`. -/
theorem gf128_mul_spec (a b : Blk) (ha : WordPair a) (hb : WordPair b) :
    WordPair (gfMul a b) ∧ polyB (gfMul a b) = (polyB a * polyB b) %ₘ gcmP := by
  obtain ⟨h0, h1, h2, h3⟩ := clmul128_bound a b ha hb
  have hw : WordPair (gfMul a b) := by
    rw [gfMul_eq a b ha hb]; exact reduce_bound _ _ _ _ h0 h1 h2 h3
  refine ⟨hw, ?_⟩
  obtain ⟨q, hq⟩ := reduce_poly (clmul128 a.1 a.2 b.1 b.2).1
    (clmul128 a.1 a.2 b.1 b.2).2.1 _ _ h2 h3
  rw [clmul128_poly a b ha hb, ← gfMul_eq a b ha hb] at hq
  exact eq_mod hq (polyB_degree hw)

/-- The hypotheses are met: `x^127 · x^127 = x^254`, which reduces to a nonzero element. -/
example : WordPair (0, 2 ^ 63) ∧ gfMul (0, 2 ^ 63) (0, 2 ^ 63) = (0x1067, 0xC000000000000000) := by
  constructor
  · constructor <;> decide
  · decide

end Verif.Kern
