/-
C40, continued: the multiplication is that of a field with 2^128 elements
(`gcmP` is irreducible), and the native kernel does not implement it.
-/
import Verif.Kern.Gf128Props
import Mathlib.FieldTheory.Finite.GaloisField
import Mathlib.FieldTheory.Finite.Basic
import Mathlib.RingTheory.AdjoinRoot

open Polynomial

namespace Verif.Kern

attribute [local irreducible] gcmP

/-! ### Ring laws, stated for the code's own operation -/

theorem polyB_xor (a b : Blk) : polyB (xorB a b) = polyB a + polyB b := by
  unfold polyB xorB
  simp only [poly_xor]
  ring

theorem xorB_word {a b : Blk} (ha : WordPair a) (hb : WordPair b) : WordPair (xorB a b) :=
  ⟨Nat.xor_lt_two_pow ha.1 hb.1, Nat.xor_lt_two_pow ha.2 hb.2⟩

theorem polyB_one : polyB (1, 0) = 1 := by
  unfold polyB; simp [poly_one, poly_zero]

/-- Residue class of an element. -/
noncomputable def cls (a : Blk) : AdjoinRoot gcmP := AdjoinRoot.mk gcmP (polyB a)

theorem mk_mod (f : Poly2) : AdjoinRoot.mk gcmP (f %ₘ gcmP) = AdjoinRoot.mk gcmP f := by
  rw [AdjoinRoot.mk_eq_mk]
  exact dvd_modByMonic_sub f gcmP

theorem cls_mul {a b : Blk} (ha : WordPair a) (hb : WordPair b) :
    cls (gfMul a b) = cls a * cls b := by
  unfold cls
  rw [(gf128_mul_spec a b ha hb).2, mk_mod, map_mul]

theorem cls_xor (a b : Blk) : cls (xorB a b) = cls a + cls b := by
  unfold cls
  rw [polyB_xor, map_add]

theorem cls_inj {a b : Blk} (ha : WordPair a) (hb : WordPair b) (h : cls a = cls b) : a = b := by
  unfold cls at h
  rw [AdjoinRoot.mk_eq_mk] at h
  have hd : (polyB a - polyB b).degree < gcmP.degree :=
    lt_of_le_of_lt (degree_sub_le _ _) (max_lt (polyB_degree ha) (polyB_degree hb))
  have := eq_zero_of_dvd_of_degree_lt h hd
  exact polyB_inj ha hb (sub_eq_zero.1 this)

theorem mul_word {a b : Blk} (ha : WordPair a) (hb : WordPair b) : WordPair (gfMul a b) :=
  (gf128_mul_spec a b ha hb).1

theorem one_word : WordPair (1, 0) := ⟨by decide, by decide⟩
theorem zero_word : WordPair (0, 0) := ⟨by decide, by decide⟩

/-- **C40** (Python kernel): with bitwise xor as addition, `gf128_mul` satisfies the laws of a
commutative ring with unit `[1, 0]`. -/
theorem gf128_ring_laws (a b c : Blk) (ha : WordPair a) (hb : WordPair b) (hc : WordPair c) :
    gfMul a b = gfMul b a ∧
    gfMul (gfMul a b) c = gfMul a (gfMul b c) ∧
    gfMul a (xorB b c) = xorB (gfMul a b) (gfMul a c) ∧
    gfMul a (1, 0) = a := by
  refine ⟨?_, ?_, ?_, ?_⟩
  · apply cls_inj (mul_word ha hb) (mul_word hb ha)
    rw [cls_mul ha hb, cls_mul hb ha, mul_comm]
  · apply cls_inj (mul_word (mul_word ha hb) hc) (mul_word ha (mul_word hb hc))
    rw [cls_mul (mul_word ha hb) hc, cls_mul ha (mul_word hb hc), cls_mul ha hb, cls_mul hb hc,
      mul_assoc]
  · apply cls_inj (mul_word ha (xorB_word hb hc)) (xorB_word (mul_word ha hb) (mul_word ha hc))
    rw [cls_mul ha (xorB_word hb hc), cls_xor, cls_xor, cls_mul ha hb, cls_mul ha hc, mul_add]
  · apply cls_inj (mul_word ha one_word) ha
    rw [cls_mul ha one_word]
    unfold cls
    rw [polyB_one, map_one, mul_one]

/-! ### Irreducibility of the modulus (Rabin's test) -/

/-- `x^(2^k)` as computed by repeated squaring with the kernel. -/
def xPow2 : Nat → Blk
  | 0 => (2, 0)
  | k + 1 => gfMul (xPow2 k) (xPow2 k)

theorem xPow2_word : ∀ k, WordPair (xPow2 k)
  | 0 => ⟨by decide, by decide⟩
  | k + 1 => mul_word (xPow2_word k) (xPow2_word k)

theorem poly_two : poly 2 = X := by
  have h : poly (1 <<< 1) = X := by rw [poly_shl, poly_one]; simp
  exact h

theorem xPow2_cls (k : Nat) : cls (xPow2 k) = (AdjoinRoot.root gcmP) ^ (2 ^ k) := by
  induction k with
  | zero =>
    unfold cls xPow2 polyB
    simp only [poly_two, poly_zero, mul_zero, add_zero]
    rw [AdjoinRoot.mk_X, pow_zero, pow_one]
  | succ k ih =>
    rw [xPow2, cls_mul (xPow2_word k) (xPow2_word k), ih, pow_succ 2 k, pow_mul, sq]

theorem xPow2_64 : xPow2 64 = (0x44e598a795a299f6, 0x61651fea6b5832b9) := by decide +kernel
theorem xPow2_128 : xPow2 128 = (2, 0) := by decide +kernel


/-- The inverse of `x^(2^64) + x`, a certificate that its gcd with the modulus is 1. -/
def rabinInv : Blk := (0x41a8cafd2c95b018, 0x9e4af928ddbc838a)

theorem rabinInv_mul : gfMul rabinInv (xorB (xPow2 64) (2, 0)) = (1, 0) := by
  rw [xPow2_64]; decide +kernel

section Rabin
variable {f : Poly2}

theorem finite_root (hf : Irreducible f) : Module.Finite (ZMod 2) (AdjoinRoot f) :=
  (AdjoinRoot.powerBasis hf.ne_zero).finite

theorem order_frob [Fact (Irreducible f)] [Finite (AdjoinRoot f)] :
    orderOf (FiniteField.frobeniusAlgHom (ZMod 2) (AdjoinRoot f)) = f.natDegree := by
  rw [FiniteField.orderOf_frobeniusAlgHom, (AdjoinRoot.powerBasis
    (Fact.out : Irreducible f).ne_zero).finrank, AdjoinRoot.powerBasis_dim]

theorem frob_pow [Fact (Irreducible f)] (n : Nat) (x : AdjoinRoot f) :
    (FiniteField.frobeniusAlgHom (ZMod 2) (AdjoinRoot f) ^ n) x = x ^ (2 ^ n) := by
  rw [AlgHom.coe_pow, FiniteField.coe_frobeniusAlgHom, pow_iterate, ZMod.card]

theorem natDegree_dvd_iff (hf : Irreducible f) (n : Nat) :
    f.natDegree ∣ n ↔ (AdjoinRoot.root f) ^ (2 ^ n) = AdjoinRoot.root f := by
  haveI : Fact (Irreducible f) := ⟨hf⟩
  haveI := finite_root hf
  haveI : Finite (AdjoinRoot f) := Module.finite_of_finite (ZMod 2)
  rw [← order_frob, orderOf_dvd_iff_pow_eq_one]
  constructor
  · intro h
    rw [← frob_pow, h]; rfl
  · intro h
    apply AdjoinRoot.algHom_ext
    rw [frob_pow, h]; rfl

end Rabin


theorem root_pow_128 : (AdjoinRoot.root gcmP) ^ (2 ^ 128) = AdjoinRoot.root gcmP := by
  rw [← xPow2_cls, xPow2_128, ← pow_one (AdjoinRoot.root gcmP), ← pow_zero 2, ← xPow2_cls, xPow2]

theorem root_pow_64 :
    cls rabinInv * ((AdjoinRoot.root gcmP) ^ (2 ^ 64) + AdjoinRoot.root gcmP) = 1 := by
  have hr : WordPair rabinInv := ⟨by decide, by decide⟩
  have h2 : WordPair (2, 0) := ⟨by decide, by decide⟩
  have e2 : cls (2, 0) = AdjoinRoot.root gcmP := by
    have := xPow2_cls 0
    rwa [pow_zero, pow_one] at this
  have h := cls_mul hr (xorB_word (xPow2_word 64) h2)
  rw [rabinInv_mul, cls_xor, xPow2_cls, e2] at h
  rw [← h]
  unfold cls
  rw [polyB_one, map_one]

/-- The modulus `x^128 + x^7 + x^2 + x + 1` is irreducible over GF(2). -/
theorem gcmP_irreducible : Irreducible gcmP := by
  have hne : gcmP ≠ 0 := gcmP_monic.ne_zero
  have hnu : ¬ IsUnit gcmP := by
    intro h
    have := natDegree_eq_zero_of_isUnit h
    rw [gcmP_natDegree] at this
    omega
  obtain ⟨f, hf, hd⟩ := WfDvdMonoid.exists_irreducible_factor hnu hne
  haveI : Fact (Irreducible f) := ⟨hf⟩
  have h128 := congrArg (AdjoinRoot.algHomOfDvd (ZMod 2) gcmP f hd) root_pow_128
  have h64 := congrArg (AdjoinRoot.algHomOfDvd (ZMod 2) gcmP f hd) root_pow_64
  rw [map_pow, AdjoinRoot.algHomOfDvd_root, ← natDegree_dvd_iff hf] at h128
  rw [map_mul, map_add, map_pow, AdjoinRoot.algHomOfDvd_root, map_one] at h64
  have hdeg : f.natDegree = 128 := by
    have h7 : (128 : Nat) = 2 ^ 7 := by decide
    obtain ⟨k, hk, hk2⟩ := (Nat.dvd_prime_pow Nat.prime_two).1 (h7 ▸ h128)
    by_contra hcon
    have hk6 : k ≤ 6 := by
      by_contra hk7
      have : k = 7 := by omega
      subst this
      exact hcon hk2
    have hdvd : f.natDegree ∣ 64 := by
      have h6 : (64 : Nat) = 2 ^ 6 := by decide
      rw [hk2, h6]
      exact pow_dvd_pow 2 hk6
    rw [natDegree_dvd_iff hf] at hdvd
    rw [hdvd] at h64
    haveI : CharP (AdjoinRoot f) 2 := charP_of_injective_algebraMap' (ZMod 2) 2
    rw [CharTwo.add_self_eq_zero, mul_zero] at h64
    exact zero_ne_one h64
  obtain ⟨g, hg⟩ := hd
  have hg0 : g ≠ 0 := by
    rintro rfl
    rw [mul_zero] at hg
    exact hne hg
  have hsum := natDegree_mul hf.ne_zero hg0
  rw [← hg, gcmP_natDegree, hdeg] at hsum
  have hgu : IsUnit g := by
    rw [eq_C_of_natDegree_eq_zero (p := g) (by omega)]
    apply isUnit_C.2
    apply IsUnit.mk0
    intro h0
    apply hg0
    rw [eq_C_of_natDegree_eq_zero (p := g) (by omega), h0, C_0]
  exact (associated_mul_unit_right f g hgu |>.irreducible_iff).1 hf |> fun h => by rw [hg]; exact h

/-- **C40** (Python kernel): the product of two nonzero elements is nonzero. -/
theorem gf128_no_zero_divisors (a b : Blk) (ha : WordPair a) (hb : WordPair b)
    (h : gfMul a b = (0, 0)) : a = (0, 0) ∨ b = (0, 0) := by
  haveI : Fact (Irreducible gcmP) := ⟨gcmP_irreducible⟩
  have hz : cls (0, 0) = 0 := by
    unfold cls polyB; simp [poly_zero]
  have hm := cls_mul ha hb
  rw [h, hz] at hm
  rcases mul_eq_zero.1 hm.symm with h1 | h1
  · exact Or.inl (cls_inj ha zero_word (h1.trans hz.symm))
  · exact Or.inr (cls_inj hb zero_word (h1.trans hz.symm))

theorem gf128_mul_cancel {a b c : Blk} (ha : WordPair a) (hb : WordPair b) (hc : WordPair c)
    (h0 : a ≠ (0, 0)) (h : gfMul a b = gfMul a c) : b = c := by
  haveI : Fact (Irreducible gcmP) := ⟨gcmP_irreducible⟩
  have hz : cls (0, 0) = 0 := by
    unfold cls polyB; simp [poly_zero]
  have hne : cls a ≠ 0 := fun h => h0 (cls_inj ha zero_word (h.trans hz.symm))
  have h1 := cls_mul ha hb
  rw [h, cls_mul ha hc] at h1
  exact (cls_inj hc hb (mul_left_cancel₀ hne h1)).symm

/-- **C40** (Python kernel): every nonzero element has a multiplicative inverse. -/
theorem gf128_inverse (a : Blk) (ha : WordPair a) (h0 : a ≠ (0, 0)) :
    ∃ b, WordPair b ∧ gfMul a b = (1, 0) := by
  let E := Fin (2 ^ 64) × Fin (2 ^ 64)
  let val : E → Blk := fun b => (b.1.1, b.2.1)
  have hval : ∀ b : E, WordPair (val b) := fun b => ⟨b.1.2, b.2.2⟩
  let m : E → E := fun b => (⟨(gfMul a (val b)).1, (mul_word ha (hval b)).1⟩,
    ⟨(gfMul a (val b)).2, (mul_word ha (hval b)).2⟩)
  have hinj : Function.Injective m := by
    intro b c h
    have e1 : (gfMul a (val b)).1 = (gfMul a (val c)).1 :=
      congrArg (fun z : E => (z.1 : Nat)) h
    have e2 : (gfMul a (val b)).2 = (gfMul a (val c)).2 :=
      congrArg (fun z : E => (z.2 : Nat)) h
    have hv : val b = val c := gf128_mul_cancel ha (hval b) (hval c) h0 (Prod.ext e1 e2)
    exact Prod.ext (Fin.ext (congrArg Prod.fst hv)) (Fin.ext (congrArg Prod.snd hv))
  obtain ⟨b, hb⟩ := Finite.surjective_of_injective hinj (⟨1, by decide⟩, ⟨0, by decide⟩)
  refine ⟨val b, hval b, Prod.ext ?_ ?_⟩
  · exact congrArg (fun z : E => (z.1 : Nat)) hb
  · exact congrArg (fun z : E => (z.2 : Nat)) hb

/-- A nonzero element meeting the hypotheses, with its inverse. -/
example : WordPair (2, 0) ∧ ((2, 0) : Blk) ≠ (0, 0) ∧
    gfMul (2, 0) (0x43, 0x8000000000000000) = (1, 0) :=
  ⟨⟨by decide, by decide⟩, by decide, by decide +kernel⟩

/-! ### The batch kernel -/

/-- **C40**: the batch kernel multiplies row by row; it needs a row of `b` for each row of `a`. -/
theorem gf128_batch_rows (as bs : List Blk) :
    (as.length ≤ bs.length → ∃ out, gfMulBatch as bs = some out ∧ out.length = as.length ∧
      ∀ (i : Nat) (a b : Blk), as[i]? = some a → bs[i]? = some b → out[i]? = some (gfMul a b)) ∧
    (bs.length < as.length → gfMulBatch as bs = none) := by
  induction as generalizing bs with
  | nil => exact ⟨fun _ => ⟨[], rfl, rfl, by intro i a b h; simp at h⟩, fun h => by simp at h⟩
  | cons a as ih =>
    cases bs with
    | nil => exact ⟨fun h => by simp at h, fun _ => rfl⟩
    | cons b bs =>
      constructor
      · intro h
        obtain ⟨out, ho, hl, hr⟩ := (ih bs).1 (by simpa using h)
        refine ⟨gfMul a b :: out, by rw [gfMulBatch, ho]; rfl, by simp [hl], ?_⟩
        intro i x y hx hy
        cases i with
        | zero =>
          simp only [List.getElem?_cons_zero, Option.some.injEq] at hx hy ⊢
          rw [hx, hy]
        | succ i =>
          simp only [List.getElem?_cons_succ] at hx hy ⊢
          exact hr i x y hx hy
      · intro h
        rw [gfMulBatch, (ih bs).2 (by simpa using h)]; rfl

example : gfMulBatch [(2, 0), (3, 0)] [(3, 0), (3, 0)] = some [(6, 0), (5, 0)] := by
  decide +kernel

/-! ### The native kernel -/

theorem clmul64_zero_left (b : Nat) : clmul64 0 b = (0, 0) := by
  unfold clmul64
  have : ∀ (l : List Nat), l.foldl (clmulStep 0 b) (0, 0) = (0, 0) := by
    intro l
    induction l with
    | nil => rfl
    | cons x xs ih =>
      have : clmulStep 0 b (0, 0) x = (0, 0) := by
        unfold clmulStep
        by_cases h : (b >>> x) &&& 1 ≠ 0
        · rw [if_pos h]; simp
        · rw [if_neg h]
      rw [List.foldl_cons, this]; exact ih
  exact this _

theorem clmul64_zero_right (a : Nat) : clmul64 a 0 = (0, 0) := by
  unfold clmul64
  have : ∀ (l : List Nat), l.foldl (clmulStep a 0) (0, 0) = (0, 0) := by
    intro l
    induction l with
    | nil => rfl
    | cons x xs ih =>
      have : clmulStep a 0 (0, 0) x = (0, 0) := by
        unfold clmulStep
        simp
      rw [List.foldl_cons, this]; exact ih
  exact this _

theorem xor_sw (a b c : Nat) : a ^^^ (b ^^^ c) = a ^^^ (c ^^^ b) := by
  rw [Nat.xor_comm b c]

/-- What the native kernel computes: the immediate `0x10` multiplies the *low* half of the
high product by the *high* half of the constant, which is zero, so the top word of the
256-bit product is dropped. -/
theorem native_eq (a b : Blk) :
    gfMulNative a b = gfReduce (clmul128 a.1 a.2 b.1 b.2).1 (clmul128 a.1 a.2 b.1 b.2).2.1
      (clmul128 a.1 a.2 b.1 b.2).2.2.1 0 := by
  have b0 : (0x00 : Nat).testBit 0 = false := by decide
  have b4 : (0x00 : Nat).testBit 4 = false := by decide
  have b110 : (0x11 : Nat).testBit 0 = true := by decide
  have b114 : (0x11 : Nat).testBit 4 = true := by decide
  have b010 : (0x01 : Nat).testBit 0 = true := by decide
  have b014 : (0x01 : Nat).testBit 4 = false := by decide
  have b100 : (0x10 : Nat).testBit 0 = false := by decide
  have b104 : (0x10 : Nat).testBit 4 = true := by decide
  unfold gfMulNative gfReduce clmul128
  simp only [mmClmul, half, mmXor, mmSlli8, mmSrli8, b0, b4, b110, b114, b010, b014, b100, b104,
    if_true, Bool.false_eq_true, if_false, clmul64_zero_left, clmul64_zero_right, Nat.xor_zero,
    Nat.zero_xor, gfPoly]
  rw [Nat.xor_comm (clmul64 a.2 b.1).1, Nat.xor_comm (clmul64 a.2 b.1).2]

/-- **C40, violated by the native kernel**: `x^127 · x^127` is returned as zero, so the native
kernel disagrees with the Python kernel, with the field, and has zero divisors. -/
theorem gf128_native_violated :
    WordPair (0, 2 ^ 63) ∧ ((0, 2 ^ 63) : Blk) ≠ (0, 0) ∧
    gfMulNative (0, 2 ^ 63) (0, 2 ^ 63) = (0, 0) ∧
    gfMul (0, 2 ^ 63) (0, 2 ^ 63) ≠ (0, 0) ∧
    polyB (gfMulNative (0, 2 ^ 63) (0, 2 ^ 63))
      ≠ (polyB (0, 2 ^ 63) * polyB (0, 2 ^ 63)) %ₘ gcmP := by
  have hw : WordPair (0, 2 ^ 63) := ⟨by decide, by decide⟩
  have e1 : gfMulNative (0, 2 ^ 63) (0, 2 ^ 63) = (0, 0) := by decide +kernel
  have e2 : gfMul (0, 2 ^ 63) (0, 2 ^ 63) ≠ (0, 0) := by decide +kernel
  refine ⟨hw, by decide, e1, e2, ?_⟩
  intro h
  rw [← (gf128_mul_spec _ _ hw hw).2, e1] at h
  exact e2 (polyB_inj zero_word (mul_word hw hw) h).symm

/-- The native kernel also breaks associativity: `(x^127·x^127)·x ≠ x^127·(x^127·x)`. -/
theorem gf128_native_not_assoc :
    gfMulNative (gfMulNative (0, 2 ^ 63) (0, 2 ^ 63)) (2, 0)
      ≠ gfMulNative (0, 2 ^ 63) (gfMulNative (0, 2 ^ 63) (2, 0)) := by
  decide +kernel

/-- **C40, the part the native kernel satisfies**: when the product polynomial has degree
below 192 the native kernel returns the product in the field. -/
theorem gf128_native_partial (a b : Blk) (ha : WordPair a) (hb : WordPair b)
    (hd : (polyB a * polyB b).degree < ((192 : ℕ) : WithBot ℕ)) :
    gfMulNative a b = gfMul a b := by
  obtain ⟨h0, h1, h2, h3⟩ := clmul128_bound a b ha hb
  rw [native_eq, gfMul_eq a b ha hb]
  have hp := clmul128_poly a b ha hb
  have hz : (clmul128 a.1 a.2 b.1 b.2).2.2.2 = 0 := by
    apply Nat.eq_of_testBit_eq
    intro i
    have hc := (degree_lt_iff_coeff_zero _ _).1 hd (i + 192) (by omega)
    rw [← hp] at hc
    generalize clmul128 a.1 a.2 b.1 b.2 = r at *
    have big : ∀ {w k : Nat}, w < 2 ^ 64 → 64 ≤ k → w.testBit k = false := fun hw hk =>
      Nat.testBit_lt_two_pow (lt_of_lt_of_le hw (Nat.pow_le_pow_right (by decide) hk))
    unfold poly4 at hc
    rw [coeff_add, coeff_add, coeff_add, coeff_X_pow_mul', coeff_X_pow_mul', coeff_X_pow_mul',
      if_pos (by omega), if_pos (by omega), if_pos (by omega), poly_coeff, poly_coeff, poly_coeff,
      poly_coeff, big h0 (by omega), big h1 (by omega), big h2 (by omega)] at hc
    have e : i + 192 - 192 = i := by omega
    rw [e] at hc
    cases hb : r.2.2.2.testBit i <;> simp_all
  rw [hz]

theorem clmul64_add_right (a b c : Nat) (ha : a < 2 ^ 64) (hb : b < 2 ^ 64) (hc : c < 2 ^ 64) :
    clmul64 a (b ^^^ c) = xorB (clmul64 a b) (clmul64 a c) := by
  apply polyB_inj (clmul64_bound _ _ ha) (xorB_word (clmul64_bound _ _ ha) (clmul64_bound _ _ ha))
  rw [polyB_xor]
  unfold polyB
  rw [clmul64_poly a _ ha (Nat.xor_lt_two_pow hb hc), clmul64_poly a b ha hb,
    clmul64_poly a c ha hc, poly_xor, mul_add]

theorem clmul64_comm (a b : Nat) (ha : a < 2 ^ 64) (hb : b < 2 ^ 64) :
    clmul64 a b = clmul64 b a := by
  apply polyB_inj (clmul64_bound _ _ ha) (clmul64_bound _ _ hb)
  unfold polyB
  rw [clmul64_poly a b ha hb, clmul64_poly b a hb ha, mul_comm]

theorem native_word {a b : Blk} (ha : WordPair a) (hb : WordPair b) :
    WordPair (gfMulNative a b) := by
  obtain ⟨h0, h1, h2, h3⟩ := clmul128_bound a b ha hb
  rw [native_eq]
  exact reduce_bound _ _ _ _ h0 h1 h2 (by decide)

theorem reduce0_add (r0 r1 r2 s0 s1 s2 : Nat) (hr2 : r2 < 2 ^ 64) (hs2 : s2 < 2 ^ 64) :
    gfReduce (r0 ^^^ s0) (r1 ^^^ s1) (r2 ^^^ s2) 0
      = xorB (gfReduce r0 r1 r2 0) (gfReduce s0 s1 s2 0) := by
  have hg : gfPoly < 2 ^ 64 := by decide
  unfold gfReduce
  simp only [clmul64_zero_left, Nat.xor_zero]
  rw [clmul64_comm _ gfPoly (Nat.xor_lt_two_pow hr2 hs2) hg, clmul64_add_right _ _ _ hg hr2 hs2,
    ← clmul64_comm r2 gfPoly hr2 hg, ← clmul64_comm s2 gfPoly hs2 hg]
  unfold xorB
  simp only [Prod.mk.injEq]
  constructor <;> ac_rfl

/-- **C40, the part the native kernel satisfies**: multiplication distributes over xor, on both
sides; this is what the VOLE and OT relations use. -/
theorem gf128_native_distrib_partial (a b c : Blk) (ha : WordPair a) (hb : WordPair b)
    (hc : WordPair c) :
    gfMulNative a (xorB b c) = xorB (gfMulNative a b) (gfMulNative a c) ∧
    gfMulNative a b = gfMulNative b a := by
  constructor
  · obtain ⟨_, _, hb2, _⟩ := clmul128_bound a b ha hb
    obtain ⟨_, _, hc2, _⟩ := clmul128_bound a c ha hc
    rw [native_eq, native_eq, native_eq, ← reduce0_add _ _ _ _ _ _ hb2 hc2]
    unfold clmul128 xorB
    simp only [clmul64_add_right _ _ _ ha.1 hb.1 hc.1, clmul64_add_right _ _ _ ha.1 hb.2 hc.2,
      clmul64_add_right _ _ _ ha.2 hb.1 hc.1, clmul64_add_right _ _ _ ha.2 hb.2 hc.2, xorB]
    congr 1 <;> ac_rfl
  · rw [native_eq, native_eq]
    unfold clmul128
    simp only [clmul64_comm b.1 a.1 hb.1 ha.1, clmul64_comm b.2 a.2 hb.2 ha.2,
      clmul64_comm b.1 a.2 hb.1 ha.2, clmul64_comm b.2 a.1 hb.2 ha.1]
    congr 1 <;> ac_rfl

example : (polyB (3, 0) * polyB (5, 0)).degree < ((192 : ℕ) : WithBot ℕ) ∧
    gfMulNative (3, 0) (5, 0) = (15, 0) := by
  constructor
  · have h1 : (polyB (3, 0)).degree < ((64 : ℕ) : WithBot ℕ) := by
      unfold polyB; simp only [poly_zero, mul_zero, add_zero]; exact poly_degree_lt (by decide)
    have h2 : (polyB (5, 0)).degree < ((64 : ℕ) : WithBot ℕ) := by
      unfold polyB; simp only [poly_zero, mul_zero, add_zero]; exact poly_degree_lt (by decide)
    refine lt_of_le_of_lt (degree_mul_le_of_le h1.le h2.le) ?_
    rw [← Nat.cast_add, Nat.cast_lt]; decide
  · decide +kernel

end Verif.Kern
