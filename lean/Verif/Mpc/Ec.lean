import Mathlib.Algebra.Group.Basic
import Mathlib.Algebra.Module.NatInt
import Mathlib.Data.Nat.Prime.Basic
import Mathlib.RingTheory.Coprime.Lemmas
import Mathlib.RingTheory.Int.Basic
/-
Model of the elliptic curve primitives of the crypto back end
(/repo/mplang/backends/crypto_impl.py:115-270).

The curve group is an arbitrary additive commutative group `A`; `0 : A` is the point at
infinity.  A Python point value is `None` (the identity) or an `ECPointValue`; the model is
`Option A`.  What coincurve does is assumed: `multiply` and `combine` compute in the group and
`combine` raises when the result is the point at infinity.
-/
namespace Verif.Mpc

/-- Exceptions of the curve operations: `combine` with infinite result, and use of bytes that
are not a point. -/
inductive EcErr
  | infinity
  | badPoint
  deriving DecidableEq, Repr

/-- Curve parameters: the constant `N` (crypto_impl.py:122) and the generator
(crypto_impl.py:125-131). -/
structure Curve (A : Type) where
  N : Nat
  G : A

variable {A : Type} [AddCommGroup A]

/-- `mul_impl`. /repo/mplang/backends/crypto_impl.py:134-170 (the scalar is the Python int after
unwrapping). -/
def ecMul (C : Curve A) (p : Option A) (s : Int) : Option A :=
  let s' := s % (C.N : Int)
  if s' = 0 then none
  else match p with
    | none => none
    | some a => some (s' • a)

/-- `PublicKey.combine([p2])`: raises when the sum is the point at infinity. -/
def combine [DecidableEq A] (a b : A) : Except EcErr (Option A) :=
  if a + b = 0 then .error .infinity else .ok (some (a + b))

/-- `add_impl`. /repo/mplang/backends/crypto_impl.py:173-185 -/
def ecAdd [DecidableEq A] (p q : Option A) : Except EcErr (Option A) :=
  match p, q with
  | none, q => .ok q
  | p, none => .ok p
  | some a, some b => combine a b

/-- `sub_impl`: negate by multiplying with `N - 1`.
/repo/mplang/backends/crypto_impl.py:188-209 -/
def ecSub [DecidableEq A] (C : Curve A) (p q : Option A) : Except EcErr (Option A) :=
  match q with
  | none => .ok p
  | some b =>
    let neg := ((C.N : Int) - 1) • b
    match p with
    | none => .ok (some neg)
    | some a => combine a neg

/-- `generator_impl`. /repo/mplang/backends/crypto_impl.py:125-131 -/
def ecGen (C : Curve A) : Option A := some C.G

/-- A point sent as bytes: `point_to_bytes` then `bytes_to_point`
(/repo/mplang/backends/crypto_impl.py:241-270).  The identity becomes 65 zero bytes, which
coincurve rejects when the point is used (modelled as rejected at once; see the note at
`iknpBaseOne`). -/
def viaBytes (p : Option A) : Except EcErr (Option A) :=
  match p with
  | none => .error .badPoint
  | some a => .ok (some a)

/-! ### Meaning in the group -/

/-- The group element a point value stands for. -/
def val : Option A → A
  | none => 0
  | some a => a

/-- Every point object the library hands out is a real point, not the identity. -/
def PtWf (p : Option A) : Prop := ∀ a, p = some a → a ≠ 0

/-- What the theorems assume of the curve: a group of prime order `N`. -/
structure CurveOk (C : Curve A) : Prop where
  prime : C.N.Prime
  order : ∀ a : A, C.N • a = 0
  gen : C.G ≠ 0

theorem val_inj {p q : Option A} (hp : PtWf p) (hq : PtWf q) (h : val p = val q) : p = q := by
  cases p with
  | none =>
    cases q with
    | none => rfl
    | some b => exact absurd h.symm (hq b rfl)
  | some a =>
    cases q with
    | none => exact absurd h (hp a rfl)
    | some b => simpa [val] using h

variable {C : Curve A}

theorem mod_smul (hC : CurveOk C) (s : Int) (a : A) : (s % (C.N : Int)) • a = s • a := by
  have h := hC.order a
  have e : s • a = (s % (C.N : Int)) • a + ((s / (C.N : Int)) * (C.N : Int)) • a := by
    rw [← add_zsmul]; congr 1
    rw [mul_comm]; exact (Int.emod_add_mul_ediv s C.N).symm
  rw [e, mul_zsmul, natCast_zsmul, h, zsmul_zero, add_zero]

theorem zsmul_eq_zero_iff (hC : CurveOk C) {a : A} (ha : a ≠ 0) (s : Int) :
    s • a = 0 ↔ s % (C.N : Int) = 0 := by
  constructor
  · intro h
    by_contra hs
    have hcop : IsCoprime s (C.N : Int) := by
      have hp := (Nat.prime_iff_prime_int).1 hC.prime
      exact ((Prime.coprime_iff_not_dvd hp).2 (fun hd => hs (Int.emod_eq_zero_of_dvd hd))).symm
    obtain ⟨u, v, huv⟩ := hcop
    apply ha
    have : (u * s + v * (C.N : Int)) • a = 0 := by
      rw [add_zsmul, mul_zsmul, mul_zsmul, h, natCast_zsmul, hC.order, zsmul_zero, zsmul_zero,
        add_zero]
    rw [huv, one_zsmul] at this
    exact this
  · intro h
    rw [← mod_smul hC, h, zero_zsmul]

theorem val_mul (hC : CurveOk C) (p : Option A) (s : Int) : val (ecMul C p s) = s • val p := by
  unfold ecMul
  by_cases h : s % (C.N : Int) = 0
  · simp only [h, if_true, val]
    rw [← mod_smul hC, h, zero_zsmul]
  · simp only [h, if_false]
    cases p with
    | none => simp [val]
    | some a => simp only [val]; exact mod_smul hC s a

theorem wf_mul (hC : CurveOk C) {p : Option A} (hp : PtWf p) (s : Int) : PtWf (ecMul C p s) := by
  unfold ecMul
  by_cases h : s % (C.N : Int) = 0
  · intro a ha; simp [h] at ha
  · cases p with
    | none => intro a ha; simp [h] at ha
    | some b =>
      intro a ha
      simp only [h, if_false, Option.some.injEq] at ha
      rw [← ha, Ne, mod_smul hC, zsmul_eq_zero_iff hC (hp b rfl)]
      exact h

theorem wf_gen (hC : CurveOk C) : PtWf (ecGen C) := by
  intro a ha; cases ha; exact hC.gen

theorem val_add [DecidableEq A] {p q x : Option A} (h : ecAdd p q = .ok x) :
    val x = val p + val q := by
  cases p with
  | none => cases h; simp [val]
  | some a =>
    cases q with
    | none => cases h; simp [val]
    | some b =>
      simp only [ecAdd, combine] at h
      split at h
      · cases h
      · cases h; rfl

theorem wf_add [DecidableEq A] {p q x : Option A} (hp : PtWf p) (hq : PtWf q)
    (h : ecAdd p q = .ok x) : PtWf x := by
  cases p with
  | none => cases h; exact hq
  | some a =>
    cases q with
    | none => cases h; exact hp
    | some b =>
      simp only [ecAdd, combine] at h
      split at h
      · cases h
      · cases h; rename_i hne; intro c hc; cases hc; exact hne

theorem neg_smul_one (hC : CurveOk C) (b : A) : ((C.N : Int) - 1) • b = -b := by
  rw [sub_zsmul, natCast_zsmul, hC.order, one_zsmul, zero_add]

theorem val_sub [DecidableEq A] (hC : CurveOk C) {p q x : Option A} (h : ecSub C p q = .ok x) :
    val x = val p - val q := by
  cases q with
  | none => cases h; simp [val]
  | some b =>
    simp only [ecSub] at h
    rw [neg_smul_one hC] at h
    cases p with
    | none => cases h; simp [val]
    | some a =>
      simp only [combine] at h
      split at h
      · cases h
      · cases h; simp [val, sub_eq_add_neg]

theorem wf_sub [DecidableEq A] (hC : CurveOk C) {p q x : Option A} (hp : PtWf p) (hq : PtWf q)
    (h : ecSub C p q = .ok x) : PtWf x := by
  cases q with
  | none => cases h; exact hp
  | some b =>
    simp only [ecSub] at h
    rw [neg_smul_one hC] at h
    cases p with
    | none =>
      cases h; intro c hc; cases hc
      exact neg_ne_zero.2 (hq b rfl)
    | some a =>
      simp only [combine] at h
      split at h
      · cases h
      · cases h; rename_i hne; intro c hc; cases hc; exact hne

/-- Addition raises only when both arguments are real points whose sum is the identity. -/
theorem add_ok [DecidableEq A] {p q : Option A} (h : p = none ∨ q = none ∨ val p + val q ≠ 0) :
    ∃ x, ecAdd p q = .ok x := by
  cases p with
  | none => exact ⟨q, rfl⟩
  | some a =>
    cases q with
    | none => exact ⟨some a, rfl⟩
    | some b =>
      rcases h with h | h | h
      · cases h
      · cases h
      · exact ⟨some (a + b), by simp only [ecAdd, combine]; exact if_neg h⟩

theorem sub_ok [DecidableEq A] (hC : CurveOk C) {p q : Option A}
    (h : p = none ∨ q = none ∨ val p ≠ val q) : ∃ x, ecSub C p q = .ok x := by
  cases q with
  | none => exact ⟨p, rfl⟩
  | some b =>
    simp only [ecSub]
    rw [neg_smul_one hC]
    cases p with
    | none => exact ⟨some (-b), rfl⟩
    | some a =>
      rcases h with h | h | h
      · cases h
      · cases h
      · refine ⟨some (a + -b), ?_⟩
        simp only [combine]
        exact if_neg (by rw [← sub_eq_add_neg]; exact sub_ne_zero.2 h)

end Verif.Mpc
