import Verif.Sgb.Train
import Mathlib.Data.Real.Basic
import Mathlib.Order.WithBot
import Mathlib.Tactic.Linarith
import Mathlib.Tactic.Positivity
import Mathlib.Tactic.NormNum
import Mathlib.Tactic.FieldSimp
import Mathlib.Data.Nat.Cast.Order.Field
/-!
# SecureBoost: equal-width bins (libs/ml/sgb.py:133-154): property C103

Feature values are reals, `jnp.inf` is the top element.
-/
namespace Verif.Sgb.Bins
open Verif.Sgb

/-- `jnp.min` of a non-empty vector -/
noncomputable def minL : ℝ → List ℝ → ℝ
  | a, [] => a
  | a, b :: r => min a (minL b r)

/-- `jnp.max` of a non-empty vector -/
noncomputable def maxL : ℝ → List ℝ → ℝ
  | a, [] => a
  | a, b :: r => max a (maxL b r)

/-- `jnp.linspace(lo, hi, num=n + 1)[1:-1]`: the inner points of `n` equal steps -/
noncomputable def innerPoints (lo hi : ℝ) (n : Nat) : List ℝ := (List.range (n - 1)).map fun j : Nat => lo + ((j : ℝ) + 1) * ((hi - lo) / n)

open Classical in
/-- `build_bins_equi_width` (sgb.py:133-148) for the values `a :: r` of a feature -/
noncomputable def buildBins (a : ℝ) (r : List ℝ) (maxBin : Nat) : List (WithTop ℝ) :=
  if (a :: r).length ≥ 2 then
    (if maxL a r - minL a r < 1 / 10 ^ 9 then List.replicate (maxBin - 1) ⊤
     else (innerPoints (minL a r) (maxL a r) maxBin).map fun x => ((x : ℝ) : WithTop ℝ))
  else List.replicate (maxBin - 1) ⊤

/-- `compute_bin_indices` (sgb.py:151-154) of one value -/
noncomputable def binOf (bins : List (WithTop ℝ)) (x : ℝ) : Nat := digitize bins ((x : ℝ) : WithTop ℝ)

theorem minL_le : ∀ (a : ℝ) (r : List ℝ), ∀ x ∈ a :: r, minL a r ≤ x
  | a, [], x, h => by rw [List.mem_singleton.1 h]; exact le_refl _
  | a, b :: r, x, h => by
    unfold minL
    rcases List.mem_cons.1 h with rfl | h
    · exact min_le_left _ _
    · exact le_trans (min_le_right _ _) (minL_le b r x h)

theorem le_maxL : ∀ (a : ℝ) (r : List ℝ), ∀ x ∈ a :: r, x ≤ maxL a r
  | a, [], x, h => by rw [List.mem_singleton.1 h]; exact le_refl _
  | a, b :: r, x, h => by
    unfold maxL
    rcases List.mem_cons.1 h with rfl | h
    · exact le_max_left _ _
    · exact le_trans (le_maxL b r x h) (le_max_right _ _)

theorem minL_mem : ∀ (a : ℝ) (r : List ℝ), minL a r ∈ a :: r
  | a, [] => List.mem_singleton.2 rfl
  | a, b :: r => by
    unfold minL
    rcases min_choice a (minL b r) with h | h
    · rw [h]; exact List.mem_cons_self
    · rw [h]; exact List.mem_cons_of_mem _ (minL_mem b r)

theorem maxL_mem : ∀ (a : ℝ) (r : List ℝ), maxL a r ∈ a :: r
  | a, [] => List.mem_singleton.2 rfl
  | a, b :: r => by
    unfold maxL
    rcases max_choice a (maxL b r) with h | h
    · rw [h]; exact List.mem_cons_self
    · rw [h]; exact List.mem_cons_of_mem _ (maxL_mem b r)

/-- The two cases of the construction. -/
theorem bins_cases (a : ℝ) (r : List ℝ) (maxBin : Nat) :
    buildBins a r maxBin = List.replicate (maxBin - 1) ⊤ ∨
    (1 / 10 ^ 9 ≤ maxL a r - minL a r ∧
      buildBins a r maxBin = (innerPoints (minL a r) (maxL a r) maxBin).map fun x => ((x : ℝ) : WithTop ℝ)) := by
  unfold buildBins
  split
  · split
    · exact Or.inl rfl
    · next h => exact Or.inr ⟨not_lt.1 h, rfl⟩
  · exact Or.inl rfl

theorem varied_bins (a : ℝ) (r : List ℝ) (maxBin : Nat) (hv : 1 / 10 ^ 9 ≤ maxL a r - minL a r) :
    buildBins a r maxBin = (innerPoints (minL a r) (maxL a r) maxBin).map fun x => ((x : ℝ) : WithTop ℝ) := by
  unfold buildBins
  have hr : r ≠ [] := by
    rintro rfl
    simp only [maxL, minL, sub_self] at hv
    norm_num at hv
  have hl : (a :: r).length ≥ 2 := by
    have : 0 < r.length := List.length_pos_iff.2 hr
    simp only [List.length_cons]
    omega
  rw [if_pos hl, if_neg (not_lt.2 hv)]

theorem inner_pairwise (lo hi : ℝ) (n : Nat) (h : lo ≤ hi) : (innerPoints lo hi n).Pairwise (· ≤ ·) := by
  unfold innerPoints
  rw [List.pairwise_map]
  refine List.Pairwise.imp ?_ List.pairwise_lt_range
  intro i j hij
  have h1 : (i : ℝ) ≤ j := by exact_mod_cast hij.le
  have h2 : 0 ≤ (hi - lo) / n := div_nonneg (by linarith) (by positivity)
  have := mul_le_mul_of_nonneg_right h1 h2
  linarith

/-- **C103** There are `max_bin - 1` boundaries, in increasing order, so every value has a bin below `max_bin`, and a larger value
never has a smaller bin. -/
theorem bins_ordered (a : ℝ) (r : List ℝ) (maxBin : Nat) (hb : 2 ≤ maxBin) :
    (buildBins a r maxBin).length = maxBin - 1 ∧ (buildBins a r maxBin).Pairwise (· ≤ ·) ∧
      (∀ x, binOf (buildBins a r maxBin) x < maxBin) ∧
      ∀ x x', x ≤ x' → binOf (buildBins a r maxBin) x ≤ binOf (buildBins a r maxBin) x' := by
  have hlen : (buildBins a r maxBin).length = maxBin - 1 := by
    rcases bins_cases a r maxBin with h | ⟨_, h⟩ <;> rw [h] <;> simp [innerPoints]
  refine ⟨hlen, ?_, ?_, ?_⟩
  · rcases bins_cases a r maxBin with h | ⟨hv, h⟩
    · rw [h]
      exact List.pairwise_replicate.2 (Or.inr (le_refl _))
    · rw [h, List.pairwise_map]
      have h0 : minL a r ≤ maxL a r := by
        have : (0 : ℝ) < 1 / 10 ^ 9 := by norm_num
        linarith
      exact (inner_pairwise _ _ _ h0).imp fun hxy => WithTop.coe_le_coe.2 hxy
  · intro x
    have : binOf (buildBins a r maxBin) x ≤ (buildBins a r maxBin).length := List.length_filter_le _ _
    omega
  · intro x x' h
    unfold binOf digitize
    have hsub := List.monotone_filter_right (buildBins a r maxBin) (p := fun b => decide (b < ((x : ℝ) : WithTop ℝ)))
      (q := fun b => decide (b < ((x' : ℝ) : WithTop ℝ))) (by
        intro b hb
        rw [decide_eq_true_eq] at hb ⊢
        exact lt_of_lt_of_le hb (WithTop.coe_le_coe.2 h))
    exact hsub.length_le

theorem inner_get (lo hi : ℝ) (n t : Nat) (ht : t < ((innerPoints lo hi n).map fun x => ((x : ℝ) : WithTop ℝ)).length) :
    ((innerPoints lo hi n).map fun x => ((x : ℝ) : WithTop ℝ))[t] = ((lo + (t + 1) * ((hi - lo) / n) : ℝ) : WithTop ℝ) := by
  simp [innerPoints]

/-- **C103** Bin `k` of a feature that varies is the `k`-th of `max_bin` equal intervals between its smallest and its largest
value: half open on the left, the first one closed. -/
theorem bin_interval (a : ℝ) (r : List ℝ) (maxBin : Nat) (hb : 2 ≤ maxBin) (hv : 1 / 10 ^ 9 ≤ maxL a r - minL a r)
    (x : ℝ) (hx : x ∈ a :: r) (k : Nat) :
    binOf (buildBins a r maxBin) x = k ↔
      k < maxBin ∧ (k = 0 ∨ minL a r + k * ((maxL a r - minL a r) / maxBin) < x) ∧
        x ≤ minL a r + (k + 1) * ((maxL a r - minL a r) / maxBin) := by
  obtain ⟨hlen, hsort, hlt, _⟩ := bins_ordered a r maxBin hb
  have hw : 0 < (maxL a r - minL a r) / maxBin := by
    have h1 : (0 : ℝ) < 1 / 10 ^ 9 := by norm_num
    have h2 : (0 : ℝ) < maxBin := by exact_mod_cast (by omega : 0 < maxBin)
    exact div_pos (by linarith) h2
  have hmul : (maxBin : ℝ) * ((maxL a r - minL a r) / maxBin) = maxL a r - minL a r := by
    have h2 : (maxBin : ℝ) ≠ 0 := by exact_mod_cast (by omega : maxBin ≠ 0)
    field_simp
  have key : ∀ t, t < maxBin - 1 →
      (binOf (buildBins a r maxBin) x ≤ t ↔ x ≤ minL a r + (t + 1) * ((maxL a r - minL a r) / maxBin)) := by
    intro t ht
    unfold binOf
    rw [digitize_le hsort _ t (by omega)]
    have e := varied_bins a r maxBin hv
    simp only [e]
    rw [inner_get, WithTop.coe_le_coe]
  have hxm := le_maxL a r x hx
  constructor
  · intro he
    have hk : k < maxBin := he ▸ hlt x
    refine ⟨hk, ?_, ?_⟩
    · by_cases h0 : k = 0
      · exact Or.inl h0
      · right
        obtain ⟨t, rfl⟩ : ∃ t, k = t + 1 := ⟨k - 1, by omega⟩
        have := (key t (by omega)).not.1 (by omega)
        push_cast
        exact not_le.1 this
    · by_cases hl : k < maxBin - 1
      · exact (key k hl).1 (by omega)
      · have : (k : ℝ) + 1 = maxBin := by
          have : k + 1 = maxBin := by omega
          exact_mod_cast this
        rw [this, hmul]
        linarith
  · rintro ⟨hk, h1, h2⟩
    have hle : binOf (buildBins a r maxBin) x ≤ k := by
      by_cases hl : k < maxBin - 1
      · exact (key k hl).2 h2
      · have := hlt x
        omega
    have hge : k ≤ binOf (buildBins a r maxBin) x := by
      rcases h1 with h1 | h1
      · omega
      · by_contra hc
        obtain ⟨t, rfl⟩ : ∃ t, k = t + 1 := ⟨k - 1, by omega⟩
        have := (key t (by omega)).1 (by omega)
        push_cast at h1
        linarith
    omega

/-- **C103** Of a feature that varies, the smallest value is in the first and the largest in the last bin: there is a split that
separates samples. -/
theorem extremes_separated (a : ℝ) (r : List ℝ) (maxBin : Nat) (hb : 2 ≤ maxBin) (hv : 1 / 10 ^ 9 ≤ maxL a r - minL a r) :
    binOf (buildBins a r maxBin) (minL a r) = 0 ∧ binOf (buildBins a r maxBin) (maxL a r) = maxBin - 1 := by
  have h1 : (0 : ℝ) < 1 / 10 ^ 9 := by norm_num
  have h2 : (0 : ℝ) < maxBin := by exact_mod_cast (by omega : 0 < maxBin)
  have hw : 0 < (maxL a r - minL a r) / maxBin := div_pos (by linarith) h2
  have hmul : (maxBin : ℝ) * ((maxL a r - minL a r) / maxBin) = maxL a r - minL a r := by
    have h2 : (maxBin : ℝ) ≠ 0 := h2.ne'
    field_simp
  constructor
  · refine (bin_interval a r maxBin hb hv _ (minL_mem a r) 0).2 ⟨by omega, Or.inl rfl, ?_⟩
    push_cast
    linarith
  · have hc : ((maxBin - 1 : ℕ) : ℝ) = maxBin - 1 := by
      rw [Nat.cast_sub (by omega)]; norm_num
    refine (bin_interval a r maxBin hb hv _ (maxL_mem a r) (maxBin - 1)).2 ⟨by omega, Or.inr ?_, ?_⟩
    · rw [hc, sub_mul, hmul]
      linarith
    · rw [hc, show (maxBin : ℝ) - 1 + 1 = maxBin by ring, hmul]
      linarith

/-- **C103** All values of a constant feature share bin 0, whose boundary no value exceeds. -/
theorem constant_feature (a : ℝ) (r : List ℝ) (maxBin : Nat) (hc : maxL a r - minL a r < 1 / 10 ^ 9) (x : ℝ) :
    binOf (buildBins a r maxBin) x = 0 := by
  have : buildBins a r maxBin = List.replicate (maxBin - 1) ⊤ := by
    rcases bins_cases a r maxBin with h | ⟨hv, _⟩
    · exact h
    · exact absurd hc (not_lt.2 hv)
  rw [this]
  unfold binOf digitize
  rw [List.length_eq_zero_iff, List.filter_eq_nil_iff]
  intro b hb
  rw [(List.mem_replicate.1 hb).2]
  simp

/-- **C103** Binning is blind to the unit of measurement: shifting a feature and scaling it by a positive factor leaves every
sample's bin, as long as the feature is not taken for a constant in either unit. -/
theorem bins_affine (a : ℝ) (r : List ℝ) (maxBin : Nat) (hb : 2 ≤ maxBin) (u v : ℝ) (hu : 0 < u)
    (hv : 1 / 10 ^ 9 ≤ maxL a r - minL a r) (hv' : 1 / 10 ^ 9 ≤ u * (maxL a r - minL a r)) (x : ℝ) (hx : x ∈ a :: r) :
    binOf (buildBins (u * a + v) (r.map fun z => u * z + v) maxBin) (u * x + v) = binOf (buildBins a r maxBin) x := by
  have hmin : ∀ (r : List ℝ) (a : ℝ), minL (u * a + v) (r.map fun z => u * z + v) = u * minL a r + v := by
    intro r
    induction r with
    | nil => intro a; rfl
    | cons b s ih =>
      intro a
      simp only [List.map_cons, minL, ih]
      rcases le_total a (minL b s) with h | h
      · rw [min_eq_left h, min_eq_left]
        have := mul_le_mul_of_nonneg_left h hu.le
        linarith
      · rw [min_eq_right h, min_eq_right]
        have := mul_le_mul_of_nonneg_left h hu.le
        linarith
  have hmax : ∀ (r : List ℝ) (a : ℝ), maxL (u * a + v) (r.map fun z => u * z + v) = u * maxL a r + v := by
    intro r
    induction r with
    | nil => intro a; rfl
    | cons b s ih =>
      intro a
      simp only [List.map_cons, maxL, ih]
      rcases le_total a (maxL b s) with h | h
      · rw [max_eq_right h, max_eq_right]
        have := mul_le_mul_of_nonneg_left h hu.le
        linarith
      · rw [max_eq_left h, max_eq_left]
        have := mul_le_mul_of_nonneg_left h hu.le
        linarith
  have hd : maxL (u * a + v) (r.map fun z => u * z + v) - minL (u * a + v) (r.map fun z => u * z + v) = u * (maxL a r - minL a r) := by
    rw [hmin, hmax]; ring
  have hmem : u * x + v ∈ (u * a + v) :: r.map fun z => u * z + v := by
    have : (u * a + v) :: r.map (fun z => u * z + v) = (a :: r).map fun z => u * z + v := rfl
    rw [this]
    exact List.mem_map.2 ⟨x, hx, rfl⟩
  have hk := (bin_interval a r maxBin hb hv x hx (binOf (buildBins a r maxBin) x)).1 rfl
  refine (bin_interval (u * a + v) _ maxBin hb (by rw [hd]; exact hv') _ hmem _).2 ⟨hk.1, ?_, ?_⟩
  · rcases hk.2.1 with h | h
    · exact Or.inl h
    · right
      rw [hd, hmin]
      have := mul_lt_mul_of_pos_left h hu
      have e : u * (minL a r + (binOf (buildBins a r maxBin) x : ℝ) * ((maxL a r - minL a r) / maxBin)) =
        u * minL a r + (binOf (buildBins a r maxBin) x : ℝ) * (u * (maxL a r - minL a r) / maxBin) := by ring
      linarith
  · rw [hd, hmin]
    have := mul_le_mul_of_nonneg_left hk.2.2 hu.le
    have e : u * (minL a r + ((binOf (buildBins a r maxBin) x : ℝ) + 1) * ((maxL a r - minL a r) / maxBin)) =
      u * minL a r + ((binOf (buildBins a r maxBin) x : ℝ) + 1) * (u * (maxL a r - minL a r) / maxBin) := by ring
    linarith

/-- non-vacuity: four values in eight bins; the value 3 of 0..8 is the right end of the third interval -/
example : (1 / 10 ^ 9 : ℝ) ≤ maxL 0 [3, 8, 5] - minL 0 [3, 8, 5] := by
  unfold maxL maxL maxL maxL minL minL minL minL; norm_num

example : binOf (buildBins 0 [3, 8, 5] 8) 3 = 2 := by
  have hm : minL 0 [3, 8, 5] = 0 := by unfold minL minL minL minL; norm_num
  have hM : maxL 0 [3, 8, 5] = 8 := by unfold maxL maxL maxL maxL; norm_num
  refine (bin_interval 0 [3, 8, 5] 8 (by omega) (by rw [hm, hM]; norm_num) 3 (by simp) 2).2 ⟨by omega, Or.inr ?_, ?_⟩ <;>
    rw [hm, hM] <;> norm_num

example : maxL (7 : ℝ) [7, 7] - minL 7 [7, 7] < 1 / 10 ^ 9 := by unfold maxL maxL maxL minL minL minL; norm_num

end Verif.Sgb.Bins
