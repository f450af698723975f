import Verif.Sgb.Pack
import Verif.Sgb.Hist
/-!
# C75 — how many slots of a bucket are added up (mplang/libs/ml/sgb.py)

`fhe_histogram_optimized` estimates how many samples a bucket has: twice the average, at least 64. Samples beyond that are not counted.
-/
namespace Verif.Sgb
open Finset Verif.Mpc

/-- `max_samples_per_bucket` of `fhe_histogram_optimized`. /repo/mplang/libs/ml/sgb.py:632-635 -/
def samplesPerBucket (m nChunks nBuckets stride : Nat) : Nat := min stride (max ((m + nChunks - 1) / nChunks / nBuckets * 2) 64)

section
variable {α : Type} [CommRing α]

/-- **C75** (number of samples) What bucket `b` receives when it has any number of samples up to its region: the slots of the region up to
the number of its samples, but no more than the estimated number rounded up to a power of two. -/
theorem enc_hist_window (r samples stride b row c : Nat) (g : Nat → α) (valid : Nat → Bool) (bin : Nat → Nat)
    (hs : 1 ≤ samples) (hfit : 2 ^ Nat.clog 2 samples ≤ stride) (hcount : ∀ b, countUpTo valid bin b (2 * 2 ^ r) ≤ stride)
    (hpos : b * stride = row * 2 ^ r + c) (hw : c + 2 ^ Nat.clog 2 samples ≤ 2 ^ r) :
    ∃ y, encHist (2 ^ r) samples stride (2 * 2 ^ r) g valid bin = .ok y ∧
      y (b * stride) = ∑ j ∈ range (min (countUpTo valid bin b (2 * 2 ^ r)) (2 ^ Nat.clog 2 samples)), g (b * stride + j) := by
  have hle : samples ≤ 2 ^ Nat.clog 2 samples := Nat.le_pow_clog (by omega) samples
  have hval : ∀ j, j < stride → g (b * stride + j) * packedMask valid bin stride (2 * 2 ^ r) (b * stride + j) =
      if j < countUpTo valid bin b (2 * 2 ^ r) then g (b * stride + j) else 0 := by
    intro j hj
    rw [mask_value hcount b j hj]
    split
    · rw [mul_one]
    · rw [mul_zero]
  have hcl : Nat.clog 2 (2 ^ Nat.clog 2 samples) = Nat.clog 2 samples := Nat.clog_pow 2 _ (by omega)
  obtain ⟨y, hy, hv⟩ := bucket_aggregate_partial r (2 ^ Nat.clog 2 samples) row c
    (fun p => g p * packedMask valid bin stride (2 * 2 ^ r) p) (by omega) (by rw [hcl]; exact hw) (by rw [hcl]; omega)
  have hsame : bucketAggregate (2 ^ r) (2 ^ Nat.clog 2 samples) (fun p => g p * packedMask valid bin stride (2 * 2 ^ r) p) =
      bucketAggregate (2 ^ r) samples (fun p => g p * packedMask valid bin stride (2 * 2 ^ r) p) := by
    rw [Pack.window_total _ _ (Nat.two_pow_pos r) (by omega), Pack.window_total _ _ (Nat.two_pow_pos r) (by omega)]
    unfold Pack.window
    rw [hcl]
  rw [hsame] at hy
  refine ⟨y, hy, ?_⟩
  rw [hpos, hv, ← hpos]
  rw [← sum_subset (range_subset_range.2 (Nat.min_le_right (countUpTo valid bin b (2 * 2 ^ r)) (2 ^ Nat.clog 2 samples)))
    (f := fun q => g (b * stride + q) * packedMask valid bin stride (2 * 2 ^ r) (b * stride + q))]
  · refine sum_congr rfl fun j hj => ?_
    have hj' := mem_range.1 hj
    rw [hval j (by omega), if_pos (by omega)]
  · intro j h1 h2
    have h1' := mem_range.1 h1
    rw [hval j (by omega), if_neg (fun h => h2 (mem_range.2 (by omega)))]

theorem count_le (valid : Nat → Bool) (bin : Nat → Nat) (b n : Nat) : countUpTo valid bin b n ≤ n := by
  induction n with
  | zero => simp [countUpTo]
  | succ n ih => unfold countUpTo; split <;> omega

theorem count_first (m n : Nat) (hn : m ≤ n) : countUpTo (fun s => decide (s < m)) (fun _ => 0) 0 n = m := by
  have : ∀ n, countUpTo (fun s => decide (s < m)) (fun _ => 0) 0 n = min m n := by
    intro n
    induction n with
    | zero => simp [countUpTo]
    | succ n ih =>
      rw [countUpTo, ih]
      by_cases h : n < m
      · rw [if_pos ⟨by simpa using h, rfl⟩]; omega
      · rw [if_neg (by simpa using h)]; omega
  rw [this]; omega

theorem count_other (m n b : Nat) (hb : b ≠ 0) : countUpTo (fun s => decide (s < m)) (fun _ => 0) b n = 0 := by
  induction n with
  | zero => rfl
  | succ n ih => rw [countUpTo, ih, if_neg (fun h => hb h.2.symm)]

/-- **C75** (violated: skewed features) With the default nine buckets in 8192 slots and one chunk of `m` samples (257 to 910) that all fall
in the first bucket, the bucket's sum takes in at most 256 of them: if all gradients are 1 it reports the estimate, not `m`. The samples
lie where the mask expects them, so this is a second defect, independent of the first (`enc_hist_violated`). -/
theorem skewed_bucket_violated (m : Nat) (h1 : 257 ≤ m) (h2 : m ≤ 910) :
    ∃ (y : Nat → ZMod 1032193) (k : Nat), encHist (2 ^ 12) (samplesPerBucket m 1 9 910) 910 (2 * 2 ^ 12) (fun s => if s < m then 1 else 0)
        (fun s => decide (s < m)) (fun _ => 0) = .ok y ∧ y 0 = k ∧ k ≤ 256 ∧
      bucketSum (2 * 2 ^ 12) (fun s => if s < m then (1 : ZMod 1032193) else 0) (fun s => decide (s < m)) (fun _ => 0) 0 = m ∧ y 0 ≠ m := by
  have hsp : samplesPerBucket m 1 9 910 ≤ 256 ∧ 1 ≤ samplesPerBucket m 1 9 910 := by unfold samplesPerBucket; omega
  have hcl : 2 ^ Nat.clog 2 (samplesPerBucket m 1 9 910) ≤ 256 := by
    have : Nat.clog 2 (samplesPerBucket m 1 9 910) ≤ 8 := by
      have h := Nat.clog_mono_right 2 hsp.1
      rwa [show (256 : Nat) = 2 ^ 8 from rfl, Nat.clog_pow 2 8 (by omega)] at h
    exact Nat.pow_le_pow_right (by omega) this
  have hcount : ∀ b, countUpTo (fun s => decide (s < m)) (fun _ => 0) b (2 * 2 ^ 12) ≤ 910 := by
    intro b
    by_cases hb : b = 0
    · rw [hb, count_first m _ (by omega)]; exact h2
    · rw [count_other m _ b hb]; omega
  obtain ⟨y, hy, hv⟩ := enc_hist_window 12 (samplesPerBucket m 1 9 910) 910 0 0 0 (fun s => if s < m then (1 : ZMod 1032193) else 0)
    (fun s => decide (s < m)) (fun _ => 0) hsp.2 (by omega) hcount (by omega) (by omega)
  have hk : y 0 = ((2 ^ Nat.clog 2 (samplesPerBucket m 1 9 910) : Nat) : ZMod 1032193) := by
    rw [count_first m _ (by omega), Nat.min_eq_right (by omega)] at hv
    simp only [Nat.zero_mul, Nat.zero_add] at hv
    rw [hv, sum_congr rfl (g := fun _ => (1 : ZMod 1032193)) (fun j hj => if_pos (by have := mem_range.1 hj; omega))]
    simp
  have hbs : bucketSum (2 * 2 ^ 12) (fun s => if s < m then (1 : ZMod 1032193) else 0) (fun s => decide (s < m)) (fun _ => 0) 0 = m := by
    unfold bucketSum
    have e : ∀ s ∈ range (2 * 2 ^ 12), (if decide (s < m) = true ∧ (0 : Nat) = 0 then (if s < m then (1 : ZMod 1032193) else 0) else 0) =
        if s ∈ range m then 1 else 0 := by
      intro s _
      by_cases h : s < m <;> simp [h]
    rw [sum_congr rfl e, ← sum_filter, filter_mem_eq_inter, inter_eq_right.2 (range_subset_range.2 (by omega))]
    simp
  refine ⟨y, _, hy, hk, hcl, hbs, ?_⟩
  rw [hk]
  intro h
  have := (ZMod.natCast_eq_natCast_iff' _ _ _).1 h
  rw [Nat.mod_eq_of_lt (by omega), Nat.mod_eq_of_lt (by omega)] at this
  omega

/-- **C75** (partial: balanced features) When the samples lie where the mask expects them and no bucket has more than twice the average
number of samples of a chunk (or 64), bucket `b` holds the sum of the node's samples in it. -/
theorem enc_hist_balanced_partial (r m nChunks nBuckets stride b row c : Nat) (g : Nat → α) (valid : Nat → Bool) (bin : Nat → Nat)
    (hst : 1 ≤ stride) (hfit : 2 ^ Nat.clog 2 (samplesPerBucket m nChunks nBuckets stride) ≤ stride)
    (hcount : ∀ b, countUpTo valid bin b (2 * 2 ^ r) ≤ max ((m + nChunks - 1) / nChunks / nBuckets * 2) 64)
    (hin : ∀ b, countUpTo valid bin b (2 * 2 ^ r) ≤ stride)
    (hpos : b * stride = row * 2 ^ r + c) (hw : c + 2 ^ Nat.clog 2 (samplesPerBucket m nChunks nBuckets stride) ≤ 2 ^ r)
    (hal : ∀ s, s < 2 * 2 ^ r → valid s = true → scatterIdx valid bin stride s = s) :
    ∃ y, encHist (2 ^ r) (samplesPerBucket m nChunks nBuckets stride) stride (2 * 2 ^ r) g valid bin = .ok y ∧
      y (b * stride) = bucketSum (2 * 2 ^ r) g valid bin b :=
  enc_hist_aligned_partial r _ stride b row c g valid bin (by unfold samplesPerBucket; omega) hfit
    (fun b => by unfold samplesPerBucket; have := hcount b; have := hin b; omega) hpos hw hal

end

/-- 60 samples in the first bucket meet the bounds of `enc_hist_balanced_partial`. -/
example : (∀ b, countUpTo (fun s => decide (s < 60)) (fun _ => 0) b (2 * 2 ^ 12) ≤ max ((60 + 1 - 1) / 1 / 9 * 2) 64) ∧
    samplesPerBucket 60 1 9 910 = 64 ∧ samplesPerBucket 900 1 9 910 = 200 := by
  refine ⟨fun b => ?_, by decide, by decide⟩
  by_cases hb : b = 0
  · rw [hb, count_first 60 _ (by omega)]; decide
  · rw [count_other 60 _ b hb]; omega

end Verif.Sgb
