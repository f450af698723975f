import Verif.Sgb.Split
import Verif.Mpc.Aggregate
/-!
# SecureBoost histograms of the passive parties (libs/ml/sgb.py): properties C75 and C77
-/
namespace Verif.Sgb
open Finset

/-! ## Histogram subtraction (C77) -/

/-- `derive_right_and_combine` (sgb.py:955-965) level by level: even nodes take the histogram just decrypted, odd nodes the
difference to the parent's.  `left L i` is what is decrypted for node `i` of level `L` (`root` level included, sgb.py:889-920). -/
def ppLevel (left : Nat → Nat → Hist) : Nat → Nat → Hist
  | 0, i => left 0 i
  | L + 1, i => if i % 2 = 0 then left (L + 1) i else fun f b =>
      ((ppLevel left L (i / 2) f b).1 - (left (L + 1) (i - 1) f b).1, (ppLevel left L (i / 2) f b).2 - (left (L + 1) (i - 1) f b).2)

/-- Specification: running sums over the samples that are in node `i` of level `L`; `bt L s` is the sample's node (numbered over the
whole tree) when level `L` is processed. -/
def trueCum (m : Nat) (gh : Nat → ℚ × ℚ) (bt : Nat → Nat → Nat) (bins : Nat → Nat → Nat) (L i : Nat) : Hist := fun f b =>
  (∑ s ∈ range m, if bt L s = 2 ^ L - 1 + i ∧ bins s f ≤ b then (gh s).1 else 0,
   ∑ s ∈ range m, if bt L s = 2 ^ L - 1 + i ∧ bins s f ≤ b then (gh s).2 else 0)

/-- What `update_bt` and `merge_bt_updates` do to a sample (see `Verif.Sgb.Train`): it stays in a leaf, otherwise it moves to a child. -/
structure Routed (leaf : Nat → Bool) (bt : Nat → Nat → Nat) (m : Nat) : Prop where
  root : ∀ s, s < m → bt 0 s = 0
  stay : ∀ L s, s < m → leaf (bt L s) = true → bt (L + 1) s = bt L s
  move : ∀ L s, s < m → leaf (bt L s) = false → bt (L + 1) s = 2 * bt L s + 1 ∨ bt (L + 1) s = 2 * bt L s + 2

/-- A node of a level none of whose ancestors is a leaf: the nodes a sample can be in. -/
def Live (leaf : Nat → Bool) : Nat → Nat → Prop
  | 0, _ => True
  | L + 1, i => leaf (2 ^ L - 1 + i / 2) = false ∧ Live leaf L (i / 2)

theorem routed_range {leaf : Nat → Bool} {bt : Nat → Nat → Nat} {m : Nat} (h : Routed leaf bt m) {s : Nat} (hs : s < m) :
    ∀ L, bt L s < 2 ^ (L + 1) - 1
  | 0 => by rw [h.root s hs]; decide
  | L + 1 => by
    have ih := routed_range h hs L
    have h1 := pow_pred L
    have h2 := pow_pred (L + 1)
    cases hl : leaf (bt L s) with
    | true => rw [h.stay L s hs hl]; omega
    | false => rcases h.move L s hs hl with e | e <;> omega

theorem parent_split {leaf : Nat → Bool} {bt : Nat → Nat → Nat} {m : Nat} (h : Routed leaf bt m) {s L j : Nat} (hs : s < m)
    (hj : j < 2 ^ L) (hl : leaf (2 ^ L - 1 + j) = false) (v : ℚ) (q : Prop) [Decidable q] :
    (if bt L s = 2 ^ L - 1 + j ∧ q then v else 0) =
      (if bt (L + 1) s = 2 ^ (L + 1) - 1 + 2 * j ∧ q then v else 0) + (if bt (L + 1) s = 2 ^ (L + 1) - 1 + (2 * j + 1) ∧ q then v else 0) := by
  have h1 := pow_pred L
  have hr := routed_range h hs L
  have key : (bt L s = 2 ^ L - 1 + j ↔ (bt (L + 1) s = 2 ^ (L + 1) - 1 + 2 * j ∨ bt (L + 1) s = 2 ^ (L + 1) - 1 + (2 * j + 1))) := by
    constructor
    · intro e
      have := h.move L s hs (by rw [e]; exact hl)
      rcases this with e' | e' <;> [left; right] <;> omega
    · intro e
      cases hl' : leaf (bt L s) with
      | true => rw [h.stay L s hs hl'] at e; omega
      | false => rcases h.move L s hs hl' with e' | e' <;> omega
  have excl : ¬ (bt (L + 1) s = 2 ^ (L + 1) - 1 + 2 * j ∧ bt (L + 1) s = 2 ^ (L + 1) - 1 + (2 * j + 1)) := by omega
  by_cases hq : q
  · simp only [hq, and_true]
    by_cases e1 : bt (L + 1) s = 2 ^ (L + 1) - 1 + 2 * j
    · rw [if_pos (key.2 (Or.inl e1)), if_pos e1, if_neg (by omega), add_zero]
    · by_cases e2 : bt (L + 1) s = 2 ^ (L + 1) - 1 + (2 * j + 1)
      · rw [if_pos (key.2 (Or.inr e2)), if_neg e1, if_pos e2, zero_add]
      · rw [if_neg (fun c => (key.1 c).elim e1 e2), if_neg e1, if_neg e2, add_zero]
  · simp [hq]

/-- **C77**: if the decrypted histograms of the left children are right, the histogram of every node that samples can be in,
derived by subtraction, is the histogram of the samples in it, at every level. -/
theorem subtraction_correct (m nf nb : Nat) (gh : Nat → ℚ × ℚ) (bt bins : Nat → Nat → Nat) (leaf : Nat → Bool) (left : Nat → Nat → Hist)
    (hr : Routed leaf bt m)
    (hleft : ∀ L i f b, i < 2 ^ L → i % 2 = 0 → f < nf → b < nb → left L i f b = trueCum m gh bt bins L i f b) :
    ∀ L i f b, i < 2 ^ L → Live leaf L i → f < nf → b < nb → ppLevel left L i f b = trueCum m gh bt bins L i f b
  | 0, i, f, b, hi, _, hf, hb => hleft 0 i f b hi (by simp at hi; subst hi; rfl) hf hb
  | L + 1, i, f, b, hi, hlive, hf, hb => by
    unfold ppLevel
    split
    · next he => exact hleft _ _ _ _ hi he hf hb
    · next ho =>
      have h2 : 2 ^ (L + 1) = 2 * 2 ^ L := by rw [Nat.pow_succ]; omega
      obtain ⟨j, rfl⟩ : ∃ j, i = 2 * j + 1 := ⟨i / 2, by omega⟩
      have hj : j < 2 ^ L := by omega
      have e1 : (2 * j + 1) / 2 = j := by omega
      have e2 : 2 * j + 1 - 1 = 2 * j := by omega
      unfold Live at hlive
      rw [e1] at hlive ⊢
      rw [e2]
      beta_reduce
      rw [subtraction_correct m nf nb gh bt bins leaf left hr hleft L j f b hj hlive.2 hf hb,
        hleft (L + 1) (2 * j) f b (by omega) (by omega) hf hb]
      unfold trueCum
      refine Prod.ext ?_ ?_
      · simp only
        rw [sub_eq_iff_eq_add', ← sum_add_distrib]
        exact sum_congr rfl fun s hs => parent_split hr (mem_range.1 hs) hj hlive.1 _ _
      · simp only
        rw [sub_eq_iff_eq_add', ← sum_add_distrib]
        exact sum_congr rfl fun s hs => parent_split hr (mem_range.1 hs) hj hlive.1 _ _

/-- Below a leaf the derived histogram is wrong: the right child of a leaf inherits the leaf's whole histogram although no sample
is in it.  No sample reaches such a node, so neither training nor prediction is affected. -/
theorem subtraction_below_leaf (m : Nat) (gh : Nat → ℚ × ℚ) (bt bins : Nat → Nat → Nat) (leaf : Nat → Bool) (left : Nat → Nat → Hist)
    (hr : Routed leaf bt m) (L j f b : Nat) (hj : j < 2 ^ L) (hl : leaf (2 ^ L - 1 + j) = true)
    (hleft : left (L + 1) (2 * j) f b = trueCum m gh bt bins (L + 1) (2 * j) f b) :
    ppLevel left (L + 1) (2 * j + 1) f b = ppLevel left L j f b ∧ trueCum m gh bt bins (L + 1) (2 * j + 1) f b = (0, 0) := by
  have h1 := pow_pred L
  have none : ∀ s, s < m → ∀ c, c < 2 → bt (L + 1) s ≠ 2 ^ (L + 1) - 1 + (2 * j + c) := by
    intro s hs c hc e
    have hrg := routed_range hr hs L
    cases hl' : leaf (bt L s) with
    | true => rw [hr.stay L s hs hl'] at e; omega
    | false =>
      have : bt L s = 2 ^ L - 1 + j := by rcases hr.move L s hs hl' with e' | e' <;> omega
      rw [this, hl] at hl'; exact Bool.noConfusion hl'
  have z : ∀ c, c < 2 → trueCum m gh bt bins (L + 1) (2 * j + c) f b = (0, 0) := by
    intro c hc
    unfold trueCum
    refine Prod.ext ?_ ?_ <;>
      exact sum_eq_zero fun s hs => if_neg fun h => none s (mem_range.1 hs) c hc h.1
  refine ⟨?_, z 1 (by omega)⟩
  have : trueCum m gh bt bins (L + 1) (2 * j) f b = (0, 0) := z 0 (by omega)
  rw [this] at hleft
  have e1 : (2 * j + 1) / 2 = j := by omega
  have e2 : 2 * j + 1 - 1 = 2 * j := by omega
  rw [show ppLevel left (L + 1) (2 * j + 1) f b = _ from by rw [ppLevel, if_neg (by omega)]]
  rw [e1, e2, hleft]
  simp

/-! ## The encrypted histogram (C75) -/

section enc
open Verif.Mpc
variable {α : Type} [CommRing α]

/-- `running_counts`: samples before `n` that are valid and in bucket `b` (sgb.py:239-244) -/
def countUpTo (valid : Nat → Bool) (bin : Nat → Nat) (b : Nat) : Nat → Nat
  | 0 => 0
  | n + 1 => countUpTo valid bin b n + (if valid n = true ∧ bin n = b then 1 else 0)

/-- `scatter_indices` of a valid sample (sgb.py:245-249): its bucket's region, then its rank within the bucket -/
def scatterIdx (valid : Nat → Bool) (bin : Nat → Nat) (stride s : Nat) : Nat := bin s * stride + countUpTo valid bin (bin s) s

/-- `_build_packed_mask_jit` (sgb.py:237-255) for a chunk of `n` samples: `segment_sum` of ones over the scatter indices (samples
outside the node add 0 to slot 0) -/
def packedMask (valid : Nat → Bool) (bin : Nat → Nat) (stride n : Nat) : Nat → α := fun p =>
  ∑ s ∈ range n, if valid s = true ∧ scatterIdx valid bin stride s = p then 1 else 0

/-- One node and one feature of `_compute_histogram_chunk_batch` (sgb.py:373-418) for one chunk: multiply the ciphertext, which
has sample `s` in slot `s` (`fhe_encrypt_gh`, sgb.py:557-589), by the mask and add up buckets.  Slots are read by value, rows
have `R` slots, `n = 2 * R`. -/
def encHist (R samples stride n : Nat) (g : Nat → α) (valid : Nat → Bool) (bin : Nat → Nat) : Except BfvErr (Nat → α) :=
  bucketAggregate R samples (fun p => g p * packedMask valid bin stride n p)

theorem count_mono (valid : Nat → Bool) (bin : Nat → Nat) (b n k : Nat) : countUpTo valid bin b n ≤ countUpTo valid bin b (n + k) := by
  induction k with
  | zero => exact Nat.le_refl _
  | succ k ih => exact Nat.le_trans ih (Nat.le_add_right _ _)

theorem rank_once (valid : Nat → Bool) (bin : Nat → Nat) (b j n : Nat) :
    ∑ s ∈ range n, (if valid s = true ∧ bin s = b ∧ countUpTo valid bin b s = j then (1 : α) else 0) =
      if j < countUpTo valid bin b n then 1 else 0 := by
  induction n with
  | zero => simp [countUpTo]
  | succ n ih =>
    rw [sum_range_succ, ih, countUpTo]
    by_cases hv : valid n = true ∧ bin n = b
    · rw [if_pos hv]
      simp only [hv, true_and]
      rcases Nat.lt_trichotomy j (countUpTo valid bin b n) with c | c | c
      · rw [if_pos c, if_neg (by omega), if_pos (by omega), add_zero]
      · rw [if_neg (by omega), if_pos c.symm, if_pos (by omega), zero_add]
      · rw [if_neg (by omega), if_neg (by omega), if_neg (by omega), add_zero]
    · have hv' : ¬ (valid n = true ∧ bin n = b ∧ countUpTo valid bin b n = j) := fun h => hv ⟨h.1, h.2.1⟩
      rw [if_neg hv, if_neg hv', add_zero, Nat.add_zero]

/-- The mask has its ones in the first `count` slots of every region. -/
theorem mask_value {valid : Nat → Bool} {bin : Nat → Nat} {stride n : Nat} (hc : ∀ b, countUpTo valid bin b n ≤ stride) (b j : Nat)
    (hj : j < stride) : packedMask (α := α) valid bin stride n (b * stride + j) = if j < countUpTo valid bin b n then 1 else 0 := by
  rw [← rank_once]
  unfold packedMask
  refine sum_congr rfl fun s hs => ?_
  rw [mem_range] at hs
  by_cases hv : valid s = true
  · have hlt : countUpTo valid bin (bin s) s < stride := by
      have h1 : countUpTo valid bin (bin s) (s + 1) ≤ countUpTo valid bin (bin s) n := by
        obtain ⟨k, rfl⟩ := Nat.exists_eq_add_of_le hs
        exact count_mono _ _ _ _ _
      have h2 : countUpTo valid bin (bin s) (s + 1) = countUpTo valid bin (bin s) s + 1 := by
        rw [countUpTo, if_pos ⟨hv, rfl⟩]
      have := hc (bin s)
      omega
    have : scatterIdx valid bin stride s = b * stride + j ↔ bin s = b ∧ countUpTo valid bin b s = j := by
      unfold scatterIdx
      constructor
      · intro e
        have hb : bin s = b := by
          have := congrArg (· / stride) e
          rw [Nat.mul_comm, Nat.mul_comm b, Nat.mul_add_div (by omega), Nat.mul_add_div (by omega), Nat.div_eq_of_lt hlt,
            Nat.div_eq_of_lt hj] at this
          omega
        subst hb
        exact ⟨rfl, by omega⟩
      · rintro ⟨rfl, rfl⟩; rfl
    simp only [hv, this, true_and]
  · simp [hv]

/-- **C75**, what is computed: bucket `b` receives the first `count` slots of its region of the *ciphertext*, whose slot `s` holds
sample `s`; the buckets of the samples only enter through their number. -/
theorem enc_hist_value (r samples stride b row c : Nat) (g : Nat → α) (valid : Nat → Bool) (bin : Nat → Nat)
    (hs : 1 ≤ samples) (hfit : 2 ^ Nat.clog 2 samples ≤ stride) (hcount : ∀ b, countUpTo valid bin b (2 * 2 ^ r) ≤ samples)
    (hpos : b * stride = row * 2 ^ r + c) (hw : c + 2 ^ Nat.clog 2 samples ≤ 2 ^ r) :
    ∃ y, encHist (2 ^ r) samples stride (2 * 2 ^ r) g valid bin = .ok y ∧
      y (b * stride) = ∑ j ∈ range (countUpTo valid bin b (2 * 2 ^ r)), g (b * stride + j) := by
  have hle : samples ≤ 2 ^ Nat.clog 2 samples := Nat.le_pow_clog (by omega) samples
  have hc : ∀ b, countUpTo valid bin b (2 * 2 ^ r) ≤ stride := fun b => by have := hcount b; omega
  have hval : ∀ j, j < stride → g (b * stride + j) * packedMask valid bin stride (2 * 2 ^ r) (b * stride + j) =
      if j < countUpTo valid bin b (2 * 2 ^ r) then g (b * stride + j) else 0 := by
    intro j hj
    rw [mask_value hc b j hj]
    split
    · rw [mul_one]
    · rw [mul_zero]
  obtain ⟨y, hy, hv⟩ := bucket_aggregate_partial r samples row c (fun p => g p * packedMask valid bin stride (2 * 2 ^ r) p) hs hw (by
    intro q h1 h2
    rw [← hpos, hval q (by omega), if_neg (by have := hcount b; omega)])
  refine ⟨y, hy, ?_⟩
  rw [hpos, hv, ← hpos]
  rw [← sum_subset (range_subset_range.2 (hcount b))
    (f := fun q => g (b * stride + q) * packedMask valid bin stride (2 * 2 ^ r) (b * stride + q))]
  · refine sum_congr rfl fun j hj => ?_
    have hj' := mem_range.1 hj
    rw [hval j (by have := hc b; omega), if_pos hj']
  · intro j h1 h2
    rw [hval j (by have := mem_range.1 h1; omega), if_neg (fun h => h2 (mem_range.2 h))]

/-- The sum a histogram bucket is meant to hold: the node's samples in that bucket. -/
def bucketSum (n : Nat) (g : Nat → α) (valid : Nat → Bool) (bin : Nat → Nat) (b : Nat) : α :=
  ∑ s ∈ range n, if valid s = true ∧ bin s = b then g s else 0

/-- **C75**, general disagreement: as long as all samples fit in the region of one bucket (with 8192 slots and `max_bin = 8`, up to
910 samples), *every* bucket but the first is reported empty, whatever the data. -/
theorem enc_hist_small_data_violated (r samples stride m b row c : Nat) (g : Nat → α) (valid : Nat → Bool) (bin : Nat → Nat)
    (hs : 1 ≤ samples) (hfit : 2 ^ Nat.clog 2 samples ≤ stride) (hcount : ∀ b, countUpTo valid bin b (2 * 2 ^ r) ≤ samples)
    (hpos : b * stride = row * 2 ^ r + c) (hw : c + 2 ^ Nat.clog 2 samples ≤ 2 ^ r)
    (hm : m ≤ stride) (hpad : ∀ s, m ≤ s → g s = 0) (hb : 1 ≤ b) :
    ∃ y, encHist (2 ^ r) samples stride (2 * 2 ^ r) g valid bin = .ok y ∧ y (b * stride) = 0 := by
  obtain ⟨y, h1, h2⟩ := enc_hist_value r samples stride b row c g valid bin hs hfit hcount hpos hw
  refine ⟨y, h1, ?_⟩
  rw [h2]
  refine sum_eq_zero fun j _ => hpad _ ?_
  have := Nat.mul_le_mul_right stride hb
  omega

/-- **C75**, the same for the first bucket: it reports the gradients of the *first* samples, as many as the bucket has members. -/
theorem enc_hist_first_bucket (r samples stride : Nat) (g : Nat → α) (valid : Nat → Bool) (bin : Nat → Nat)
    (hs : 1 ≤ samples) (hfit : 2 ^ Nat.clog 2 samples ≤ stride) (hcount : ∀ b, countUpTo valid bin b (2 * 2 ^ r) ≤ samples)
    (hw : 2 ^ Nat.clog 2 samples ≤ 2 ^ r) :
    ∃ y, encHist (2 ^ r) samples stride (2 * 2 ^ r) g valid bin = .ok y ∧
      y 0 = ∑ s ∈ range (countUpTo valid bin 0 (2 * 2 ^ r)), g s := by
  obtain ⟨y, h1, h2⟩ := enc_hist_value r samples stride 0 0 0 g valid bin hs hfit hcount (by omega) (by omega)
  refine ⟨y, h1, ?_⟩
  simpa using h2

/-- **C75** (partial): when the samples of the node already lie where the mask expects them (bucket `b`, rank `j` in slot
`b * stride + j`), the bucket holds the sum of the node's samples in it. -/
theorem enc_hist_aligned_partial (r samples stride b row c : Nat) (g : Nat → α) (valid : Nat → Bool) (bin : Nat → Nat)
    (hs : 1 ≤ samples) (hfit : 2 ^ Nat.clog 2 samples ≤ stride) (hcount : ∀ b, countUpTo valid bin b (2 * 2 ^ r) ≤ samples)
    (hpos : b * stride = row * 2 ^ r + c) (hw : c + 2 ^ Nat.clog 2 samples ≤ 2 ^ r)
    (hal : ∀ s, s < 2 * 2 ^ r → valid s = true → scatterIdx valid bin stride s = s) :
    ∃ y, encHist (2 ^ r) samples stride (2 * 2 ^ r) g valid bin = .ok y ∧ y (b * stride) = bucketSum (2 * 2 ^ r) g valid bin b := by
  obtain ⟨y, h1, h2⟩ := enc_hist_value r samples stride b row c g valid bin hs hfit hcount hpos hw
  refine ⟨y, h1, ?_⟩
  rw [h2]
  unfold bucketSum
  have e1 : ∀ s ∈ range (2 * 2 ^ r), (if valid s = true ∧ bin s = b then g s else 0) =
      ∑ j ∈ range (countUpTo valid bin b (2 * 2 ^ r)),
        (if valid s = true ∧ bin s = b ∧ countUpTo valid bin b s = j then g (b * stride + j) else 0) := by
    intro s hs'
    rw [mem_range] at hs'
    by_cases hv : valid s = true ∧ bin s = b
    · have hlt : countUpTo valid bin b s < countUpTo valid bin b (2 * 2 ^ r) := by
        have h1 : countUpTo valid bin b (s + 1) ≤ countUpTo valid bin b (2 * 2 ^ r) := by
          obtain ⟨k, hk⟩ := Nat.exists_eq_add_of_le (Nat.succ_le_of_lt hs')
          rw [hk]; exact count_mono _ _ _ _ _
        have h2 : countUpTo valid bin b (s + 1) = countUpTo valid bin b s + 1 := by rw [countUpTo, if_pos hv]
        omega
      rw [if_pos hv, sum_eq_single (countUpTo valid bin b s)]
      · rw [if_pos ⟨hv.1, hv.2, rfl⟩]
        have := hal s hs' hv.1
        unfold scatterIdx at this
        rw [hv.2] at this
        rw [this]
      · intro j _ hj; exact if_neg fun h => hj h.2.2.symm
      · intro h; exact absurd (mem_range.2 hlt) h
    · rw [if_neg hv]
      exact (sum_eq_zero fun j _ => if_neg fun h => hv ⟨h.1, h.2.1⟩).symm
  rw [sum_congr rfl e1, sum_comm]
  refine sum_congr rfl fun j hj => ?_
  have := rank_once (α := α) valid bin b j (2 * 2 ^ r)
  rw [if_pos (mem_range.1 hj)] at this
  calc g (b * stride + j) = g (b * stride + j) * 1 := (mul_one _).symm
    _ = g (b * stride + j) * ∑ s ∈ range (2 * 2 ^ r), (if valid s = true ∧ bin s = b ∧ countUpTo valid bin b s = j then (1 : α) else 0) := by
        rw [this]
    _ = _ := by
        rw [mul_sum]
        refine sum_congr rfl fun s _ => ?_
        split
        · rw [mul_one]
        · rw [mul_zero]

end enc

/-- **C75** disagreement, concretely: two samples with gradients 3 and 5, one in each of two buckets.  The second bucket is reported
as 0 instead of 5. -/
theorem enc_hist_violated :
    ∃ y, encHist (2 ^ 2) 2 4 (2 * 2 ^ 2) (fun s => if s = 0 then 3 else if s = 1 then 5 else (0 : ZMod 1032193))
        (fun s => decide (s < 2)) (fun s => s) = .ok y ∧ y 4 = 0 ∧
      bucketSum (2 * 2 ^ 2) (fun s => if s = 0 then 3 else if s = 1 then 5 else (0 : ZMod 1032193)) (fun s => decide (s < 2)) (fun s => s) 1 = 5 := by
  have hc : Nat.clog 2 2 = 1 := by decide
  obtain ⟨y, h1, h2⟩ := enc_hist_small_data_violated 2 2 4 2 1 1 0
    (fun s => if s = 0 then 3 else if s = 1 then 5 else (0 : ZMod 1032193)) (fun s => decide (s < 2)) (fun s => s)
    (by omega) (by rw [hc]; decide) (by
      intro b
      simp only [countUpTo, decide_eq_true_eq, Nat.reduceMul, Nat.reducePow]
      rcases b with _ | _ | b <;> simp) (by omega) (by rw [hc]; decide) (by omega)
    (by intro s hs; rw [if_neg (by omega), if_neg (by omega)]) (by omega)
  exact ⟨y, h1, h2, by decide +kernel⟩

/-- non-vacuity of the aligned case: buckets of one sample each, sample 0 in slot 0 and sample 4 in slot 4 -/
example :
    ∃ y, Verif.Sgb.encHist (2 ^ 2) 2 4 (2 * 2 ^ 2) (fun s => (s + 3 : ZMod 1032193)) (fun s => decide (s = 0 ∨ s = 4)) (fun s => s / 4) = .ok y ∧
      y 4 = 7 := by
  have hc : Nat.clog 2 2 = 1 := by decide
  obtain ⟨y, h1, h2⟩ := enc_hist_aligned_partial 2 2 4 1 1 0 (fun s => (s + 3 : ZMod 1032193)) (fun s => decide (s = 0 ∨ s = 4))
    (fun s => s / 4) (by omega) (by rw [hc]; decide) (by
      intro b
      simp only [countUpTo, decide_eq_true_eq, Nat.reduceMul, Nat.reducePow]
      rcases b with _ | _ | b <;> simp) (by omega) (by rw [hc]; decide) (by decide)
  exact ⟨y, h1, by rw [show (4 : Nat) = 1 * 4 from rfl, h2]; decide +kernel⟩

/-- non-vacuity of the subtraction theorem: two samples, the root splits them, one node on each side -/
example : ppLevel (fun L i => trueCum 2 (fun s => ((s : ℚ) + 1, 1)) (fun L s => if L = 0 then 0 else 1 + s) (fun s _ => s) L i) 1 1 0 1 = (2, 1) := by
  rw [subtraction_correct 2 1 2 (fun s => ((s : ℚ) + 1, 1)) (fun L s => if L = 0 then 0 else 1 + s) (fun s _ => s)
    (fun k => decide (k ≠ 0)) _ ⟨fun _ _ => rfl, ?_, ?_⟩ (fun _ _ _ _ _ _ _ _ => rfl) 1 1 0 1 (by decide) ⟨by decide, trivial⟩ (by decide) (by decide)]
  · refine Prod.ext ?_ ?_
    · norm_num [trueCum, sum_range_succ]
    · norm_num [trueCum, sum_range_succ]
      rfl
  · intro L s _ h
    rcases L with _ | L
    · simp at h
    · rfl
  · intro L s hs h
    rcases L with _ | L
    · simp; omega
    · simp at h

end Verif.Sgb
