import Verif.Sgb.Skew
import Verif.Sgb.Pack
import Mathlib.Data.ZMod.ValMinAbs
import Mathlib.Tactic.IntervalCases
/-!
# C75 — the encrypted histogram from end to end (libs/ml/sgb.py:256-700)

Splitting of the gradients into ciphertexts, masks per node, feature and chunk, packing, decryption, unpacking, scaling and running sums.
Specification: `Wanted`.
-/
namespace Verif.Sgb.Pipeline
open Finset Verif.Mpc Verif.Sgb.Pack

/-- what the parties hold for one level: the number of samples, the quantised gradients (active party), the members of the nodes and the
bucket of each sample and feature (passive party). /repo/mplang/libs/ml/sgb.py:511-640 -/
structure Level where
  m : Nat
  q : Nat → ℤ
  inNode : Nat → Nat → Bool
  bins : Nat → Nat → Nat

/-- the shape: rows of `2 ^ r` slots, buckets, nodes, features -/
structure Shape where
  r : Nat
  nBuckets : Nat
  nNodes : Nat
  nFeat : Nat

variable {t : Nat}

/-- `slot_count`: two rows -/
def Shape.slots (s : Shape) : Nat := 2 * 2 ^ s.r
/-- `stride`. /repo/mplang/libs/ml/sgb.py:632 -/
def Shape.stride (s : Shape) : Nat := s.slots / s.nBuckets
/-- `n_chunks`. /repo/mplang/libs/ml/sgb.py:545 -/
def Level.chunks (l : Level) (s : Shape) : Nat := (l.m + s.slots - 1) / s.slots
/-- `max_samples_per_bucket`. /repo/mplang/libs/ml/sgb.py:634-635 -/
def Level.samples (l : Level) (s : Shape) : Nat := samplesPerBucket l.m (l.chunks s) s.nBuckets s.stride

/-- the slots of the ciphertext of chunk `c`: the samples of the chunk, padded with zeros. /repo/mplang/libs/ml/sgb.py:550-577 -/
def gradCt (t : Nat) (l : Level) (s : Shape) (c p : Nat) : ZMod t := if c * s.slots + p < l.m then (l.q (c * s.slots + p) : ZMod t) else 0

/-- member of the node, within chunk `c` (padded with zeros). /repo/mplang/libs/ml/sgb.py:259-278 -/
def chunkIn (l : Level) (s : Shape) (node c p : Nat) : Bool := decide (c * s.slots + p < l.m) && l.inNode node (c * s.slots + p)
/-- bucket, within chunk `c` (padded with zeros). /repo/mplang/libs/ml/sgb.py:269-278 -/
def chunkBin (l : Level) (s : Shape) (feat c p : Nat) : Nat := if c * s.slots + p < l.m then l.bins feat (c * s.slots + p) else 0

/-- the mask of a node, a feature and a chunk. /repo/mplang/libs/ml/sgb.py:280-296 -/
def mask (t : Nat) (l : Level) (s : Shape) (node feat c : Nat) : Nat → ZMod t :=
  packedMask (chunkIn l s node c) (chunkBin l s feat c) s.stride s.slots

/-- `fhe_encrypt_gh` and `fhe_histogram_optimized`: the ciphertexts the active party receives, by their slots.
/repo/mplang/libs/ml/sgb.py:511-669 -/
def fheHistogram (t : Nat) (l : Level) (s : Shape) : Except Pack.Err (List (Nat → ZMod t) × List (Nat → ZMod t)) :=
  nodeLoop (2 ^ s.r) (l.samples s) s.nBuckets s.stride s.nFeat ((List.range (l.chunks s)).map (gradCt t l s)) s.nNodes
    (allMasks s.nNodes s.nFeat (l.chunks s) (mask t l s))

/-- `decrypt_histogram_results`: centred values, divided by the scale, added up over the buckets (exactly; the code rounds to float32).
/repo/mplang/libs/ml/sgb.py:448-490, 672-722 -/
def decryptHistogram (scale : ℚ) (s : Shape) (vecs : List (Nat → ZMod t)) (node feat b : Nat) : Option ℚ :=
  ((List.range (b + 1)).mapM fun k => unpack s.nFeat s.stride vecs node feat k).map fun vs =>
    (vs.map fun v => (v.valMinAbs : ℚ) / scale).sum

/-- **Specification**: the sum of the gradients of the node's samples in buckets up to `b` -/
def Wanted (l : Level) (node feat b : Nat) : ℤ := ∑ x ∈ range l.m, if l.inNode node x = true ∧ l.bins feat x ≤ b then l.q x else 0

/-- the number of the node's samples of chunk `c` in bucket `b` -/
def inChunk (l : Level) (s : Shape) (node feat c b : Nat) : Nat := countUpTo (chunkIn l s node c) (chunkBin l s feat c) b s.slots

/-- what the layout of the slots must satisfy: the regions lie within rows -/
structure Fits (l : Level) (s : Shape) : Prop where
  stride_pos : 0 < s.stride
  buckets_pos : 0 < s.nBuckets
  some_samples : 0 < l.m
  window : 2 ^ Nat.clog 2 (l.samples s) ≤ s.stride
  row_feat : ∀ b, b < s.nBuckets → b * s.stride % 2 ^ s.r + min s.nFeat s.stride ≤ 2 ^ s.r
  row_window : ∀ b, b < s.nBuckets → b * s.stride % 2 ^ s.r + 2 ^ Nat.clog 2 (l.samples s) ≤ 2 ^ s.r
  region : ∀ node feat c b, inChunk l s node feat c b ≤ s.stride

theorem chunks_pos {l : Level} {s : Shape} (h : 0 < l.m) : 0 < l.chunks s := by
  unfold Level.chunks Shape.slots
  have := Nat.two_pow_pos s.r
  exact Nat.div_pos (by omega) (by omega)

theorem chunks_cover (l : Level) (s : Shape) : l.m ≤ l.chunks s * s.slots := by
  unfold Level.chunks
  have hp : 0 < s.slots := by unfold Shape.slots; have := Nat.two_pow_pos s.r; omega
  have h1 := Nat.div_add_mod (l.m + s.slots - 1) s.slots
  have h2 := Nat.mod_lt (l.m + s.slots - 1) hp
  rw [Nat.mul_comm] at h1
  omega

theorem window_add {α : Type} [CommRing α] (R samples : Nat) (n : Nat) (x : Nat → Nat → α) (p : Nat) :
    Pack.window R samples (fun p => ∑ c ∈ range n, x c p) p = ∑ c ∈ range n, Pack.window R samples (x c) p := by
  unfold Pack.window rot
  rw [sum_comm]

/-- **C75** (end to end, any data) Nothing fails, and what the active party reads for a bucket are the slots of the bucket's region, as many
per chunk as there are samples in the bucket (at most the estimate): the samples' own positions do not enter. -/
theorem histogram_reads (l : Level) (s : Shape) (h : Fits l s) :
    ∃ vecs, fheHistogram t l s = .ok (vecs, []) ∧ ∀ node feat b, node < s.nNodes → feat < s.nFeat → b < s.nBuckets →
      unpack s.nFeat s.stride vecs node feat b = some (∑ c ∈ range (l.chunks s),
        ∑ j ∈ range (min (inChunk l s node feat c b) (2 ^ Nat.clog 2 (l.samples s))), gradCt t l s c (b * s.stride + j)) := by
  have hs : 1 ≤ l.samples s := by unfold Level.samples samplesPerBucket; have := h.stride_pos; omega
  have hR : 0 < 2 ^ s.r := Nat.two_pow_pos _
  have hle : l.samples s ≤ 2 ^ Nat.clog 2 (l.samples s) := Nat.le_pow_clog (by omega) _
  have hfit : l.samples s ≤ 2 ^ s.r := by have := h.row_window 0 h.buckets_pos; omega
  obtain ⟨vecs, h1, h2⟩ := packed_pipeline_partial (2 ^ s.r) (l.samples s) s.nBuckets s.stride s.nNodes s.nFeat (l.chunks s) (gradCt t l s)
    (mask t l s) _ (fun x => window_total (2 ^ s.r) (l.samples s) hR hfit x) h.stride_pos (chunks_pos h.some_samples) h.buckets_pos h.row_feat
  refine ⟨vecs, h1, fun node feat b hn hf hb => ?_⟩
  rw [h2 node feat b hn hf hb]
  congr 1
  unfold chunkSum
  rw [window_add]
  refine sum_congr rfl fun c _ => ?_
  have hd := Nat.div_add_mod (b * s.stride) (2 ^ s.r)
  rw [Nat.mul_comm] at hd
  obtain ⟨y, hy, hv⟩ := enc_hist_window s.r (l.samples s) s.stride b (b * s.stride / 2 ^ s.r) (b * s.stride % 2 ^ s.r) (gradCt t l s c)
    (chunkIn l s node c) (chunkBin l s feat c) hs h.window (fun b => h.region node feat c b) hd.symm (h.row_window b hb)
  unfold encHist at hy
  rw [window_total (2 ^ s.r) (l.samples s) hR hfit] at hy
  have := Except.ok.inj hy
  have hv' : y (b * s.stride) = ∑ j ∈ range (min (inChunk l s node feat c b) (2 ^ Nat.clog 2 (l.samples s))), gradCt t l s c (b * s.stride + j) := hv
  rw [← hv', ← this]
  rfl

theorem mapM_range {β : Type} (f : Nat → Option β) (g : Nat → β) : ∀ n, (∀ k, k < n → f k = some (g k)) →
    (List.range n).mapM f = some ((List.range n).map g)
  | 0, _ => rfl
  | n + 1, h => by
    rw [List.range_succ, List.mapM_append, mapM_range f g n (fun k hk => h k (by omega))]
    simp [h n (by omega)]

/-- **C75** (violated: flat histograms) As long as all samples fit into the region of one bucket (with 8192 slots and nine buckets: up to 910
samples), the cumulative histogram of every node and feature of a passive party is the same at every bucket, whatever the data: there is no
split to be found. -/
theorem histogram_flat_violated (l : Level) (s : Shape) (h : Fits l s) (hm : l.m ≤ s.stride) (scale : ℚ) :
    ∃ vecs : List (Nat → ZMod t), fheHistogram t l s = .ok (vecs, []) ∧ ∀ node feat b, node < s.nNodes → feat < s.nFeat → b < s.nBuckets →
      decryptHistogram scale s vecs node feat b = decryptHistogram scale s vecs node feat 0 := by
  obtain ⟨vecs, h1, h2⟩ := histogram_reads (t := t) l s h
  refine ⟨vecs, h1, fun node feat b hn hf hb => ?_⟩
  unfold decryptHistogram
  have hz : ∀ k, 1 ≤ k → k < s.nBuckets → unpack s.nFeat s.stride vecs node feat k = some 0 := by
    intro k hk hkb
    rw [h2 node feat k hn hf hkb]
    congr 1
    refine sum_eq_zero fun c _ => sum_eq_zero fun j _ => ?_
    unfold gradCt
    rw [if_neg]
    have := Nat.mul_le_mul_right s.stride hk
    omega
  induction b with
  | zero => rfl
  | succ b ih =>
    have ih' := ih (by omega)
    rw [List.range_succ, List.mapM_append, ← ih']
    cases hh : (List.range (b + 1)).mapM fun k => unpack s.nFeat s.stride vecs node feat k with
    | none => rfl
    | some vs => simp [hz (b + 1) (by omega) hb]

theorem count_le_total (l : Level) (s : Shape) (node feat c b : Nat) : inChunk l s node feat c b ≤ l.m := by
  unfold inChunk
  have key : ∀ n, countUpTo (chunkIn l s node c) (chunkBin l s feat c) b n ≤ min n l.m := by
    intro n
    induction n with
    | zero => simp [countUpTo]
    | succ n ih =>
      rw [countUpTo]
      split
      · next h =>
        have h1 : c * s.slots + n < l.m := of_decide_eq_true (Bool.and_eq_true_iff.1 h.1).1
        omega
      · omega
  exact Nat.le_trans (key _) (Nat.min_le_right _ _)

/-- **C75** (violated with the default parameters: 8192 slots, eight bins and one for missing values) For every data set of at most 910 samples
and at most 456 features, every passive party's cumulative histogram is the same at every bucket. -/
theorem default_histogram_flat_violated (l : Level) (nNodes nFeat : Nat) (h1 : 1 ≤ l.m) (h2 : l.m ≤ 910) (hf : nFeat ≤ 456) (scale : ℚ) :
    ∃ vecs : List (Nat → ZMod t), fheHistogram t l ⟨12, 9, nNodes, nFeat⟩ = .ok (vecs, []) ∧ ∀ node feat b, node < nNodes → feat < nFeat → b < 9 →
      decryptHistogram scale ⟨12, 9, nNodes, nFeat⟩ vecs node feat b = decryptHistogram scale ⟨12, 9, nNodes, nFeat⟩ vecs node feat 0 := by
  have hst : Shape.stride ⟨12, 9, nNodes, nFeat⟩ = 910 := by
    show 2 * 2 ^ 12 / 9 = 910
    norm_num
  have hsl : Shape.slots ⟨12, 9, nNodes, nFeat⟩ = 8192 := rfl
  have hch : l.chunks ⟨12, 9, nNodes, nFeat⟩ = 1 := by unfold Level.chunks; rw [hsl]; omega
  have hw : 2 ^ Nat.clog 2 (l.samples ⟨12, 9, nNodes, nFeat⟩) ≤ 256 := by
    have : l.samples ⟨12, 9, nNodes, nFeat⟩ ≤ 2 ^ 8 := by
      unfold Level.samples samplesPerBucket
      rw [hch, hst]
      show min 910 (max ((l.m + 1 - 1) / 1 / 9 * 2) 64) ≤ 256
      omega
    have h8 := Nat.clog_mono_right 2 this
    rw [Nat.clog_pow 2 8 (by omega)] at h8
    exact Nat.le_trans (Nat.pow_le_pow_right (by omega) h8) (by decide)
  refine histogram_flat_violated l ⟨12, 9, nNodes, nFeat⟩ ⟨by rw [hst]; omega, (by decide : 0 < 9), h1, by rw [hst]; omega, ?_, ?_, ?_⟩ (by rw [hst]; exact h2) scale
  · intro b hb
    have hb' : b < 9 := hb
    rw [hst]
    show b * 910 % 4096 + min nFeat 910 ≤ 4096
    clear hb
    interval_cases b <;> omega
  · intro b hb
    have hb' : b < 9 := hb
    rw [hst]
    show b * 910 % 4096 + 2 ^ Nat.clog 2 (l.samples ⟨12, 9, nNodes, nFeat⟩) ≤ 4096
    clear hb
    interval_cases b <;> omega
  · intro node feat c b
    rw [hst]
    exact Nat.le_trans (count_le_total l _ node feat c b) h2

theorem sum_chunks {β : Type} [AddCommMonoid β] (S : Nat) (f : Nat → β) : ∀ n, ∑ c ∈ range n, ∑ p ∈ range S, f (c * S + p) = ∑ x ∈ range (n * S), f x
  | 0 => by simp
  | n + 1 => by rw [sum_range_succ, sum_chunks S f n, Nat.succ_mul, sum_range_add]

/-- the value of one bucket when the samples lie where the masks expect them -/
theorem bucket_total (l : Level) (s : Shape) (node feat b : Nat) :
    ∑ c ∈ range (l.chunks s), bucketSum s.slots (gradCt t l s c) (chunkIn l s node c) (chunkBin l s feat c) b =
      ((∑ x ∈ range l.m, if l.inNode node x = true ∧ l.bins feat x = b then l.q x else 0 : ℤ) : ZMod t) := by
  have e : ∀ c ∈ range (l.chunks s), bucketSum s.slots (gradCt t l s c) (chunkIn l s node c) (chunkBin l s feat c) b =
      ∑ p ∈ range s.slots, (fun x => if x < l.m then (if l.inNode node x = true ∧ l.bins feat x = b then (l.q x : ZMod t) else 0) else 0) (c * s.slots + p) := by
    intro c _
    unfold bucketSum
    refine sum_congr rfl fun p _ => ?_
    unfold chunkIn chunkBin gradCt
    by_cases hlt : c * s.slots + p < l.m
    · simp [hlt]
    · simp [hlt]
  rw [sum_congr rfl e, sum_chunks s.slots (fun x => if x < l.m then (if l.inNode node x = true ∧ l.bins feat x = b then (l.q x : ZMod t) else 0) else 0)]
  push_cast
  rw [← sum_subset (range_subset_range.2 (chunks_cover l s))]
  · refine sum_congr rfl fun x hx => ?_
    rw [if_pos (mem_range.1 hx)]
  · intro x _ hx
    rw [if_neg (fun hh => hx (mem_range.2 hh))]

/-- **C75** (partial: aligned, balanced data) When every sample of every node lies in the slot the masks expect, no bucket of a chunk has more
samples than estimated, and the sums stay below half of the plaintext modulus, the active party obtains, for every number of samples, chunks,
nodes, features and buckets, exactly the cumulative sums it is after.
Missing: the masks' assumption fails for data in any other order (`histogram_flat_violated`). -/
theorem histogram_correct_partial [NeZero t] (l : Level) (s : Shape) (h : Fits l s) (scale : ℚ)
    (haligned : ∀ node feat c p, p < s.slots → chunkIn l s node c p = true → scatterIdx (chunkIn l s node c) (chunkBin l s feat c) s.stride p = p)
    (hbalanced : ∀ node feat c b, inChunk l s node feat c b ≤ l.samples s)
    (hmod : ∀ node feat b, 2 * |∑ x ∈ range l.m, if l.inNode node x = true ∧ l.bins feat x = b then l.q x else 0| < t) :
    ∃ vecs : List (Nat → ZMod t), fheHistogram t l s = .ok (vecs, []) ∧ ∀ node feat b, node < s.nNodes → feat < s.nFeat → b < s.nBuckets →
      decryptHistogram scale s vecs node feat b = some ((Wanted l node feat b : ℚ) / scale) := by
  obtain ⟨vecs, h1, h2⟩ := histogram_reads (t := t) l s h
  refine ⟨vecs, h1, fun node feat b hn hf hb => ?_⟩
  have hs : 1 ≤ l.samples s := by unfold Level.samples samplesPerBucket; have := h.stride_pos; omega
  have hle : l.samples s ≤ 2 ^ Nat.clog 2 (l.samples s) := Nat.le_pow_clog (by omega) _
  let part (k : Nat) : ℤ := ∑ x ∈ range l.m, if l.inNode node x = true ∧ l.bins feat x = k then l.q x else 0
  have hread : ∀ k, k < b + 1 → unpack s.nFeat s.stride vecs node feat k = some ((part k : ℤ) : ZMod t) := by
    intro k hk
    rw [h2 node feat k hn hf (by omega)]
    congr 1
    rw [← bucket_total (t := t) l s node feat k]
    refine sum_congr rfl fun c _ => ?_
    have hd := Nat.div_add_mod (k * s.stride) (2 ^ s.r)
    rw [Nat.mul_comm] at hd
    obtain ⟨y, hy, hv⟩ := enc_hist_aligned_partial s.r (l.samples s) s.stride k (k * s.stride / 2 ^ s.r) (k * s.stride % 2 ^ s.r) (gradCt t l s c)
      (chunkIn l s node c) (chunkBin l s feat c) hs h.window (fun b => hbalanced node feat c b) hd.symm (h.row_window k (by omega))
      (haligned node feat c)
    obtain ⟨y', hy', hv'⟩ := enc_hist_value s.r (l.samples s) s.stride k (k * s.stride / 2 ^ s.r) (k * s.stride % 2 ^ s.r) (gradCt t l s c)
      (chunkIn l s node c) (chunkBin l s feat c) hs h.window (fun b => hbalanced node feat c b) hd.symm (h.row_window k (by omega))
    rw [hy] at hy'
    cases Except.ok.inj hy'
    have hv2 : y (k * s.stride) = bucketSum s.slots (gradCt t l s c) (chunkIn l s node c) (chunkBin l s feat c) k := hv
    rw [← hv2, hv', Nat.min_eq_left (Nat.le_trans (hbalanced node feat c k) hle)]
    rfl
  unfold decryptHistogram
  rw [mapM_range _ (fun k => ((part k : ℤ) : ZMod t)) (b + 1) hread]
  simp only [Option.map_some, List.map_map, Option.some.injEq]
  have hval : ∀ k, (((part k : ℤ) : ZMod t).valMinAbs : ℤ) = part k := by
    intro k
    have := hmod node feat k
    rw [ZMod.valMinAbs_spec]
    refine ⟨rfl, ?_, ?_⟩
    · have := neg_abs_le (part k); simp only [part] at *; omega
    · have := le_abs_self (part k); simp only [part] at *; omega
  have hsum : ((List.range (b + 1)).map ((fun v : ZMod t => (v.valMinAbs : ℚ) / scale) ∘ fun k => ((part k : ℤ) : ZMod t))).sum =
      ((∑ k ∈ range (b + 1), part k : ℤ) : ℚ) / scale := by
    have : ∀ n, ((List.range n).map ((fun v : ZMod t => (v.valMinAbs : ℚ) / scale) ∘ fun k => ((part k : ℤ) : ZMod t))).sum =
        ((∑ k ∈ range n, part k : ℤ) : ℚ) / scale := by
      intro n
      induction n with
      | zero => simp
      | succ n ih =>
        rw [List.range_succ, List.map_append, List.sum_append, ih, sum_range_succ]
        simp only [List.map_cons, List.map_nil, List.sum_cons, List.sum_nil, add_zero, Function.comp, hval]
        push_cast
        rw [add_div]
    exact this _
  rw [hsum]
  congr 2
  unfold Wanted
  rw [sum_comm]
  refine sum_congr rfl fun x _ => ?_
  by_cases hin : l.inNode node x = true
  · simp only [hin, true_and]
    rw [sum_ite_eq]
    simp [Nat.lt_succ_iff]
  · simp [hin]

/-! ## Non-vacuity: eight samples, the first four in bucket 0, the others in bucket 1 -/

/-- eight samples, gradients 10, 11, …, 17 -/
def exLevel : Level := ⟨8, fun x => 10 + x, fun _ _ => true, fun _ x => x / 4⟩
/-- two rows of four slots, two buckets -/
def exShape : Shape := ⟨2, 2, 1, 1⟩

theorem ex_count (node feat c b : Nat) : inChunk exLevel exShape node feat c b ≤ 4 := by
  have h8 : exShape.slots = 8 := rfl
  unfold inChunk
  rw [h8]
  match c with
  | 0 =>
    rcases (by omega : b = 0 ∨ b = 1 ∨ 2 ≤ b) with rfl | rfl | hb
    · show countUpTo (chunkIn exLevel exShape 0 0) (chunkBin exLevel exShape 0 0) 0 8 ≤ 4
      decide
    · show countUpTo (chunkIn exLevel exShape 0 0) (chunkBin exLevel exShape 0 0) 1 8 ≤ 4
      decide
    · have : ∀ n, n ≤ 8 → countUpTo (chunkIn exLevel exShape node 0) (chunkBin exLevel exShape feat 0) b n = 0 := by
        intro n
        induction n with
        | zero => intro _; rfl
        | succ n ih =>
          intro hn
          rw [countUpTo, ih (by omega), if_neg]
          rintro ⟨_, h⟩
          simp [chunkBin, exLevel] at h
          have : n / 4 ≤ 1 := by omega
          split at h <;> omega
      rw [this 8 (by omega)]; omega
  | c + 1 =>
    have : ∀ n, countUpTo (chunkIn exLevel exShape node (c + 1)) (chunkBin exLevel exShape feat (c + 1)) b n = 0 := by
      intro n
      induction n with
      | zero => rfl
      | succ n ih =>
        rw [countUpTo, ih, if_neg]
        rintro ⟨h, _⟩
        simp [chunkIn, exLevel, h8] at h
        omega
    rw [this]; omega

theorem ex_fits : Fits exLevel exShape where
  stride_pos := by decide
  buckets_pos := by decide
  some_samples := by decide
  window := by
    rw [show exLevel.samples exShape = 2 ^ 2 by decide, Nat.clog_pow 2 2 (by omega)]; decide
  row_feat b hb := by
    have : b < 2 := hb
    interval_cases b <;> decide
  row_window b hb := by
    have : b < 2 := hb
    rw [show exLevel.samples exShape = 2 ^ 2 by decide, Nat.clog_pow 2 2 (by omega)]
    interval_cases b <;> decide
  region := ex_count

example : ∃ vecs : List (Nat → ZMod 1032193), fheHistogram 1032193 exLevel exShape = .ok (vecs, []) ∧
    decryptHistogram 2 exShape vecs 0 0 0 = some 23 ∧ decryptHistogram 2 exShape vecs 0 0 1 = some 54 := by
  obtain ⟨vecs, h1, h2⟩ := histogram_correct_partial (t := 1032193) exLevel exShape ex_fits 2
    (by
      intro node feat c p hp hv
      have h8 : exShape.slots = 8 := rfl
      rw [h8] at hp
      match c with
      | 0 =>
        show scatterIdx (chunkIn exLevel exShape 0 0) (chunkBin exLevel exShape 0 0) exShape.stride p = p
        interval_cases p <;> decide
      | c + 1 => simp [chunkIn, exLevel, h8] at hv; omega)
    (fun node feat c b => Nat.le_trans (ex_count node feat c b) (by decide))
    (by
      intro node feat b
      have h : |∑ x ∈ range exLevel.m, if exLevel.inNode node x = true ∧ exLevel.bins feat x = b then exLevel.q x else 0| ≤
          ∑ x ∈ range 8, |(10 + x : ℤ)| := by
        refine le_trans (abs_sum_le_sum_abs _ _) (sum_le_sum fun x _ => ?_)
        split
        · exact le_refl _
        · simp
      have : ∑ x ∈ range 8, |(10 + x : ℤ)| = 108 := by decide
      push_cast
      omega)
  refine ⟨vecs, h1, ?_, ?_⟩
  · rw [h2 0 0 0 (by decide) (by decide) (by decide), show Wanted exLevel 0 0 0 = 46 by decide]; norm_num
  · rw [h2 0 0 1 (by decide) (by decide) (by decide), show Wanted exLevel 0 0 1 = 108 by decide]; norm_num

/-- four samples in one region meet the hypotheses of `histogram_flat_violated`, one of them in the second bucket -/
def exFew : Level := ⟨4, fun x => 10 + x, fun _ _ => true, fun _ x => x / 3⟩

theorem few_count (node feat c b : Nat) : inChunk exFew exShape node feat c b ≤ 4 := by
  have h8 : exShape.slots = 8 := rfl
  unfold inChunk
  rw [h8]
  have key : ∀ n, countUpTo (chunkIn exFew exShape node c) (chunkBin exFew exShape feat c) b n ≤ min n 4 := by
    intro n
    induction n with
    | zero => simp [countUpTo]
    | succ n ih =>
      rw [countUpTo]
      split
      · next h =>
        have h1 : c * 8 + n < 4 := of_decide_eq_true (Bool.and_eq_true_iff.1 h.1).1
        omega
      · omega
  have := key 8
  omega

example : ∃ vecs : List (Nat → ZMod 1032193), fheHistogram 1032193 exFew exShape = .ok (vecs, []) ∧
    decryptHistogram 1 exShape vecs 0 0 1 = decryptHistogram 1 exShape vecs 0 0 0 ∧ Wanted exFew 0 0 1 ≠ Wanted exFew 0 0 0 := by
  obtain ⟨vecs, h1, h2⟩ := histogram_flat_violated (t := 1032193) exFew exShape
    { stride_pos := by decide, buckets_pos := by decide, some_samples := by decide,
      window := by rw [show exFew.samples exShape = 2 ^ 2 by decide, Nat.clog_pow 2 2 (by omega)]; decide
      row_feat := fun b hb => by have : b < 2 := hb; interval_cases b <;> decide
      row_window := fun b hb => by
        have : b < 2 := hb
        rw [show exFew.samples exShape = 2 ^ 2 by decide, Nat.clog_pow 2 2 (by omega)]
        interval_cases b <;> decide
      region := few_count } (by decide) 1
  exact ⟨vecs, h1, h2 0 0 1 (by decide) (by decide) (by decide), by decide⟩

end Verif.Sgb.Pipeline
