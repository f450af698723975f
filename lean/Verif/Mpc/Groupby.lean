import Verif.Mpc.Aggregate
import Verif.Mpc.Permute
import Mathlib.Data.ZMod.ValMinAbs
/-
Model of /repo/mplang/libs/mpc/analytics/groupby.py: the two oblivious group-by sums.
-/
namespace Verif.Mpc
open Finset

/-! ### Shuffle based -/

/-- Elements of `int64` arrays: addition and subtraction wrap. -/
abbrev I64 := ZMod (2 ^ 64)

/-- `jnp.argsort(bins, stable=True)`. /repo/mplang/libs/mpc/analytics/groupby.py:256-259 -/
def argsort (bins : List Int) : List Nat :=
  (List.range bins.length).mergeSort fun i j => decide (bins.getD i 0 ≤ bins.getD j 0)

/-- `segment_sum(vals, segs, num_segments=K)`; ids outside `[0, K)` are dropped.
/repo/mplang/libs/mpc/analytics/groupby.py:298, 314 -/
def segmentSum {β : Type} [AddCommMonoid β] (vals : List β) (segs : List Int) (K : Nat) : List β :=
  (List.range K).map fun k : Nat => (((vals.zip segs).filter fun e => e.2 = (k : Int)).map Prod.fst).sum

variable {A : Type} [AddCommGroup A] [DecidableEq A]
variable {Ct Key Nonce : Type}

/-- `oblivious_groupby_sum_shuffle`: `mask` are the sender's random bytes read as `int64`.
/repo/mplang/libs/mpc/analytics/groupby.py:220-331 -/
def groupbyShuffle (C : Curve A) (S : Sym A I64 Ct Key Nonce) (dr0 dr1 : OtDraws Nonce)
    (data mask : List I64) (bins : List Int) (K : Nat) : Except OtErr (List I64) :=
  let perm := argsort bins
  let d0 := List.zipWith (fun a m => a - m) data mask
  match applyPermutation C S dr0 dr1 0 d0 perm with
  | .error e => .error e
  | .ok s0 =>
    let agg0 := segmentSum s0 (perm.map fun p => bins.getD p 0) K
    let agg1 := segmentSum mask bins K
    .ok (List.zipWith (· + ·) agg0 agg1)

/-- The sum of the entries of `data` whose bin is `k` (specification). -/
def groupSum {β : Type} [AddCommMonoid β] (data : List β) (bins : List Int) (k : Nat) : β :=
  ∑ i ∈ range data.length, if bins[i]? = some (k : Int) then data.getD i 0 else 0

section lists
variable {β : Type} [AddCommMonoid β]

theorem filter_sum (k : Int) : ∀ (vals : List β) (segs : List Int), vals.length = segs.length →
    (((vals.zip segs).filter fun e => e.2 = k).map Prod.fst).sum
      = ∑ i ∈ range vals.length, if segs[i]? = some k then vals.getD i 0 else 0 := by
  intro vals
  induction vals with
  | nil => intro segs _; simp
  | cons v vals ih =>
    intro segs hl
    cases segs with
    | nil => simp at hl
    | cons s segs =>
      have ih' := ih segs (by simpa using hl)
      rw [List.length_cons, sum_range_succ']
      simp only [List.getElem?_cons_succ, List.getD_cons_succ, List.getElem?_cons_zero, List.getD_cons_zero,
        List.zip_cons_cons, Option.some.injEq]
      rw [← ih', List.filter_cons]
      by_cases h : s = k
      · simp [h, add_comm]
      · simp [h]

theorem segmentSum_get (vals : List β) (segs : List Int) (K k : Nat) (hk : k < K) (hl : vals.length = segs.length) :
    (segmentSum vals segs K)[k]? = some (groupSum vals segs k) := by
  simp only [segmentSum, List.getElem?_map, List.getElem?_range hk, Option.map_some, groupSum]
  rw [filter_sum _ _ _ hl]

/-- Reindexing a group sum along a permutation. -/
theorem groupSum_perm (data out : List β) (bins : List Int) (perm : List Nat) (k : Nat)
    (hl : bins.length = data.length) (hp : perm.Perm (List.range data.length)) (hg : Gathers data perm out) :
    groupSum out (perm.map fun p => bins.getD p 0) k = groupSum data bins k := by
  obtain ⟨hlen, hg⟩ := hg
  have hpl : perm.length = data.length := by simpa using hp.length_eq
  unfold groupSum
  rw [hlen]
  have nd : perm.Nodup := hp.nodup_iff.mpr List.nodup_range
  have hlt : ∀ i, i < data.length → perm.getD i 0 < data.length := by
    intro i hi
    have : perm.getD i 0 ∈ List.range data.length := by
      rw [List.getD_eq_getElem _ _ (by omega)]
      exact hp.subset (List.getElem_mem _)
    simpa using this
  have hpi : ∀ i, i < data.length → perm[i]? = some (perm.getD i 0) := by
    intro i hi
    rw [List.getD_eq_getElem _ _ (by omega), List.getElem?_eq_getElem (by omega)]
  refine sum_bij (fun i _ => perm.getD i 0) ?_ ?_ ?_ ?_
  · intro i hi
    rw [mem_range] at hi ⊢
    exact hlt i hi
  · intro i hi j hj e
    rw [mem_range] at hi hj
    rw [List.getD_eq_getElem _ _ (by omega), List.getD_eq_getElem _ _ (by omega)] at e
    exact (List.Nodup.getElem_inj_iff nd).mp e
  · intro j hj
    rw [mem_range] at hj
    have : j ∈ perm := hp.symm.subset (by simpa using hj)
    obtain ⟨i, hi, e⟩ := List.getElem_of_mem this
    exact ⟨i, by rw [mem_range]; omega, by rw [List.getD_eq_getElem _ _ hi, e]⟩
  · intro i hi
    rw [mem_range] at hi
    have h1 := hg i _ (hpi i hi)
    have hb : bins.getD (perm.getD i 0) 0 = bins[perm.getD i 0]'(by rw [hl]; exact hlt i hi) :=
      List.getD_eq_getElem _ _ _
    rw [List.getElem?_map, hpi i hi, Option.map_some, hb, List.getElem?_eq_getElem (by rw [hl]; exact hlt i hi)]
    congr 1
    rw [List.getD_eq_getElem?_getD, List.getD_eq_getElem?_getD, h1]

end lists

theorem argsort_perm (bins : List Int) : (argsort bins).Perm (List.range bins.length) :=
  List.mergeSort_perm _ _

/-- **C54**: for all data, bins and masks, and for every outcome of the protocol's randomness, if the
shuffle-based group-by returns, entry `k` is the sum modulo `2 ^ 64` of the data in bin `k`. -/
theorem groupby_shuffle_correct (C : Curve A) (hC : CurveOk C) (S : Sym A I64 Ct Key Nonce)
    (hS : ∀ k n m, S.dec k (S.enc k n m) = some m) (dr0 dr1 : OtDraws Nonce)
    (data mask : List I64) (bins : List Int) (K : Nat)
    (hm : mask.length = data.length) (hb : bins.length = data.length) (out : List I64)
    (h : groupbyShuffle C S dr0 dr1 data mask bins K = .ok out) :
    out = (List.range K).map (groupSum data bins) := by
  set d0 := List.zipWith (fun a m => a - m) data mask with hd0
  have hd0l : d0.length = data.length := by simp [hd0, hm]
  simp only [groupbyShuffle] at h
  split at h
  · cases h
  · next s0 hs0 =>
    simp only [Except.ok.injEq] at h
    have hp : (argsort bins).Perm (List.range d0.length) := by rw [hd0l, ← hb]; exact argsort_perm bins
    have hg := apply_permutation_correct C hC S hS dr0 dr1 0 d0 (argsort bins) hp s0 hs0
    apply List.ext_getElem?
    intro k
    by_cases hk : k < K
    · rw [← h, List.getElem?_zipWith,
        segmentSum_get s0 _ K k hk (by rw [hg.1, List.length_map, hp.length_eq, List.length_range]),
        segmentSum_get mask bins K k hk (by omega),
        groupSum_perm d0 s0 bins (argsort bins) k (by omega) hp hg]
      simp only [List.getElem?_map, List.getElem?_range hk, Option.map_some, Option.some.injEq]
      unfold groupSum
      rw [hd0l, hm, ← sum_add_distrib]
      apply sum_congr rfl
      intro i hi
      rw [mem_range] at hi
      split
      · rw [List.getD_eq_getElem _ _ (by omega), List.getD_eq_getElem _ _ (by omega), List.getD_eq_getElem _ _ hi]
        simp [hd0]
      · simp
    · have e1 : out.length = K := by rw [← h]; simp [segmentSum]
      rw [List.getElem?_eq_none (by omega), List.getElem?_eq_none (by simp; omega)]

/-- **C54**: the share the receiver obtains is perfectly masked: for given data every share vector
arises from exactly one mask. -/
theorem groupby_share_masked (data d0 : List I64) (h : d0.length = data.length) :
    ∃! mask : List I64, mask.length = data.length ∧ List.zipWith (fun a m => a - m) data mask = d0 := by
  refine ⟨List.zipWith (fun a d => a - d) data d0, ⟨by simp [h], ?_⟩, ?_⟩
  · apply List.ext_getElem
    · simp [h]
    · intro i h1 h2; simp
  · rintro m ⟨hm, e⟩
    apply List.ext_getElem
    · simp [h, hm]
    · intro i h1 h2
      subst e
      simp

/-- **C54**: for ordinary draws the shuffle-based group-by returns. -/
theorem groupby_shuffle_total (C : Curve A) (hC : CurveOk C) (S : Sym A I64 Ct Key Nonce)
    (hS : ∀ k n m, S.dec k (S.enc k n m) = some m) (dr0 dr1 : OtDraws Nonce)
    (h0 : DrawsOk C dr0) (h1 : DrawsOk C dr1) (data mask : List I64) (bins : List Int) (K : Nat)
    (hm : mask.length = data.length) (hb : bins.length = data.length) :
    groupbyShuffle C S dr0 dr1 data mask bins K = .ok ((List.range K).map (groupSum data bins)) := by
  obtain ⟨o, ho⟩ := apply_permutation_total C hC S hS dr0 dr1 h0 h1 0
    (List.zipWith (fun a m => a - m) data mask) (argsort bins)
  have : ∃ out, groupbyShuffle C S dr0 dr1 data mask bins K = .ok out := by
    simp only [groupbyShuffle, ho]
    exact ⟨_, rfl⟩
  obtain ⟨out, h⟩ := this
  rw [h, groupby_shuffle_correct C hC S hS dr0 dr1 data mask bins K hm hb out h]

example : groupbyShuffle toyCurve
    (⟨fun _ => 0, fun _ n m => (n, m), fun _ c => some c.2⟩ : Sym (ZMod 11) I64 (Nat × I64) Nat Nat)
    toyOtDraws toyOtDraws [10, 20, 30] [7, -5, 100] [1, 0, 1] 3 = .ok [20, 40, 0] := by
  have hd : DrawsOk toyCurve toyOtDraws := fun i => by simp only [toyOtDraws]; decide
  rw [groupby_shuffle_total toyCurve toyCurve_ok _ (by intros; rfl) _ _ hd hd _ _ _ _ (by rfl) (by rfl)]
  decide +kernel

/-! ### BFV based -/

/-- What a BFV context carries: parameters only, public keys, or also the secret key.
/repo/mplang/backends/bfv_impl.py:62-181 -/
inductive CtxKind
  | param
  | pub
  | secret
  deriving DecidableEq, Repr

/-- A ciphertext: its slots and the context attached to it. /repo/mplang/backends/bfv_impl.py:184-192 -/
structure BfvCt (α : Type) where
  slots : Nat → α
  ctx : CtxKind

/-- Moving a ciphertext to another party: over the wire the context is reduced to its parameters,
in-process the object is handed over. /repo/mplang/backends/bfv_impl.py:194-238 -/
def wireCt {α : Type} (wire : Bool) (c : BfvCt α) : BfvCt α := if wire then { c with ctx := .param } else c

/-- Exceptions of the aggregation. -/
inductive GbErr
  | bfv (e : BfvErr)
  /-- `AttributeError`: a parameter-only context has no `encryptor`. -/
  | noEncryptor
  /-- `jnp.stack` of no arrays -/
  | noBins
  deriving DecidableEq, Repr

variable {α : Type} [CommRing α] [DecidableEq α]

/-- `bfv.mul(ct, mask)` for a raw plaintext vector, with the zero-plaintext shortcut that encrypts
zero. /repo/mplang/backends/bfv_impl.py:609-631 -/
def mulMask (c : BfvCt α) (m : List α) : Except GbErr (BfvCt α) :=
  if m.all (fun v => v = 0) then
    if c.ctx = .param then .error .noEncryptor else .ok ⟨fun _ => 0, c.ctx⟩
  else .ok ⟨bfvMulPlain c.slots m, c.ctx⟩

/-- `x[s:e]` padded to `B`: chunk `i` of a vector.
/repo/mplang/libs/mpc/analytics/groupby.py:88-98, 146-154 -/
def chunkOf {β : Type} (B : Nat) (pad : β) (l : List β) (i : Nat) : List β :=
  let s := i * B
  let e := min ((i + 1) * B) l.length
  (l.drop s).take (e - s) ++ List.replicate (B - (e - s)) pad

/-- `encode` followed by `encrypt`: the vector in the first slots, zeros after it.
/repo/mplang/libs/mpc/analytics/groupby.py:100-103 -/
def encryptVec (l : List α) : BfvCt α := ⟨fun p => l.getD p 0, .pub⟩

/-- `num_chunks`. /repo/mplang/libs/mpc/analytics/groupby.py:84 -/
def numChunks (B N : Nat) : Nat := (N + B - 1) / B

/-- `get_mask`. /repo/mplang/libs/mpc/analytics/groupby.py:146-154 -/
def binMask (B : Nat) (bins : List Int) (k i : Nat) : List α :=
  (chunkOf B (-1) bins i).map fun b => if b = (k : Int) then 1 else 0

/-- The inner loop over the chunks for one bin. /repo/mplang/libs/mpc/analytics/groupby.py:139-162 -/
def binLoop (B : Nat) (bins : List Int) (k : Nat) : List (BfvCt α × Nat) → (Nat → α) → Except GbErr (Nat → α)
  | [], acc => .ok acc
  | (c, i) :: rest, acc =>
    match mulMask c (binMask B bins k i) with
    | .error e => .error e
    | .ok m => binLoop B bins k rest (bfvAdd acc m.slots)

/-- One bin: masked sum and rotate-and-sum, starting from an encryption of zero.
/repo/mplang/libs/mpc/analytics/groupby.py:131-168 -/
def binTotal (r : Nat) (bins : List Int) (cts : List (BfvCt α)) (k : Nat) : Except GbErr (Nat → α) :=
  match binLoop (2 ^ r) bins k (cts.zip (List.range cts.length)) (fun _ => 0) with
  | .error e => .error e
  | .ok s => match rotateAndSum (2 ^ r) (2 ^ r) s with
    | .error e => .error (.bfv e)
    | .ok y => .ok y

/-- `oblivious_groupby_sum_bfv` with `poly_modulus_degree = 2 ^ (r + 1)` and plaintext modulus `t`;
`wire` says whether the parties run in different processes.  `decode_int64` centres the residues.
/repo/mplang/libs/mpc/analytics/groupby.py:32-217 -/
def groupbyBfv (t r : Nat) (wire : Bool) (data : List Int) (bins : List Int) (K : Nat) :
    Except GbErr (List Int) :=
  let enc : List (BfvCt (ZMod t)) := (List.range (numChunks (2 ^ r) data.length)).map fun i =>
    encryptVec ((chunkOf (2 ^ r) 0 data i).map fun v => ((v : Int) : ZMod t))
  let cts := enc.map (wireCt wire)
  match mapE (binTotal r bins cts) (List.range K) with
  | .error e => .error e
  | .ok sums => if sums.isEmpty then .error .noBins else .ok (sums.map fun y => (y 0).valMinAbs)

theorem chunk_getD {β : Type} (B : Nat) (pad : β) (l : List β) (i q : Nat) (hq : q < B) :
    (chunkOf B pad l i).getD q pad = l.getD (i * B + q) pad := by
  simp only [chunkOf]
  have hlen : ((l.drop (i * B)).take (min ((i + 1) * B) l.length - i * B)).length
      = min ((i + 1) * B) l.length - i * B := by
    simp only [List.length_take, List.length_drop]
    omega
  have hB : (i + 1) * B = i * B + B := by ring
  by_cases h : q < min ((i + 1) * B) l.length - i * B
  · rw [List.getD_append _ _ _ _ (by omega), List.getD_eq_getElem?_getD, List.getElem?_take_of_lt h,
      List.getElem?_drop, List.getD_eq_getElem?_getD]
  · rw [List.getD_append_right _ _ _ _ (by omega), List.getD_eq_getElem?_getD, List.getElem?_replicate,
      List.getD_eq_getElem?_getD, List.getElem?_eq_none (by omega)]
    split <;> rfl

theorem chunk_length {β : Type} (B : Nat) (pad : β) (l : List β) (i : Nat) : (chunkOf B pad l i).length = B := by
  simp only [chunkOf, List.length_append, List.length_take, List.length_drop, List.length_replicate]
  have hB : (i + 1) * B = i * B + B := by ring
  omega

theorem chunks_cover (B N : Nat) (hB : 0 < B) : N ≤ numChunks B N * B := by
  unfold numChunks
  have := Nat.div_add_mod (N + B - 1) B
  have h2 := Nat.mod_lt (N + B - 1) hB
  rw [Nat.mul_comm] at this
  omega

/-- Does every chunk contain an element of bin `k`? -/
def AllBinsPresent (B : Nat) (bins : List Int) (N K : Nat) : Prop :=
  ∀ k < K, ∀ i < numChunks B N, ∃ q < B, bins[i * B + q]? = some (k : Int)

theorem mask_getD (B : Nat) (bins : List Int) (k i q : Nat) (hq : q < B) :
    (binMask (α := α) B bins k i).getD q 0 = if bins[i * B + q]? = some (k : Int) then 1 else 0 := by
  have h := chunk_getD B (-1 : Int) bins i q hq
  have hl := chunk_length B (-1 : Int) bins i
  unfold binMask
  rw [List.getD_eq_getElem?_getD, List.getElem?_map]
  rw [List.getD_eq_getElem _ _ (by omega), List.getD_eq_getElem?_getD] at h
  rw [List.getElem?_eq_getElem (by omega), Option.map_some, Option.getD_some, h]
  cases bins[i * B + q]? with
  | none => simp
  | some b => simp

theorem mask_zero_iff [Nontrivial α] (B : Nat) (bins : List Int) (k i : Nat) :
    ((binMask (α := α) B bins k i).all fun v => v = 0) = true ↔ ∀ q < B, bins[i * B + q]? ≠ some (k : Int) := by
  have hl : (binMask (α := α) B bins k i).length = B := by simp [binMask, chunk_length]
  constructor
  · intro h q hq e
    have hm := mask_getD (α := α) B bins k i q hq
    rw [if_pos e, List.getD_eq_getElem _ _ (by omega)] at hm
    have := List.all_eq_true.mp h _ (List.getElem_mem (by omega : q < (binMask (α := α) B bins k i).length))
    simp only [decide_eq_true_eq] at this
    rw [this] at hm
    exact zero_ne_one hm
  · intro h
    rw [List.all_eq_true]
    intro v hv
    obtain ⟨q, hq, rfl⟩ := List.getElem_of_mem hv
    have hm := mask_getD (α := α) B bins k i q (by omega)
    rw [if_neg (h q (by omega)), List.getD_eq_getElem _ _ hq] at hm
    simp [hm]

/-- The value of one chunk's masked vector. -/
theorem mulMask_slots [Nontrivial α] (B : Nat) (bins : List Int) (k i : Nat) (c : BfvCt α)
    (hok : c.ctx ≠ .param ∨ ∃ q < B, bins[i * B + q]? = some (k : Int)) :
    ∃ m, mulMask c (binMask B bins k i) = .ok m ∧
      ∀ q < B, m.slots q = if bins[i * B + q]? = some (k : Int) then c.slots q else 0 := by
  unfold mulMask
  by_cases h : ((binMask (α := α) B bins k i).all fun v => v = 0) = true
  · rw [if_pos h]
    have h' := (mask_zero_iff B bins k i).mp h
    rw [if_neg (by
      rcases hok with hok | ⟨q, hq, e⟩
      · exact hok
      · exact absurd e (h' q hq))]
    exact ⟨_, rfl, fun q hq => by rw [if_neg (h' q hq)]⟩
  · rw [if_neg h]
    refine ⟨_, rfl, fun q hq => ?_⟩
    simp only [bfvMulPlain]
    rw [mask_getD B bins k i q hq]
    split <;> simp

theorem binLoop_ok [Nontrivial α] (B : Nat) (bins : List Int) (k : Nat) : ∀ (l : List (BfvCt α × Nat)) (acc : Nat → α),
    (∀ e ∈ l, e.1.ctx ≠ .param ∨ ∃ q < B, bins[e.2 * B + q]? = some (k : Int)) →
    ∃ y, binLoop B bins k l acc = .ok y ∧ ∀ q < B, y q = acc q +
      (l.map fun e => if bins[e.2 * B + q]? = some (k : Int) then e.1.slots q else 0).sum := by
  intro l
  induction l with
  | nil => intro acc _; exact ⟨acc, rfl, by simp⟩
  | cons e l ih =>
    intro acc h
    obtain ⟨c, i⟩ := e
    obtain ⟨m, hm, hv⟩ := mulMask_slots B bins k i c (h (c, i) (by simp))
    obtain ⟨y, hy, hyv⟩ := ih (bfvAdd acc m.slots) (fun e he => h e (by simp [he]))
    refine ⟨y, by simp only [binLoop, hm]; exact hy, fun q hq => ?_⟩
    rw [hyv q hq]
    simp [bfvAdd, hv q hq, add_assoc]

theorem sum_blocks {β : Type} [AddCommMonoid β] (f : Nat → β) (B : Nat) : ∀ n,
    ∑ i ∈ range n, ∑ q ∈ range B, f (i * B + q) = ∑ j ∈ range (n * B), f j := by
  intro n
  induction n with
  | zero => simp
  | succ n ih => rw [sum_range_succ, ih, Nat.succ_mul, sum_range_add]

/-- One bin of the group-by. -/
theorem binTotal_ok (t r : Nat) [Fact (1 < t)] (wire : Bool) (data : List Int) (bins : List Int) (k : Nat)
    (hl : bins.length = data.length)
    (hok : wire = false ∨ ∀ i < numChunks (2 ^ r) data.length, ∃ q < 2 ^ r, bins[i * 2 ^ r + q]? = some (k : Int)) :
    ∃ y, binTotal (α := ZMod t) r bins (((List.range (numChunks (2 ^ r) data.length)).map fun i =>
        encryptVec ((chunkOf (2 ^ r) 0 data i).map fun v => ((v : Int) : ZMod t))).map (wireCt wire)) k = .ok y ∧
      y 0 = (((groupSum data bins k : Int)) : ZMod t) := by
  set n := numChunks (2 ^ r) data.length with hn
  set cts : List (BfvCt (ZMod t)) := ((List.range n).map fun i =>
    encryptVec ((chunkOf (2 ^ r) 0 data i).map fun v => ((v : Int) : ZMod t))).map (wireCt wire) with hcts
  have hlen : cts.length = n := by simp [hcts]
  have hzip : cts.zip (List.range cts.length) = (List.range n).map fun i =>
      (wireCt wire (encryptVec ((chunkOf (2 ^ r) 0 data i).map fun v => ((v : Int) : ZMod t))), i) := by
    rw [hlen, hcts, List.map_map]
    have := zip_map_self (List.range n) fun i => i
    apply List.ext_getElem
    · simp
    · intro i h1 h2; simp
  have hslot : ∀ i q, q < 2 ^ r →
      (wireCt wire (encryptVec ((chunkOf (2 ^ r) 0 data i).map fun v => ((v : Int) : ZMod t)))).slots q
        = ((data.getD (i * 2 ^ r + q) 0 : Int) : ZMod t) := by
    intro i q hq
    have h := chunk_getD (2 ^ r) (0 : Int) data i q hq
    have hs : (wireCt wire (encryptVec ((chunkOf (2 ^ r) 0 data i).map fun v => ((v : Int) : ZMod t)))).slots
        = fun p => ((chunkOf (2 ^ r) 0 data i).map fun v => ((v : Int) : ZMod t)).getD p 0 := by
      unfold wireCt encryptVec; split <;> rfl
    rw [hs, ← h]
    simp only [List.getD_eq_getElem?_getD, List.getElem?_map]
    cases (chunkOf (2 ^ r) 0 data i)[q]? <;> simp
  obtain ⟨s, hs, hsv⟩ := binLoop_ok (α := ZMod t) (2 ^ r) bins k (cts.zip (List.range cts.length)) (fun _ => 0) (by
    rw [hzip]
    intro e he
    obtain ⟨i, hi, rfl⟩ := List.mem_map.mp he
    rcases hok with rfl | hok
    · left; simp [wireCt, encryptVec]
    · right; exact hok i (by simpa using hi))
  obtain ⟨y, hy, h0⟩ := rotate_and_sum_partial r (2 ^ r) s (by omega) (Nat.two_pow_pos r)
    (tailZero_of_pow _ r s (le_refl _))
  refine ⟨y, ?_, ?_⟩
  · unfold binTotal; rw [hs]; simp only; rw [hy]
  · rw [h0]
    have e1 : ∀ q ∈ range (2 ^ r), s q = ∑ i ∈ range n,
        (fun j => if bins[j]? = some (k : Int) then ((data.getD j 0 : Int) : ZMod t) else 0) (i * 2 ^ r + q) := by
      intro q hq
      rw [mem_range] at hq
      rw [hsv q hq, zero_add, hzip, List.map_map]
      rw [show (∑ i ∈ range n, (fun j => if bins[j]? = some (k : Int) then ((data.getD j 0 : Int) : ZMod t) else 0)
        (i * 2 ^ r + q)) = ((List.range n).map fun i =>
          if bins[i * 2 ^ r + q]? = some (k : Int) then ((data.getD (i * 2 ^ r + q) 0 : Int) : ZMod t) else 0).sum
        from rfl]
      refine congrArg List.sum (List.map_congr_left ?_)
      intro i _
      simp only [Function.comp]
      rw [hslot i q hq]
    rw [sum_congr rfl e1, sum_comm,
      sum_blocks (fun j => if bins[j]? = some (k : Int) then ((data.getD j 0 : Int) : ZMod t) else 0)]
    have hcov := chunks_cover (2 ^ r) data.length (Nat.two_pow_pos r)
    rw [window_eq hcov _ (fun j hj _ => by
      rw [List.getElem?_eq_none (by omega)]; simp)]
    unfold groupSum
    rw [Int.cast_sum]
    apply sum_congr rfl
    intro j _
    split <;> simp

theorem mapE_map {β γ ε : Type} (f : β → Except ε γ) (P : β → γ → Prop) : ∀ l : List β,
    (∀ a ∈ l, ∃ b, f a = .ok b ∧ P a b) →
    ∃ out, mapE f l = .ok out ∧ List.Forall₂ P l out := by
  intro l
  induction l with
  | nil => intro _; exact ⟨[], rfl, .nil⟩
  | cons a l ih =>
    intro h
    obtain ⟨b, hb, hp⟩ := h a (by simp)
    obtain ⟨out, ho, hf⟩ := ih (fun x hx => h x (by simp [hx]))
    exact ⟨b :: out, by simp [mapE, hb, ho], .cons hp hf⟩

/-- **C66**: for all data, bins and any number of bins except zero the BFV group-by returns, for every bin, the residue of the sum of
its elements nearest to zero modulo the plaintext modulus — in-process always, across processes
when every chunk of the data holds an element of every bin. -/
theorem groupby_bfv_mod (t r : Nat) (ht : 1 < t) (wire : Bool) (data : List Int) (bins : List Int) (K : Nat) (hK : 0 < K)
    (hl : bins.length = data.length)
    (hok : wire = false ∨ AllBinsPresent (2 ^ r) bins data.length K) :
    groupbyBfv t r wire data bins K
      = .ok ((List.range K).map fun k => (((groupSum data bins k : Int)) : ZMod t).valMinAbs) := by
  haveI : Fact (1 < t) := ⟨ht⟩
  unfold groupbyBfv
  obtain ⟨out, ho, hf⟩ := mapE_map
    (binTotal (α := ZMod t) r bins (((List.range (numChunks (2 ^ r) data.length)).map fun i =>
        encryptVec ((chunkOf (2 ^ r) 0 data i).map fun v => ((v : Int) : ZMod t))).map (wireCt wire)))
    (fun k y => y 0 = (((groupSum data bins k : Int)) : ZMod t)) (List.range K) (by
      intro k hk
      apply binTotal_ok t r wire data bins k hl
      rcases hok with h | h
      · exact Or.inl h
      · exact Or.inr (h k (by simpa using hk)))
  have hne : out.isEmpty = false := by
    have := hf.length_eq
    rw [List.length_range] at this
    cases out with
    | nil => simp at this; omega
    | cons a l => rfl
  simp only [ho, hne]
  simp only [Bool.false_eq_true, if_false]
  congr 1
  clear ho hne
  generalize List.range K = L at hf
  induction hf with
  | nil => rfl
  | cons h _ ih => simp [h, ih]

/-- **C66** (exact sums): if moreover every sum is within the centred range of the plaintext modulus,
the result is the list of exact sums. -/
theorem groupby_bfv_partial (t r : Nat) (ht : 1 < t) (wire : Bool) (data : List Int) (bins : List Int) (K : Nat) (hK : 0 < K)
    (hl : bins.length = data.length)
    (hok : wire = false ∨ AllBinsPresent (2 ^ r) bins data.length K)
    (hr : ∀ k < K, 2 * (groupSum data bins k) ≤ t - 1 ∧ -(t - 1 : Int) ≤ 2 * (groupSum data bins k)) :
    groupbyBfv t r wire data bins K = .ok ((List.range K).map (groupSum data bins)) := by
  rw [groupby_bfv_mod t r ht wire data bins K hK hl hok]
  refine congrArg Except.ok (List.map_congr_left ?_)
  intro k hk
  obtain ⟨h1, h2⟩ := hr k (by simpa using hk)
  haveI : NeZero t := ⟨by omega⟩
  rw [ZMod.valMinAbs_spec]
  refine ⟨rfl, ?_, ?_⟩ <;> omega

/-- Beyond that range the sums wrap silently: with the default plaintext modulus two elements of
`400000` in one bin give a negative number. -/
theorem groupby_bfv_wrap_violated :
    groupbyBfv 1032193 0 false [400000, 400000] [0, 0] 1 = .ok [-232193] := by
  rw [groupby_bfv_mod 1032193 0 (by omega) false _ _ _ (by omega) (by rfl) (Or.inl rfl)]
  decide +kernel

/-- Across processes the group-by raises as soon as one chunk has no element of some bin: the
received ciphertext cannot encrypt zero. -/
theorem groupby_bfv_empty_bin_violated :
    groupbyBfv 1032193 2 true [1, 2, 3] [0, 0, 0] 2 = .error .noEncryptor := by
  decide +kernel

example : groupbyBfv 1032193 1 true [1, 2, 3, -7] [0, 1, 1, 0] 2 = .ok [-6, 5] := by
  rw [groupby_bfv_partial 1032193 1 (by omega) true _ _ _ (by omega) (by rfl) (Or.inr ?_) ?_]
  · decide +kernel
  · unfold AllBinsPresent; decide +kernel
  · decide +kernel

/-! ### What the receiver is sent -/

/-- `make_relin_keys(sk)` and `make_galois_keys(sk)` return the secret context itself.
/repo/mplang/backends/bfv_impl.py:287-298 -/
def makeEvalKeys (sk : CtxKind) : CtxKind := sk

/-- Moving a key context to another party keeps everything in it (`to_json` of the secret context
saves the secret key). /repo/mplang/backends/bfv_impl.py:170-181 -/
def wireKey (k : CtxKind) : CtxKind := k

/-- The key objects the receiver gets: `pk`, `rk`, `gk`.
/repo/mplang/libs/mpc/analytics/groupby.py:61-78, 113-122 -/
def receiverKeys : List CtxKind :=
  [CtxKind.pub, makeEvalKeys .secret, makeEvalKeys .secret].map wireKey

/-- `bfv.decrypt` needs a context holding the secret key. /repo/mplang/backends/bfv_impl.py:355-371 -/
def bfvDecrypt (key : CtxKind) (c : BfvCt α) : Option (Nat → α) :=
  if key = .secret then some c.slots else none

/-- **C67** (violated): the receiver of the BFV group-by must not be able to decrypt the sender's
values, but the evaluation keys it is sent are the secret context, which decrypts every chunk. -/
theorem groupby_bfv_privacy_violated (t r : Nat) (wire : Bool) (data : List Int) :
    ∃ key ∈ receiverKeys, ∀ i < numChunks (2 ^ r) data.length,
      ∃ slots, bfvDecrypt key (wireCt wire (encryptVec ((chunkOf (2 ^ r) 0 data i).map fun v => ((v : Int) : ZMod t))))
        = some slots ∧
      ∀ q < 2 ^ r, slots q = ((data.getD (i * 2 ^ r + q) 0 : Int) : ZMod t) := by
  refine ⟨.secret, by simp [receiverKeys, makeEvalKeys, wireKey], ?_⟩
  intro i _
  refine ⟨_, rfl, ?_⟩
  intro q hq
  have h := chunk_getD (2 ^ r) (0 : Int) data i q hq
  have hs : (wireCt wire (encryptVec ((chunkOf (2 ^ r) 0 data i).map fun v => ((v : Int) : ZMod t)))).slots
      = fun p => ((chunkOf (2 ^ r) 0 data i).map fun v => ((v : Int) : ZMod t)).getD p 0 := by
    unfold wireCt encryptVec; split <;> rfl
  rw [hs, ← h]
  simp only [List.getD_eq_getElem?_getD, List.getElem?_map]
  cases (chunkOf (2 ^ r) 0 data i)[q]? <;> simp

end Verif.Mpc
