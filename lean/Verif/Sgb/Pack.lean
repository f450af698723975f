import Verif.Sgb.Hist
import Mathlib.Algebra.BigOperators.Group.List.Basic
/-!
# SecureBoost: the packed histogram pipeline (libs/ml/sgb.py:299-490): property C104

What a passive party does to the encrypted gradients of a level and what the active party reads back: masks are drawn from one
iterator, the chunks of a feature are added by a queue, the aggregated features are masked, rotated and packed into shared
ciphertexts, and the buckets are read at strided slots.  Ciphertexts are slot functions over an arbitrary commutative ring (see
`Verif.Mpc.Aggregate`); the gradients and Hessians, which go through the same steps with the same masks, are the two components
of a product ring.
-/
namespace Verif.Sgb.Pack
open Verif.Mpc Finset

variable {α : Type} [CommRing α]

inductive Err | stop | none | bfv (e : BfvErr)
  deriving DecidableEq, Repr

/-- `for _ in range(len(queue) // 2)`: pop two from the left, append the sum (sgb.py:364-367) -/
def treePass {β : Type} (add : β → β → β) : Nat → List β → List β
  | k + 1, a :: b :: q => treePass add k (q ++ [add a b])
  | _, q => q

/-- `while len(queue) > 1` (sgb.py:361-367); fuel: the queue shrinks in every round -/
def treeLoop {β : Type} (add : β → β → β) : Nat → List β → List β
  | 0, q => q
  | f + 1, q => if q.length > 1 then treeLoop add f (treePass add (q.length / 2) q) else q

/-- `tree_sum` (sgb.py:355-369) -/
def treeSum {β : Type} (add : β → β → β) (items : List β) : Option β := (treeLoop add items.length items).head?

/-- `compute_all_masks` (sgb.py:259-296): the masks of all nodes, features and chunks in that order (`v_node(v_feat(v_chunk))`,
then `reshape(-1, slot_count)`) -/
def allMasks (nNodes nFeat nChunks : Nat) (mask : Nat → Nat → Nat → Nat → α) : List (Nat → α) :=
  (List.range nNodes).flatMap fun n => (List.range nFeat).flatMap fun f => (List.range nChunks).map fun c => mask n f c

/-- `m_np` (sgb.py:342-346): ones at the first slot of every bucket's region -/
def packMask (nBuckets stride : Nat) : Nat → α := fun p => if (List.range nBuckets).any (fun b => b * stride == p) then 1 else 0

/-- `for chunk_idx in range(n_chunks)` (sgb.py:387-399): one mask per chunk from the iterator -/
def chunkLoop : List (Nat → α) → List (Nat → α) → Except Err (List (Nat → α) × List (Nat → α))
  | [], it => .ok ([], it)
  | _ :: _, [] => .error .stop
  | ct :: cts, m :: it =>
    match chunkLoop cts it with
    | .error e => .error e
    | .ok (r, it') => .ok ((fun p => ct p * m p) :: r, it')

/-- One feature (sgb.py:381-435): chunks, sum, aggregation, masking, rotation by `-i` -/
def featStep (R samples nBuckets stride : Nat) (cts : List (Nat → α)) (i : Nat) (it : List (Nat → α)) :
    Except Err ((Nat → α) × List (Nat → α)) :=
  match chunkLoop cts it with
  | .error e => .error e
  | .ok (l, it') =>
    match treeSum bfvAdd l with
    | none => .error .none
    | some acc =>
      match bucketAggregate R samples acc with
      | .error e => .error (.bfv e)
      | .ok y =>
        match bfvRotate R (fun p => y p * packMask nBuckets stride p) (-(i : Int)) with
        | .error e => .error (.bfv e)
        | .ok z => .ok (z, it')

/-- `for i, _feat_idx in enumerate(range(batch_start, batch_end))` (sgb.py:381): `k` features to go, `i` is the next -/
def featLoop (R samples nBuckets stride : Nat) (cts : List (Nat → α)) : Nat → Nat → List (Nat → α) →
    Except Err (List (Nat → α) × List (Nat → α))
  | 0, _, it => .ok ([], it)
  | k + 1, i, it =>
    match featStep R samples nBuckets stride cts i it with
    | .error e => .error e
    | .ok (z, it') =>
      match featLoop R samples nBuckets stride cts k (i + 1) it' with
      | .error e => .error e
      | .ok (r, it'') => .ok (z :: r, it'')

/-- `for batch_start in range(0, n_features, stride)` (sgb.py:374-441): `b` batches to go, starting at feature `start` -/
def batchLoop (R samples nBuckets stride nFeat : Nat) (cts : List (Nat → α)) : Nat → Nat → List (Nat → α) →
    Except Err (List (Nat → α) × List (Nat → α))
  | 0, _, it => .ok ([], it)
  | b + 1, start, it =>
    match featLoop R samples nBuckets stride cts (min (start + stride) nFeat - start) 0 it with
    | .error e => .error e
    | .ok (l, it') =>
      match treeSum bfvAdd l with
      | none => .error .none
      | some acc =>
        match batchLoop R samples nBuckets stride nFeat cts b (start + stride) it' with
        | .error e => .error e
        | .ok (r, it'') => .ok (acc :: r, it'')

/-- the number of batches of `range(0, n_features, stride)`, also `cts_per_node` (sgb.py:459) -/
def ctsPerNode (nFeat stride : Nat) : Nat := (nFeat + stride - 1) / stride

/-- `for _node_idx in range(n_nodes)` (sgb.py:371-443) -/
def nodeLoop (R samples nBuckets stride nFeat : Nat) (cts : List (Nat → α)) : Nat → List (Nat → α) →
    Except Err (List (Nat → α) × List (Nat → α))
  | 0, it => .ok ([], it)
  | n + 1, it =>
    match batchLoop R samples nBuckets stride nFeat cts (ctsPerNode nFeat stride) 0 it with
    | .error e => .error e
    | .ok (l, it') =>
      match nodeLoop R samples nBuckets stride nFeat cts n it' with
      | .error e => .error e
      | .ok (r, it'') => .ok (l ++ r, it'')

/-- `_process_decrypted_jit` before scaling (sgb.py:457-474): ciphertext `node * cts_per_node + feat // stride`, slot
`b * stride + feat % stride` -/
def unpack (nFeat stride : Nat) (vecs : List (Nat → α)) (node feat b : Nat) : Option α :=
  (vecs[node * ctsPerNode nFeat stride + feat / stride]?).map fun v => v (b * stride + feat % stride)

/-! ## `tree_sum` is the sum -/

theorem treePass_sum {β : Type} [AddCommMonoid β] : ∀ (k : Nat) (q : List β), (treePass (· + ·) k q).sum = q.sum
  | 0, q => by unfold treePass; rfl
  | k + 1, [] => by unfold treePass; rfl
  | k + 1, [a] => by unfold treePass; rfl
  | k + 1, a :: b :: q => by
    unfold treePass
    rw [treePass_sum k]
    simp only [List.sum_append, List.sum_cons, List.sum_nil, add_zero]
    rw [add_comm, add_assoc]

theorem treePass_length {β : Type} (add : β → β → β) : ∀ (k : Nat) (q : List β), 2 * k ≤ q.length →
    (treePass add k q).length = q.length - k
  | 0, q, _ => by unfold treePass; rfl
  | k + 1, [], h => by simp at h
  | k + 1, [a], h => by simp at h; omega
  | k + 1, a :: b :: q, h => by
    unfold treePass
    simp only [List.length_cons] at h
    rw [treePass_length add k _ (by simp; omega)]
    simp

theorem treeLoop_spec {β : Type} [AddCommMonoid β] : ∀ (f : Nat) (q : List β), q.length ≤ f →
    (treeLoop (· + ·) f q).sum = q.sum ∧ (treeLoop (· + ·) f q).length = min q.length 1
  | 0, q, h => by
    unfold treeLoop
    exact ⟨rfl, by omega⟩
  | f + 1, q, h => by
    unfold treeLoop
    split
    · next hq =>
      have hl := treePass_length (· + ·) (q.length / 2) q (by omega)
      have ih := treeLoop_spec f (treePass (· + ·) (q.length / 2) q) (by omega)
      rw [treePass_sum] at ih
      exact ⟨ih.1, by omega⟩
    · exact ⟨rfl, by omega⟩

/-- **C104** `tree_sum` of a non-empty list is its sum, whatever its length; of the empty list it is nothing. -/
theorem tree_sum_correct {β : Type} [AddCommMonoid β] (items : List β) :
    treeSum (· + ·) items = if items = [] then none else some items.sum := by
  unfold treeSum
  obtain ⟨h1, h2⟩ := treeLoop_spec items.length items (Nat.le_refl _)
  generalize treeLoop (· + ·) items.length items = r at h1 h2
  cases items with
  | nil => simp at h2; simp [h2]
  | cons a l =>
    rw [if_neg (by simp)]
    match r, h1, h2 with
    | [], _, h2 => simp at h2
    | [x], h1, _ => rw [← h1]; simp
    | x :: y :: t, _, h2 => simp at h2

theorem bfvAdd_eq : (bfvAdd : (Nat → α) → (Nat → α) → Nat → α) = fun x y => x + y := by funext x y p; rfl

theorem tree_sum_slots (l : List (Nat → α)) (h : l ≠ []) : treeSum bfvAdd l = some (fun p => (l.map fun v => v p).sum) := by
  rw [bfvAdd_eq, tree_sum_correct, if_neg h]
  congr 1
  funext p
  clear h
  induction l with
  | nil => rfl
  | cons a r ih => simp [Pi.add_apply, ih]

/-! ## The loops draw the right masks -/

/-- the masked chunks of a feature, added up -/
def masked (cts : List (Nat → α)) (ms : List (Nat → α)) : Nat → α := fun p => (List.zipWith (fun ct m => ct p * m p) cts ms).sum

theorem chunkLoop_ok : ∀ (cts ms it : List (Nat → α)), cts.length = ms.length →
    chunkLoop cts (ms ++ it) = .ok (List.zipWith (fun ct m => fun p => ct p * m p) cts ms, it)
  | [], [], it, _ => rfl
  | [], _ :: _, _, h => by simp at h
  | _ :: _, [], _, h => by simp at h
  | ct :: cts, m :: ms, it, h => by
    rw [List.cons_append, chunkLoop, chunkLoop_ok cts ms it (by simpa using h)]
    rfl

/-- the aggregation is total: the fixed rotation steps are below the row size -/
def aggTotal (R samples : Nat) (A : (Nat → α) → Nat → α) : Prop := ∀ x, bucketAggregate R samples x = .ok (A x)

/-- what feature `i` of a batch contributes -/
def contrib (R nBuckets stride : Nat) (A : (Nat → α) → Nat → α) (x : Nat → α) (i : Nat) : Nat → α :=
  rot R (-(i : Int)) (fun p => A x p * packMask nBuckets stride p)

theorem rot_zero' {R : Nat} (hR : 0 < R) (x : Nat → α) : rot R 0 x = x := by
  funext p
  unfold rot
  rw [add_zero, ← Int.natCast_mod, Int.toNat_natCast, Nat.mod_mod, Nat.mul_comm, Nat.div_add_mod]

theorem rotate_ok {R : Nat} (hR : 0 < R) (x : Nat → α) (i : Nat) (hi : i < R) : bfvRotate R x (-(i : Int)) = .ok (rot R (-(i : Int)) x) := by
  unfold bfvRotate
  split
  · next h => rw [h, rot_zero' hR]
  · rw [if_pos (by omega)]

theorem featStep_ok {R samples nBuckets stride : Nat} {A : (Nat → α) → Nat → α} (hA : aggTotal R samples A)
    (cts ms it : List (Nat → α)) (hc : cts ≠ []) (hl : cts.length = ms.length) (i : Nat) (hi : i < R) :
    featStep R samples nBuckets stride cts i (ms ++ it) = .ok (contrib R nBuckets stride A (masked cts ms) i, it) := by
  unfold featStep
  rw [chunkLoop_ok cts ms it hl]
  simp only []
  rw [tree_sum_slots _ (by
    intro h
    have hz : (List.zipWith (fun (ct m : Nat → α) => fun p => ct p * m p) cts ms).length = 0 := by rw [h]; rfl
    have hpos : 0 < cts.length := List.length_pos_iff.2 hc
    rw [List.length_zipWith] at hz
    omega)]
  simp only []
  have e : (fun p => ((List.zipWith (fun (ct m : Nat → α) => fun p => ct p * m p) cts ms).map fun v => v p).sum) = masked cts ms := by
    funext p
    unfold masked
    rw [List.map_zipWith]
  rw [e, hA]
  simp only []
  rw [rotate_ok (by omega) _ i hi]
  rfl

theorem featLoop_ok {R samples nBuckets stride : Nat} {A : (Nat → α) → Nat → α} (hA : aggTotal R samples A)
    (cts : List (Nat → α)) (hc : cts ≠ []) (ms : Nat → List (Nat → α)) (hl : ∀ f, cts.length = (ms f).length) (it : List (Nat → α)) :
    ∀ (k i s : Nat), i + k ≤ R →
      featLoop R samples nBuckets stride cts k i (((List.range k).flatMap fun j => ms (s + j)) ++ it) =
        .ok ((List.range k).map fun j => contrib R nBuckets stride A (masked cts (ms (s + j))) (i + j), it)
  | 0, _, _, _ => rfl
  | k + 1, i, s, hk => by
    have e1 : (List.range (k + 1)).flatMap (fun j => ms (s + j)) = ms s ++ (List.range k).flatMap fun j => ms (s + 1 + j) := by
      rw [List.range_succ_eq_map, List.flatMap_cons, List.flatMap_map]
      simp only [Nat.add_zero]
      congr 2
      funext j
      congr 1
      omega
    rw [e1, List.append_assoc, featLoop, featStep_ok hA cts (ms s) _ hc (hl s) i (by omega)]
    simp only []
    rw [featLoop_ok hA cts hc ms hl it k (i + 1) (s + 1) (by omega)]
    simp only [List.range_succ_eq_map, List.map_cons, List.map_map, Nat.add_zero]
    congr 3
    refine List.map_congr_left fun j _ => ?_
    simp only [Function.comp, Nat.succ_eq_add_one]
    rw [show s + 1 + j = s + (j + 1) by omega, show i + 1 + j = i + (j + 1) by omega]

theorem batchLoop_ok {R samples nBuckets stride nFeat : Nat} {A : (Nat → α) → Nat → α} (hA : aggTotal R samples A)
    (cts : List (Nat → α)) (hc : cts ≠ []) (ms : Nat → List (Nat → α)) (hl : ∀ f, cts.length = (ms f).length)
    (hst : 0 < stride) (hmin : min nFeat stride ≤ R) (it : List (Nat → α)) :
    ∀ (b s : Nat), (0 < b → s + (b - 1) * stride < nFeat ∧ nFeat ≤ s + b * stride) → (b = 0 → nFeat ≤ s) →
      batchLoop R samples nBuckets stride nFeat cts b s (((List.range (nFeat - s)).flatMap fun j => ms (s + j)) ++ it) =
        .ok ((List.range b).map fun q => (fun p =>
          ((List.range (min (s + q * stride + stride) nFeat - (s + q * stride))).map fun j =>
            contrib R nBuckets stride A (masked cts (ms (s + q * stride + j))) j p).sum), it)
  | 0, s, _, h0 => by
    have : nFeat - s = 0 := by have := h0 rfl; omega
    rw [this]
    rfl
  | b + 1, s, h, _ => by
    obtain ⟨h1, h2⟩ := h (by omega)
    have hs : s < nFeat := by have := Nat.zero_le ((b + 1 - 1) * stride); omega
    generalize hk : min (s + stride) nFeat - s = k
    have hk0 : 0 < k := by omega
    have e1 : (List.range (nFeat - s)).flatMap (fun j => ms (s + j)) =
        ((List.range k).flatMap fun j => ms (s + j)) ++ (List.range (nFeat - (s + stride))).flatMap fun j => ms (s + stride + j) := by
      have : nFeat - s = k + (nFeat - (s + stride)) := by omega
      rw [this, List.range_add, List.flatMap_append, List.flatMap_map]
      congr 1
      by_cases hf : s + stride ≤ nFeat
      · have : k = stride := by omega
        rw [this]
        congr 1
        funext j
        congr 1
        omega
      · have : nFeat - (s + stride) = 0 := by omega
        rw [this]
        rfl
    rw [e1, List.append_assoc, batchLoop, hk, featLoop_ok hA cts hc ms hl _ k 0 s (by omega)]
    simp only []
    rw [tree_sum_slots _ (by simp; omega)]
    simp only []
    have hb : batchLoop R samples nBuckets stride nFeat cts b (s + stride)
        (((List.range (nFeat - (s + stride))).flatMap fun j => ms (s + stride + j)) ++ it) = _ :=
      batchLoop_ok hA cts hc ms hl hst hmin it b (s + stride) (by
        intro hb
        obtain ⟨c, rfl⟩ : ∃ c, b = c + 1 := ⟨b - 1, by omega⟩
        simp only [Nat.add_sub_cancel] at h1 ⊢
        rw [Nat.succ_mul] at h1
        rw [Nat.succ_mul (c + 1)] at h2
        omega) (by
        intro hb
        subst hb
        omega)
    rw [hb]
    simp only []
    rw [List.range_succ_eq_map]
    simp only [List.map_cons, List.map_map, Nat.zero_mul, Nat.add_zero, hk, Nat.zero_add]
    congr 3
    refine List.map_congr_left fun q _ => ?_
    simp only [Function.comp, Nat.succ_eq_add_one]
    have e2 : s + stride + q * stride = s + (q + 1) * stride := by rw [Nat.succ_mul]; omega
    rw [e2]

theorem cts_bounds {nFeat stride : Nat} (hst : 0 < stride) :
    (0 < ctsPerNode nFeat stride → 0 + (ctsPerNode nFeat stride - 1) * stride < nFeat ∧ nFeat ≤ 0 + ctsPerNode nFeat stride * stride) ∧
    (ctsPerNode nFeat stride = 0 → nFeat ≤ 0) := by
  unfold ctsPerNode
  have h1 := Nat.div_add_mod (nFeat + stride - 1) stride
  have h2 := Nat.mod_lt (nFeat + stride - 1) hst
  generalize (nFeat + stride - 1) / stride = q at *
  generalize (nFeat + stride - 1) % stride = r at *
  rw [Nat.mul_comm] at h1
  refine ⟨fun hq => ?_, fun hq => by subst hq; omega⟩
  obtain ⟨c, rfl⟩ : ∃ c, q = c + 1 := ⟨q - 1, by omega⟩
  rw [Nat.succ_mul] at h1 ⊢
  simp only [Nat.add_sub_cancel]
  omega

/-- the packed ciphertext of a batch of a node -/
def packed (R nBuckets stride nFeat : Nat) (A : (Nat → α) → Nat → α) (cts : List (Nat → α)) (ms : Nat → List (Nat → α)) (q : Nat) :
    Nat → α := fun p =>
  ((List.range (min (q * stride + stride) nFeat - q * stride)).map fun j =>
    contrib R nBuckets stride A (masked cts (ms (q * stride + j))) j p).sum

theorem nodeLoop_ok {R samples nBuckets stride nFeat : Nat} {A : (Nat → α) → Nat → α} (hA : aggTotal R samples A)
    (cts : List (Nat → α)) (hc : cts ≠ []) (ms : Nat → Nat → List (Nat → α)) (hl : ∀ n f, cts.length = (ms n f).length)
    (hst : 0 < stride) (hmin : min nFeat stride ≤ R) (it : List (Nat → α)) :
    ∀ (k s : Nat), nodeLoop R samples nBuckets stride nFeat cts k
        (((List.range k).flatMap fun n => (List.range nFeat).flatMap fun f => ms (s + n) f) ++ it) =
      .ok ((List.range k).flatMap fun n => (List.range (ctsPerNode nFeat stride)).map (packed R nBuckets stride nFeat A cts (ms (s + n))), it)
  | 0, _ => rfl
  | k + 1, s => by
    have e1 : ((List.range (k + 1)).flatMap fun n => (List.range nFeat).flatMap fun f => ms (s + n) f) =
        ((List.range nFeat).flatMap fun f => ms s f) ++ (List.range k).flatMap fun n => (List.range nFeat).flatMap fun f => ms (s + 1 + n) f := by
      rw [List.range_succ_eq_map, List.flatMap_cons, List.flatMap_map]
      simp only [Nat.add_zero]
      congr 2
      funext n
      rw [show s + n.succ = s + 1 + n by omega]
    have hb := batchLoop_ok (nBuckets := nBuckets) (nFeat := nFeat) hA cts hc (ms s) (hl s) hst hmin
      (((List.range k).flatMap fun n => (List.range nFeat).flatMap fun f => ms (s + 1 + n) f) ++ it)
      (ctsPerNode nFeat stride) 0 (cts_bounds hst).1 (cts_bounds hst).2
    simp only [Nat.sub_zero, Nat.zero_add] at hb
    rw [e1, List.append_assoc, nodeLoop, hb]
    simp only []
    rw [nodeLoop_ok hA cts hc ms hl hst hmin it k (s + 1)]
    simp only []
    rw [List.range_succ_eq_map, List.flatMap_cons, List.flatMap_map]
    simp only [Nat.add_zero]
    congr 3
    refine List.flatMap_congr fun n _ => ?_
    rw [show s + n.succ = s + 1 + n by omega]

/-! ## Reading back -/

theorem packMask_iff {nBuckets stride p : Nat} :
    (packMask nBuckets stride p : α) = if ∃ b, b < nBuckets ∧ b * stride = p then 1 else 0 := by
  unfold packMask
  by_cases h : ∃ b, b < nBuckets ∧ b * stride = p
  · rw [if_pos h, if_pos]
    obtain ⟨b, h1, h2⟩ := h
    rw [List.any_eq_true]
    exact ⟨b, List.mem_range.2 h1, by simpa using h2⟩
  · rw [if_neg h, if_neg]
    intro hc
    rw [List.any_eq_true] at hc
    obtain ⟨b, h1, h2⟩ := hc
    exact h ⟨b, List.mem_range.1 h1, by simpa using h2⟩

/-- Slot `b * stride + i` of the feature rotated by `-j` within its row. -/
theorem contrib_slot {R nBuckets stride w : Nat} (A : (Nat → α) → Nat → α) (x : Nat → α)
    (hrow : ∀ b, b < nBuckets → b * stride % R + w ≤ R) (hws : w ≤ stride) {i j b : Nat} (hi : i < w) (hj : j < w) (hb : b < nBuckets) :
    contrib R nBuckets stride A x j (b * stride + i) = if i = j then A x (b * stride) else 0 := by
  have hr := hrow b hb
  have hR : 0 < R := by omega
  have hdm := Nat.div_add_mod (b * stride) R
  have hlt := Nat.mod_lt (b * stride) hR
  have hdiv : (b * stride + i) / R = b * stride / R := by
    rw [← hdm, Nat.add_assoc, Nat.mul_comm R, Nat.add_comm (_ * R), Nat.add_mul_div_right _ _ hR, Nat.div_eq_of_lt (by omega), Nat.zero_add]
    rw [Nat.add_comm, Nat.add_mul_div_right _ _ hR, Nat.div_eq_of_lt hlt, Nat.zero_add]
  have hmod : (b * stride + i) % R = b * stride % R + i := by
    rw [← hdm, Nat.add_assoc, Nat.mul_add_mod, Nat.mod_eq_of_lt (by omega)]
    rw [Nat.mul_add_mod, Nat.mod_mod]
  unfold contrib rot
  rw [hdiv, hmod]
  split
  · next h =>
    subst h
    have e : (((b * stride % R + i : Nat) : Int) + -(i : Int)) % (R : Int) = ((b * stride % R : Nat) : Int) := by
      push_cast
      rw [show ((b : Int) * stride % R + i + -(i : Int)) = (b : Int) * stride % R by ring, Int.emod_emod]
    rw [e, Int.toNat_natCast, Nat.mul_comm (b * stride / R), hdm]
    beta_reduce
    rw [packMask_iff, if_pos ⟨b, hb, rfl⟩, mul_one]
  · next hne =>
    beta_reduce
    rw [packMask_iff, if_neg, mul_zero]
    rintro ⟨b', hb', he⟩
    have hr' := hrow b' hb'
    generalize hu : ((((b * stride % R + i : Nat) : Int) + -(j : Int)) % (R : Int)).toNat = u at he
    have hRi : (R : Int) ≠ 0 := by omega
    have hnn := Int.emod_nonneg ((((b * stride % R + i : Nat) : Int) + -(j : Int))) hRi
    have hul : u < R := by
      have := Int.emod_lt_of_pos ((((b * stride % R + i : Nat) : Int) + -(j : Int))) (by omega : (0 : Int) < R)
      omega
    have hmod' : b' * stride % R = u := by
      rw [he, Nat.mul_comm, Nat.mul_add_mod, Nat.mod_eq_of_lt hul]
    rw [hmod'] at hr'
    -- u + j is the slot modulo R, and both are below R
    have hcong : ((u : Int) + j) % R = ((b * stride % R + i : Nat) : Int) % R := by
      have : (u : Int) = (((b * stride % R + i : Nat) : Int) + -(j : Int)) % (R : Int) := by omega
      rw [this, Int.emod_add_emod]
      congr 1
      ring
    have huj : u + j = b * stride % R + i := by
      have h1 : ((u + j : Nat) : Int) % R = ((b * stride % R + i : Nat) : Int) % R := by push_cast; push_cast at hcong; exact hcong
      rw [← Int.natCast_mod, ← Int.natCast_mod] at h1
      have h2 : (u + j) % R = (b * stride % R + i) % R := by exact_mod_cast h1
      rwa [Nat.mod_eq_of_lt (by omega), Nat.mod_eq_of_lt (by omega)] at h2
    -- hence b' * stride + j = b * stride + i
    have hsum : b' * stride + j = b * stride + i := by
      rw [he]
      have := hdm
      rw [Nat.mul_comm] at this
      omega
    have hbb : b' = b := by
      have h1 : (b' * stride + j) / stride = b' := by
        rw [Nat.add_comm, Nat.add_mul_div_right _ _ (by omega), Nat.div_eq_of_lt (by omega), Nat.zero_add]
      have h2 : (b * stride + i) / stride = b := by
        rw [Nat.add_comm, Nat.add_mul_div_right _ _ (by omega), Nat.div_eq_of_lt (by omega), Nat.zero_add]
      rw [← h1, hsum, h2]
    subst hbb
    omega

theorem sum_single (n i : Nat) (hi : i < n) (v : α) : ((List.range n).map fun j => if i = j then v else 0).sum = v := by
  induction n with
  | zero => omega
  | succ n ih =>
    rw [List.range_succ, List.map_append, List.sum_append]
    by_cases h : i = n
    · subst h
      have : (List.range i).map (fun j => if i = j then v else 0) = (List.range i).map fun _ => (0 : α) :=
        List.map_congr_left fun j hj => if_neg (by have := List.mem_range.1 hj; omega)
      rw [this]
      simp
    · rw [ih (by omega)]
      simp [h]

theorem flat_get {β : Type} (n q k c : Nat) (f : Nat → Nat → β) (hn : n < k) (hq : q < c) :
    ((List.range k).flatMap fun n => (List.range c).map (f n))[n * c + q]? = some (f n q) := by
  induction k with
  | zero => omega
  | succ k ih =>
    have hlen : ((List.range k).flatMap fun n => (List.range c).map (f n)).length = k * c := by
      simp [List.length_flatMap, List.map_const']
    rw [List.range_succ, List.flatMap_append]
    by_cases h : n < k
    · have : n * c + q < k * c := by
        have := Nat.mul_le_mul_right c (Nat.succ_le_of_lt h)
        rw [Nat.succ_mul] at this
        omega
      rw [List.getElem?_append_left (by rw [hlen]; exact this)]
      exact ih h
    · have : n = k := by omega
      subst this
      rw [List.getElem?_append_right (by rw [hlen]; omega), hlen, Nat.add_sub_cancel_left]
      simp [hq]

/-- The sum over the chunks of gradient times mask: what the aggregation of a node and a feature is given. -/
def chunkSum (nChunks : Nat) (ct : Nat → Nat → α) (mask : Nat → Nat → α) : Nat → α := fun p => ∑ c ∈ range nChunks, ct c p * mask c p

theorem masked_range (nChunks : Nat) (ct mask : Nat → Nat → α) :
    masked ((List.range nChunks).map ct) ((List.range nChunks).map mask) = chunkSum nChunks ct mask := by
  funext p
  unfold masked chunkSum
  rw [List.zipWith_map, List.zipWith_self]
  induction nChunks with
  | zero => rfl
  | succ n ih => rw [List.range_succ, List.map_append, List.sum_append, ih, sum_range_succ]; simp

/-- **C104** (partial): the packed pipeline neither runs out of masks nor leaves any, and what the active party reads for a node,
a feature and a bucket is the aggregate of exactly that node's and feature's masked gradients at the bucket's first slot — for
every number of nodes, features, buckets and chunks, provided no region in which features are packed crosses the end of a row.
Missing: without that proviso features are lost and mixed up (`packing_row_violated`). -/
theorem packed_pipeline_partial (R samples nBuckets stride nNodes nFeat nChunks : Nat) (ct : Nat → Nat → α)
    (mask : Nat → Nat → Nat → Nat → α) (A : (Nat → α) → Nat → α) (hA : ∀ x, bucketAggregate R samples x = .ok (A x))
    (hst : 0 < stride) (hch : 0 < nChunks) (hnb : 0 < nBuckets)
    (hrow : ∀ b, b < nBuckets → b * stride % R + min nFeat stride ≤ R) :
    ∃ vecs, nodeLoop R samples nBuckets stride nFeat ((List.range nChunks).map ct) nNodes (allMasks nNodes nFeat nChunks mask) =
        .ok (vecs, []) ∧
      ∀ node feat b, node < nNodes → feat < nFeat → b < nBuckets →
        unpack nFeat stride vecs node feat b = some (A (chunkSum nChunks ct (mask node feat)) (b * stride)) := by
  have hmin : min nFeat stride ≤ R := by have := hrow 0 hnb; omega
  have hne : (List.range nChunks).map ct ≠ [] := by simp; omega
  have h := nodeLoop_ok (nBuckets := nBuckets) (nFeat := nFeat) (stride := stride) (samples := samples) (R := R) hA
    ((List.range nChunks).map ct) hne (fun n f => (List.range nChunks).map fun c => mask n f c) (by intro n f; simp) hst hmin [] nNodes 0
  simp only [Nat.zero_add, List.append_nil] at h
  refine ⟨_, h, ?_⟩
  intro node feat b hn hf hb
  have hq : feat / stride < ctsPerNode nFeat stride := by
    unfold ctsPerNode
    rw [Nat.div_lt_iff_lt_mul hst]
    have h1 := Nat.div_add_mod (nFeat + stride - 1) stride
    have h2 := Nat.mod_lt (nFeat + stride - 1) hst
    rw [Nat.mul_comm] at h1
    omega
  unfold unpack
  rw [flat_get node (feat / stride) nNodes (ctsPerNode nFeat stride) _ hn hq]
  simp only [Option.map_some]
  congr 1
  have hdm := Nat.div_add_mod feat stride
  have hml := Nat.mod_lt feat hst
  rw [Nat.mul_comm] at hdm
  generalize feat / stride = q at *
  generalize hi : feat % stride = i at *
  unfold packed
  have e : (List.range (min (q * stride + stride) nFeat - q * stride)).map (fun j =>
      contrib R nBuckets stride A (masked ((List.range nChunks).map ct) ((List.range nChunks).map fun c => mask node (q * stride + j) c)) j
        (b * stride + i)) =
      (List.range (min (q * stride + stride) nFeat - q * stride)).map (fun j =>
        if i = j then A (chunkSum nChunks ct (mask node feat)) (b * stride) else 0) := by
    refine List.map_congr_left fun j hj => ?_
    have hj' := List.mem_range.1 hj
    rw [contrib_slot (w := min nFeat stride) A _ hrow (by omega) (by omega) (by omega) hb]
    split
    · next hij =>
      subst hij
      rw [show (fun c => mask node (q * stride + i) c) = mask node feat from by rw [hdm], masked_range]
    · rfl
  rw [e, sum_single _ _ (by omega)]

/-- The aggregation of the pipeline, explicitly: windows of `2^⌈log2 samples⌉` slots, cyclic within the row. -/
def window (R samples : Nat) (x : Nat → α) : Nat → α := fun p => ∑ q ∈ range (2 ^ Nat.clog 2 samples), rot R (q : Int) x p

theorem window_total (R samples : Nat) (hR : 0 < R) (hs : samples ≤ R) (x : Nat → α) :
    bucketAggregate R samples x = .ok (window R samples x) :=
  rowSum_window (R := R) (maxStep := 1024) (k := samples) (by omega) hs hR x

theorem window_zero (R samples : Nat) : window R samples (fun _ => (0 : α)) = fun _ => 0 := by
  funext p
  exact sum_eq_zero fun q _ => rfl

/-- The gradients of the witness: one sample, in the first slot of bucket 4. -/
def oneSlot : Nat → Nat → α := fun _ p => if p = 3640 then 1 else 0
/-- The masks of the witness: feature 456 selects everything, the others nothing. -/
def lastFeature : Nat → Nat → Nat → Nat → α := fun _ f _ _ => if f = 456 then 1 else 0

theorem window_one : window 4096 64 (fun p => if p = 3640 then (1 : α) else 0) 3640 = 1 := by
  unfold window
  rw [sum_eq_single 0]
  · simp [rot]
  · intro q hq hne
    have hc : Nat.clog 2 64 = 6 := Nat.clog_pow 2 6 (by omega)
    rw [hc] at hq
    have hq' := mem_range.1 hq
    have e : ((((3640 % 4096 : Nat) : Int) + (q : Int)) % ((4096 : Nat) : Int)).toNat = 3640 + q := by omega
    unfold rot
    rw [e]
    exact if_neg (by omega)
  · intro h
    exact absurd (mem_range.2 (Nat.two_pow_pos _)) h

/-- **C104** disagreement: with the default `max_bin = 8` there are nine buckets in 8192 slots, so the region of bucket 4 (slots
3640 to 4549) crosses the end of the first row at 4096.  With 457 features at a passive party, bucket 4 of the last feature is
read as empty, and its content is added to bucket 0 of the first feature. -/
theorem packing_row_violated [Nontrivial α] :
    ∃ vecs : List (Nat → α), nodeLoop 4096 64 9 910 457 ((List.range 1).map oneSlot) 1 (allMasks 1 457 1 lastFeature) = .ok (vecs, []) ∧
      unpack 457 910 vecs 0 456 4 = some 0 ∧ window 4096 64 (chunkSum 1 (oneSlot (α := α)) (lastFeature 0 456)) (4 * 910) = 1 ∧
      unpack 457 910 vecs 0 0 0 = some 1 ∧ window 4096 64 (chunkSum 1 (oneSlot (α := α)) (lastFeature 0 0)) (0 * 910) = 0 := by
  have h := nodeLoop_ok (α := α) (nBuckets := 9) (nFeat := 457) (stride := 910) (samples := 64) (R := 4096)
    (fun x => window_total 4096 64 (by omega) (by omega) x)
    ((List.range 1).map oneSlot) (by simp) (fun n f => (List.range 1).map fun c => lastFeature n f c) (by intro n f; simp) (by omega) (by omega) [] 1 0
  simp only [Nat.zero_add, List.append_nil] at h
  have hx : ∀ f, chunkSum 1 (oneSlot (α := α)) (lastFeature 0 f) = if f = 456 then (fun p => if p = 3640 then 1 else 0) else fun _ => 0 := by
    intro f
    funext p
    unfold chunkSum oneSlot lastFeature
    rw [sum_range_one]
    by_cases hf : f = 456 <;> by_cases hp : p = 3640 <;> simp [hf, hp]
  have hcts : ctsPerNode 457 910 = 1 := by decide
  have hget : ∀ p, packed 4096 9 910 457 (window 4096 64) ((List.range 1).map oneSlot)
      (fun f => (List.range 1).map fun c => (lastFeature 0 f c : Nat → α)) 0 p =
      contrib 4096 9 910 (window 4096 64) (fun p => if p = 3640 then 1 else 0) 456 p := by
    intro p
    unfold packed
    rw [show min (0 * 910 + 910) 457 - 0 * 910 = 457 by omega]
    have : (List.range 457).map (fun j => contrib 4096 9 910 (window 4096 64)
        (masked ((List.range 1).map oneSlot) ((List.range 1).map fun c => (lastFeature 0 (0 * 910 + j) c : Nat → α))) j p) =
        (List.range 457).map fun j => if 456 = j then contrib 4096 9 910 (window 4096 64) (fun p => if p = 3640 then (1 : α) else 0) 456 p else 0 := by
      refine List.map_congr_left fun j _ => ?_
      rw [Nat.zero_mul, Nat.zero_add, show (fun c => (lastFeature 0 j c : Nat → α)) = lastFeature 0 j from rfl, masked_range, hx]
      by_cases hj : j = 456
      · subst hj; rw [if_pos rfl, if_pos rfl]
      · rw [if_neg hj, if_neg (fun e => hj e.symm)]
        unfold contrib
        rw [window_zero]
        simp [rot]
    rw [this, sum_single 457 456 (by omega)]
  have e1 : (((4096 % 4096 : Nat) : Int) + -((456 : Nat) : Int)) % ((4096 : Nat) : Int) = 3640 := by decide
  have e0 : (((0 % 4096 : Nat) : Int) + -((456 : Nat) : Int)) % ((4096 : Nat) : Int) = 3640 := by decide
  refine ⟨_, h, ?_, ?_, ?_, ?_⟩
  · unfold unpack
    rw [hcts, flat_get 0 (456 / 910) 1 1 _ (by omega) (by decide)]
    simp only [Option.map_some]
    rw [show 456 / 910 = 0 by decide, hget]
    unfold contrib rot
    rw [show 4 * 910 + 456 % 910 = 4096 by decide, e1]
    beta_reduce
    rw [packMask_iff, if_neg, mul_zero]
    rintro ⟨b, hb, he⟩
    have : b * 910 = 7736 := he
    omega
  · rw [hx, if_pos rfl]; exact window_one
  · unfold unpack
    rw [hcts, flat_get 0 (0 / 910) 1 1 _ (by omega) (by decide)]
    simp only [Option.map_some]
    rw [show 0 / 910 = 0 by decide, hget]
    unfold contrib rot
    rw [show 0 * 910 + 0 % 910 = 0 by decide, e0]
    beta_reduce
    rw [show 0 / 4096 * 4096 + (3640 : Int).toNat = 3640 by decide, packMask_iff, if_pos ⟨4, by omega, by omega⟩, mul_one]
    exact congrArg some window_one
  · rw [hx, if_neg (by omega), window_zero]

/-- non-vacuity: the default nine buckets in 8192 slots with up to 456 features per passive party -/
example : ∀ b, b < 9 → b * 910 % 4096 + min 456 910 ≤ 4096 := by decide

example (ct : Nat → Nat → ZMod 1032193) (mask : Nat → Nat → Nat → Nat → ZMod 1032193) :
    ∃ vecs, nodeLoop 4096 64 9 910 20 ((List.range 3).map ct) 4 (allMasks 4 20 3 mask) = .ok (vecs, []) ∧
      ∀ node feat b, node < 4 → feat < 20 → b < 9 →
        unpack 20 910 vecs node feat b = some (window 4096 64 (chunkSum 3 ct (mask node feat)) (b * 910)) :=
  packed_pipeline_partial 4096 64 9 910 4 20 3 ct mask _ (window_total 4096 64 (by omega) (by omega)) (by omega) (by omega) (by omega) (by decide)

end Verif.Sgb.Pack
